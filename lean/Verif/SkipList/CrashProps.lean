import Verif.SkipList.Crash
import Verif.SkipList.Props
import Verif.CrashSpec

/-!
# Properties of simplePSkiplist under crashes (C93, C94)
-/

namespace Verif.SkipListProps

open Verif SkipList MapSpec CrashSpec

variable {K V : Type} [LinearOrder K] {L : Nat} {minKey : K} {c : Nat} {s : SL K V} {lst : Nat → List Nat} {key : Nat → K}
  {val : Nat → V}

theorem applyAll_append (s : SL K V) (a b : List (Write K V)) : applyAll s (a ++ b) = applyAll (applyAll s a) b :=
  List.foldl_append

/-- The assignments of one level. -/
def pair (s : SL K V) (key : Nat → K) (k : K) (lst : Nat → List Nat) (i : Nat) : List (Write K V) :=
  [.fwd s.fresh i (post key k (lst i)).head?, .fwd (pred key k (lst i)) i (some s.fresh)]

theorem linkWrites_eq (I : Inv L minKey c s lst key val) (k : K) {u : Nat → Option Nat} : ∀ (n i : Nat), i + n ≤ L →
    (∀ j, j < i + n → u j = some (pred key k (lst j))) →
    linkWrites L s.heap s.fresh u i n = .ok ((List.range' i n).flatMap (pair s key k lst))
  | 0, i, _, _ => rfl
  | n + 1, i, hL, hu => by
    rw [linkWrites, if_pos (by omega), hu i (by omega), Res.ofOption_some, Res.ok_bind,
      fwdAt_eq (by omega) (I.pred_next k (by omega)), Res.ok_bind,
      linkWrites_eq I k n (i + 1) (by omega) (fun j hj => hu j (by omega)), Res.ok_bind]
    rfl

/-- The heap after the node is written and linked into the levels below `j`. -/
structure Linked (s : SL K V) (key : Nat → K) (k : K) (lst : Nat → List Nat) (node : Node K V) (j : Nat)
    (h' : Nat → Option (Node K V)) : Prop where
  data : SameData (put s.heap s.fresh (some node)) h'
  low : ∀ i, i < j → ∀ b, fw h' i b = if b = s.fresh then fw s.heap i (pred key k (lst i)) else
      if b = pred key k (lst i) then some (some s.fresh) else fw s.heap i b
  high : ∀ i, j ≤ i → ∀ b, b ≠ s.fresh → fw h' i b = fw s.heap i b

theorem fwd_apply (t : SL K V) (a i : Nat) (x : Option Nat) (ha : (t.heap a).isSome = true) :
    SameData t.heap (Write.apply t (.fwd a i x)).heap ∧
      (∀ b j, fw (Write.apply t (.fwd a i x)).heap j b = if j = i ∧ b = a then some x else fw t.heap j b) := by
  obtain ⟨n, hn⟩ := Option.isSome_iff_exists.1 ha
  constructor
  · intro b
    simp only [Write.apply, put]
    by_cases hb : b = a
    · rw [if_pos hb, hb, hn]; rfl
    · rw [if_neg hb]
  · intro b j
    simp only [Write.apply, put, fw]
    by_cases hb : b = a
    · simp only [hb, if_true, hn, Option.map_some, and_true]
      unfold put
      split <;> rfl
    · simp only [hb, if_false, and_false]

omit [LinearOrder K] in
theorem _root_.Verif.SkipList.SameData.isSome {h h' : Nat → Option (Node K V)} (d : SameData h h') (a : Nat) : (h' a).isSome = (h a).isSome := by
  have := congrArg Option.isSome (d a)
  simpa using this

omit [LinearOrder K] in
theorem _root_.Verif.SkipList.SameData.trans {h h' h'' : Nat → Option (Node K V)} (d : SameData h h') (d' : SameData h' h'') : SameData h h'' :=
  fun a => (d' a).trans (d a)

theorem pred_there (I : Inv L minKey c s lst key val) (k : K) (j : Nat) :
    pred key k (lst j) ≠ s.fresh ∧ (s.heap (pred key k (lst j))).isSome = true := by
  rcases pred_cases (key := key) k (lst j) with ⟨h0, _⟩ | ⟨hm, _⟩
  · rw [h0]
    obtain ⟨n0, hn0, _⟩ := I.head
    exact ⟨by have := I.fresh_pos; omega, by rw [hn0]; rfl⟩
  · have hm0 := (I.sub0 j).subset hm
    obtain ⟨n, he, _⟩ := I.nodes _ hm0
    exact ⟨by have := I.lt_fresh hm0; omega, by rw [he]; rfl⟩

theorem Linked.half (I : Inv L minKey c s lst key val) {k : K} {node : Node K V} {j : Nat} {t : SL K V}
    (h : Linked s key k lst node j t.heap) (x : Option Nat) :
    Linked s key k lst node j (Write.apply t (.fwd s.fresh j x)).heap := by
  have hs : (t.heap s.fresh).isSome = true := by rw [h.data.isSome, put_self]; rfl
  obtain ⟨d, f⟩ := fwd_apply t s.fresh j x hs
  refine ⟨h.data.trans d, fun i hi b => ?_, fun i hi b hb => ?_⟩
  · rw [f, if_neg (by omega)]; exact h.low i hi b
  · rw [f, if_neg (fun e => hb e.2)]; exact h.high i hi b hb

theorem Linked.next (I : Inv L minKey c s lst key val) {k : K} {node : Node K V} {j : Nat} (hj : j < L) {t : SL K V}
    (h : Linked s key k lst node j t.heap) : Linked s key k lst node (j + 1) (applyAll t (pair s key k lst j)).heap := by
  obtain ⟨hp1, hp2⟩ := pred_there I k j
  have hs : (t.heap s.fresh).isSome = true := by rw [h.data.isSome, put_self]; rfl
  obtain ⟨d1, f1⟩ := fwd_apply t s.fresh j (post key k (lst j)).head? hs
  have hs2 : ((Write.apply t (.fwd s.fresh j (post key k (lst j)).head?)).heap (pred key k (lst j))).isSome = true := by
    rw [d1.isSome, h.data.isSome, put_ne _ _ hp1]; exact hp2
  obtain ⟨d2, f2⟩ := fwd_apply _ (pred key k (lst j)) j (some s.fresh) hs2
  have e : applyAll t (pair s key k lst j) = Write.apply (Write.apply t (.fwd s.fresh j (post key k (lst j)).head?))
    (.fwd (pred key k (lst j)) j (some s.fresh)) := rfl
  rw [e]
  refine ⟨h.data.trans (d1.trans d2), fun i hi b => ?_, fun i hi b hb => ?_⟩
  · rw [f2, f1]
    by_cases hij : i = j
    · subst hij
      by_cases hb : b = s.fresh
      · rw [if_neg (by rintro ⟨_, rfl⟩; exact hp1 hb), if_pos ⟨rfl, hb⟩, if_pos hb, I.pred_next k hj]
      · rw [if_neg hb]
        by_cases hb' : b = pred key k (lst i)
        · rw [if_pos ⟨rfl, hb'⟩, if_pos hb']
        · rw [if_neg (fun e => hb' e.2), if_neg (fun e => hb e.2), if_neg hb']
          exact h.high i le_rfl b hb
    · rw [if_neg (fun e => hij e.1), if_neg (fun e => hij e.1)]
      exact h.low i (by omega) b
  · rw [f2, if_neg (fun e => by omega), f1, if_neg (fun e => hb e.2)]
    exact h.high i (by omega) b hb

omit [LinearOrder K] in
/-- The members outside the heap are not changed by the links. -/
theorem pair_rest (t : SL K V) (ws : List (Write K V)) (h : ∀ w ∈ ws, ∃ a i x, w = .fwd a i x) :
    (applyAll t ws).level = t.level ∧ (applyAll t ws).nodeCount = t.nodeCount ∧ (applyAll t ws).fresh = t.fresh := by
  induction ws generalizing t with
  | nil => exact ⟨rfl, rfl, rfl⟩
  | cons w ws ih =>
    obtain ⟨a, i, x, rfl⟩ := h w (by simp)
    exact ih (Write.apply t (.fwd a i x)) (fun w hw => h w (List.mem_cons_of_mem _ hw))

theorem pairs_fwd {k : K} (n : Nat) : ∀ (i : Nat), ∀ w ∈ (List.range' i n).flatMap (pair s key k lst), ∃ a i x, w = .fwd a i x := by
  intro i w hw
  obtain ⟨j, _, hj⟩ := List.mem_flatMap.1 hw
  unfold pair at hj
  simp only [List.mem_cons, List.not_mem_nil, or_false] at hj
  rcases hj with rfl | rfl
  · exact ⟨_, _, _, rfl⟩
  · exact ⟨_, _, _, rfl⟩

/-- Every prefix of the links leaves the node linked into some levels, level 0 first. -/
theorem linked_prefix (I : Inv L minKey c s lst key val) (k : K) {node : Node K V} : ∀ (n i : Nat) (t : SL K V) (q : Nat), i + n ≤ L →
    Linked s key k lst node i t.heap →
    ∃ j, i ≤ j ∧ j ≤ i + n ∧ Linked s key k lst node j (applyAll t (((List.range' i n).flatMap (pair s key k lst)).take q)).heap ∧
      (2 * n ≤ q → j = i + n)
  | 0, i, t, q, _, h => ⟨i, le_rfl, le_rfl, by simpa [applyAll] using h, fun _ => rfl⟩
  | n + 1, i, t, q, hL, h => by
    rw [List.range'_succ, List.flatMap_cons]
    match q with
    | 0 => exact ⟨i, le_rfl, by omega, by simpa [applyAll] using h, fun hq => by omega⟩
    | 1 => exact ⟨i, le_rfl, by omega, h.half I _, fun hq => by omega⟩
    | q + 2 =>
      obtain ⟨j, h1, h2, h3, h4⟩ := linked_prefix I k n (i + 1) (applyAll t (pair s key k lst i)) q (by omega) (h.next I (by omega))
      exact ⟨j, by omega, by omega, h3, fun hq => by rw [h4 (by omega)]; omega⟩

/-- The writes of an insert of a new key. -/
def newWrites (s : SL K V) (key : Nat → K) (lst : Nat → List Nat) (k : K) (v : V) (nl : Nat) : List (Write K V) :=
  (if nl > s.level then [.level nl] else []) ++
    .node ⟨k, v, nl, fun _ => none⟩ :: ((List.range' 0 nl).flatMap (pair s key k lst) ++ [.count])

theorem insertWrites_start (I : Inv L minKey c s lst key val) (k : K) (v : V) (r : Nat) :
    insertWrites L s k v r = (do
      let n ← get s.heap ((post key k (lst 0)).head?.getD (pred key k (lst 0)))
      if n.key = k then pure (false, [.val ((post key k (lst 0)).head?.getD (pred key k (lst 0))) v])
      else
        let newLevel := randomLevel r
        let u ← (if newLevel > s.level then fillHead L (s.level + 1) (newLevel - (s.level + 1))
          (fun j => if j ≤ s.level then some (pred key k (lst j)) else none)
          else pure (fun j => if j ≤ s.level then some (pred key k (lst j)) else none))
        let ws ← linkWrites L s.heap s.fresh u 0 newLevel
        pure (true, (if newLevel > s.level then [.level newLevel] else []) ++
          .node ⟨k, v, newLevel, fun _ => none⟩ :: (ws ++ [.count]))) := by
  have hL0 : 0 < L := by have := I.lvl; omega
  unfold insertWrites
  rw [I.descend k s.level I.lvl 0 _ (Or.inl rfl), Res.ok_bind]
  dsimp only
  rw [fwdAt_eq hL0 (I.pred_next k hL0), Res.ok_bind]

theorem writes_old (I : Inv L minKey c s lst key val) {k : K} {b : Nat} {n : Node K V}
    (hb : (post key k (lst 0)).head?.getD (pred key k (lst 0)) = b) (hn : s.heap b = some n) (hk : n.key = k) (v : V) (r : Nat) :
    insertWrites L s k v r = .ok (false, [.val b v]) := by
  rw [insertWrites_start I, hb, SkipList.get, hn, Res.ofOption_some, Res.ok_bind, if_pos hk]
  rfl

theorem writes_new (I : Inv L minKey c s lst key val) {k : K} (hnk : ∀ a ∈ lst 0, key a ≠ k)
    (hempty : ¬ (lst 0 = [] ∧ k = minKey)) (v : V) {r : Nat} (hr : r < L) (hL : 2 ≤ L) :
    insertWrites L s k v r = .ok (true, newWrites s key lst k v (randomLevel r)) := by
  obtain ⟨n, hn, hnk'⟩ := I.test hnk hempty
  have hlev : randomLevel r < L := by
    unfold randomLevel; split <;> omega
  obtain ⟨u, hu, hup⟩ := I.upd k hlev
  rw [insertWrites_start I, SkipList.get, hn, Res.ofOption_some, Res.ok_bind, if_neg hnk']
  dsimp only
  rw [hu, Res.ok_bind, linkWrites_eq I k _ 0 (by omega) (fun j hj => hup j (by omega)), Res.ok_bind]
  rfl

/-- A prefix of the writes of an insert of a new key. -/
theorem Inv.crash_new (I : Inv L minKey c s lst key val) {m : K → Option V} (hst : Stores lst key val m) {k : K}
    (hnk : ∀ a ∈ lst 0, key a ≠ k) (v : V) {nl : Nat} (h1 : 1 ≤ nl) (h2 : nl < L) (t : Nat) :
    ∃ c' lst' key' val', Inv L minKey c' (applyAll s ((newWrites s key lst k v nl).take t)) lst' key' val' ∧ c' ≤ c + 1 ∧
      (Stores lst' key' val' m ∨ Stores lst' key' val' (step m (.insert k v))) := by
  -- the level alone
  have hlevel : ∀ s' : SL K V, s' = { s with level := nl } → nl > s.level → Inv L minKey c s' lst key val := by
    rintro s' rfl hg
    exact ⟨h2, I.head, I.nodes, I.fresh, I.path, I.sub, fun i hi => I.top i (by dsimp only at hi; omega), I.sorted, I.zero,
      I.count, I.len⟩
  -- from the node on
  have hrest : ∀ (s1 : SL K V), s1.heap = s.heap → s1.fresh = s.fresh → s1.nodeCount = s.nodeCount → s.level ≤ s1.level →
      nl ≤ s1.level → s1.level < L → Inv L minKey c s1 lst key val → ∀ t, ∃ c' lst' key' val', Inv L minKey c' (applyAll s1
        ((Write.node ⟨k, v, nl, fun _ => none⟩ :: ((List.range' 0 nl).flatMap (pair s key k lst) ++ [Write.count])).take t))
        lst' key' val' ∧ c' ≤ c + 1 ∧ (Stores lst' key' val' m ∨ Stores lst' key' val' (step m (.insert k v))) := by
    intro s1 e1 e2 e3 e4 e5 e6 I1 t
    match t with
    | 0 => exact ⟨c, lst, key, val, I1, by omega, Or.inl hst⟩
    | t + 1 =>
      rw [List.take_succ_cons, List.take_append]
      have hlen : ((List.range' 0 nl).flatMap (pair s key k lst)).length = 2 * nl := by
        simp [pair, List.length_flatMap, Nat.mul_comm]
      rw [hlen]
      have h0 : Linked s key k lst ⟨k, v, nl, fun _ => none⟩ 0 (Write.apply s1 (.node ⟨k, v, nl, fun _ => none⟩)).heap := by
        refine ⟨?_, fun i hi => absurd hi (by omega), fun i _ b hb => ?_⟩
        · intro a; simp only [Write.apply]; rw [e1, e2]
        · simp only [Write.apply, fw]; rw [e1, e2, put_ne _ _ hb]
      obtain ⟨j, j1, j2, j3, j4⟩ := linked_prefix I k nl 0 _ t (by omega) h0
      obtain ⟨p1, p2, p3⟩ := pair_rest (Write.apply s1 (.node ⟨k, v, nl, fun _ => none⟩))
        (((List.range' 0 nl).flatMap (pair s key k lst)).take t) (fun w hw => pairs_fwd nl 0 w (List.mem_of_mem_take hw))
      have happ : ∀ X : List (Write K V), applyAll s1 (.node ⟨k, v, nl, fun _ => none⟩ :: X) =
        applyAll (Write.apply s1 (.node ⟨k, v, nl, fun _ => none⟩)) X := fun _ => rfl
      rw [happ, applyAll_append]
      generalize applyAll (Write.apply s1 (.node ⟨k, v, nl, fun _ => none⟩))
        (((List.range' 0 nl).flatMap (pair s key k lst)).take t) = sr at *
      have q1 : sr.level = s1.level := p1
      have q2 : sr.nodeCount = s.nodeCount := p2.trans e3
      have q3 : sr.fresh = s.fresh + 1 := by rw [p3, ← e2]; rfl
      have hcnt := I.count
      by_cases hfull : 2 * nl < t
      · have hj : j = nl := by rw [j4 (by omega)]; omega
        subst hj
        have e : ([Write.count] : List (Write K V)).take (t - 2 * j) = [.count] := by
          rw [List.take_of_length_le (by simp; omega)]
        rw [e]
        have hs : applyAll sr [Write.count] = ⟨s1.level, s.nodeCount + 1, sr.heap, s.fresh + 1⟩ := by
          rw [← q1, ← q2, ← q3]; rfl
        rw [hs]
        exact ⟨c, _, _, _, I.linked hnk _ rfl rfl j3.data j3.low j3.high e4 e5 e6 (by rw [if_pos (by omega)]; omega),
          by omega, Or.inr (I.linked_stores hst hnk (by omega) v)⟩
      · have e : ([Write.count] : List (Write K V)).take (t - 2 * nl) = [] := by
          rw [show t - 2 * nl = 0 by omega]; rfl
        rw [e]
        have hs : applyAll sr ([] : List (Write K V)) = ⟨s1.level, s.nodeCount, sr.heap, s.fresh + 1⟩ := by
          rw [← q1, ← q2, ← q3]; rfl
        rw [hs]
        by_cases hj0 : 0 < j
        · exact ⟨c + 1, _, _, _, I.linked hnk _ rfl rfl j3.data j3.low j3.high e4 (by omega) e6
            (by rw [if_pos hj0]; omega), le_rfl, Or.inr (I.linked_stores hst hnk hj0 v)⟩
        · have hj : j = 0 := by omega
          subst hj
          refine ⟨c, _, _, _, I.linked (v := v) hnk _ rfl rfl j3.data j3.low j3.high e4 (by omega) e6
            (by rw [if_neg (by omega)]; omega), by omega, Or.inl ?_⟩
          intro k' v'
          rw [hst k' v']
          simp only [Nat.not_lt_zero, if_false]
          constructor
          · rintro ⟨a, ha, x1, x2⟩
            have := I.lt_fresh ha
            exact ⟨a, ha, by rw [put_ne _ _ (by omega), x1], by rw [put_ne _ _ (by omega), x2]⟩
          · rintro ⟨a, ha, x1, x2⟩
            have := I.lt_fresh ha
            rw [put_ne _ _ (by omega)] at x1 x2
            exact ⟨a, ha, x1, x2⟩
  unfold newWrites
  by_cases hg : nl > s.level
  · rw [if_pos hg]
    match t with
    | 0 => exact ⟨c, lst, key, val, I, by omega, Or.inl hst⟩
    | t + 1 =>
      have e : applyAll s (([Write.level nl] ++ Write.node ⟨k, v, nl, fun _ => none⟩ ::
          ((List.range' 0 nl).flatMap (pair s key k lst) ++ [Write.count])).take (t + 1)) =
        applyAll ({ s with level := nl }) ((Write.node ⟨k, v, nl, fun _ => none⟩ ::
          ((List.range' 0 nl).flatMap (pair s key k lst) ++ [Write.count])).take t) := rfl
      rw [e]
      exact hrest { s with level := nl } rfl rfl rfl (by dsimp only; omega) le_rfl h2 (hlevel _ rfl hg) t
  · rw [if_neg hg, List.nil_append]
    exact hrest s rfl rfl rfl le_rfl (by omega) I.lvl I t

/-- A crash inside an insert. -/
theorem Inv.crash (I : Inv L minKey c s lst key val) {m : K → Option V} (hst : Stores lst key val m) (k : K) (v : V)
    {r : Nat} (hr : r < L) (hL : 2 ≤ L) (hnd : ¬ Dropped minKey k m) (t : Nat) :
    ∃ s' c' lst' key' val', crashInsert L s k v r t = .ok s' ∧ Inv L minKey c' s' lst' key' val' ∧ c' ≤ c + 1 ∧
      (Stores lst' key' val' m ∨ Stores lst' key' val' (step m (.insert k v))) := by
  rcases I.next_key k with ⟨y, hy, hpy, hk⟩ | hnk
  · obtain ⟨n, hn, h1, h2⟩ := I.nodes y hy
    have hw := writes_old I (show (post key k (lst 0)).head?.getD (pred key k (lst 0)) = y by rw [hpy]; rfl) hn
      (h1.trans hk) v r
    unfold crashInsert
    rw [hw, Res.ok_bind]
    match t with
    | 0 => exact ⟨s, c, lst, key, val, rfl, I, by omega, Or.inl hst⟩
    | t + 1 =>
      refine ⟨_, c, lst, key, put val y v, rfl, ?_, by omega, Or.inr (hst.write I.sorted hy hk)⟩
      have e : applyAll s (([Write.val y v] : List (Write K V)).take (t + 1)) =
          { s with heap := put s.heap y (some { n with val := v }) } := by
        rw [List.take_of_length_le (by simp)]
        simp only [applyAll, List.foldl_cons, List.foldl_nil, Write.apply, hn, Option.map_some]
      dsimp only
      rw [e]
      exact I.write hn (fun a _ hab => put_ne _ _ hab) (fun _ => put_self _ _ _)
  · have hempty : ¬ (lst 0 = [] ∧ k = minKey) := by
      rintro ⟨h1, h2⟩
      exact hnd ⟨h2, fun x => hst.none.2 (by rw [h1]; simp)⟩
    have hlev : randomLevel r < L ∧ 1 ≤ randomLevel r := by
      unfold randomLevel; split <;> omega
    obtain ⟨c', lst', key', val', h1, h2, h3⟩ := Inv.crash_new I hst hnk v hlev.2 hlev.1 t
    refine ⟨_, c', lst', key', val', ?_, h1, h2, h3⟩
    unfold crashInsert
    rw [writes_new I hnk hempty v hr hL, Res.ok_bind]
    rfl

/-! ## The assignments are those of `insert` -/

theorem link_writes {x : Nat} {u : Nat → Option Nat} {h : Nat → Option (Node K V)} : ∀ (n i : Nat) (ws : List (Write K V))
    (t : SL K V), linkWrites L h x u i n = .ok ws → (t.heap x).isSome = true →
    (∀ j p, i ≤ j → j < i + n → u j = some p → fwdAt L t.heap p j = fwdAt L h p j) →
    link L x u i n t.heap = .ok (applyAll t ws).heap
  | 0, i, ws, t, hw, _, _ => by
    rw [linkWrites] at hw
    injection hw with hw
    subst hw
    rfl
  | n + 1, i, ws, t, hw, hx, hr => by
    rw [linkWrites] at hw
    obtain ⟨p, hp, hw⟩ := Res.bind_eq_ok.1 hw
    obtain ⟨nx, hnx, hw⟩ := Res.bind_eq_ok.1 hw
    obtain ⟨ws', hws, hw⟩ := Res.bind_eq_ok.1 hw
    have hiL : i < L := by
      by_contra hc
      rw [if_neg hc] at hp
      exact absurd hp (by simp)
    rw [if_pos hiL] at hp
    have hup : u i = some p := by
      cases hu : u i with
      | none => rw [hu] at hp; exact absurd hp (by simp [Res.ofOption])
      | some q => rw [hu, Res.ofOption_some] at hp; injection hp with hp; rw [hp]
    have hw : Write.fwd x i nx :: .fwd p i (some x) :: ws' = ws := by
      injection hw
    subst hw
    obtain ⟨n1, hn1⟩ := Option.isSome_iff_exists.1 hx
    have hnx' : fwdAt L t.heap p i = .ok nx := by rw [hr i p le_rfl (by omega) hup]; exact hnx
    have hps : (t.heap p).isSome = true := by
      cases hh : t.heap p with
      | none => rw [fwdAt, SkipList.get, hh] at hnx'; exact absurd hnx' (by simp [Res.ofOption, bind, Res.bind])
      | some _ => rfl
    have hset : ∀ (t : SL K V) (a : Nat) (y : Option Nat), (t.heap a).isSome = true →
        setFwd L t.heap a i y = .ok (Write.apply t (.fwd a i y)).heap := by
      intro t a y ha
      obtain ⟨n2, hn2⟩ := Option.isSome_iff_exists.1 ha
      rw [setFwd, SkipList.get, hn2, Res.ofOption_some, Res.ok_bind, if_pos hiL]
      simp only [Write.apply, hn2, Option.map_some]
      rfl
    have hd1 := (fwd_apply t x i nx hx).1
    have hps' : ((Write.apply t (.fwd x i nx)).heap p).isSome = true := by rw [hd1.isSome]; exact hps
    have hd2 := (fwd_apply _ p i (some x) hps').1
    rw [link, if_pos hiL, hp, Res.ok_bind, hnx', Res.ok_bind, hset t x nx hx, Res.ok_bind,
      hset (Write.apply t (.fwd x i nx)) p (some x) hps', Res.ok_bind]
    refine link_writes n (i + 1) ws' (Write.apply (Write.apply t (.fwd x i nx)) (.fwd p i (some x))) hws ?_ ?_
    · rw [hd2.isSome, hd1.isSome]; exact hx
    · intro j q hj hjn hq
      rw [← hr j q (by omega) (by omega) hq]
      have hread : ∀ (t : SL K V) (a : Nat) (y : Option Nat), fwdAt L (Write.apply t (.fwd a i y)).heap q j = fwdAt L t.heap q j := by
        intro t a y
        unfold fwdAt SkipList.get
        simp only [Write.apply, put]
        by_cases hqa : q = a
        · rw [if_pos hqa, hqa]
          cases t.heap a with
          | none => rfl
          | some n3 =>
            simp only [Option.map_some, Res.ofOption_some, Res.ok_bind]
            by_cases hjL : j < L
            · rw [if_pos hjL, if_pos hjL]
              simp only [put, if_neg (show ¬ j = i by omega)]
            · rw [if_neg hjL, if_neg hjL]
        · rw [if_neg hqa]
      rw [hread, hread]

/-- With all assignments done, the list is that of the completed insert. -/
theorem insert_writes (I : Inv L minKey c s lst key val) {m : K → Option V} (hst : Stores lst key val m) (k : K) (v : V)
    {r : Nat} (hr : r < L) (hL : 2 ≤ L) :
    ∃ b ws, insertWrites L s k v r = .ok (b, ws) ∧ insert L s k v r = .ok (b, applyAll s ws) := by
  have hold : ∀ (b : Nat) (n : Node K V), (post key k (lst 0)).head?.getD (pred key k (lst 0)) = b → s.heap b = some n →
      n.key = k → ∃ b ws, insertWrites L s k v r = .ok (b, ws) ∧ insert L s k v r = .ok (b, applyAll s ws) := by
    intro b n hb hn hk
    refine ⟨_, _, writes_old I hb hn hk v r, ?_⟩
    rw [I.insert_start, hb, SkipList.get, hn, Res.ofOption_some, Res.ok_bind, if_pos hk]
    simp only [applyAll, List.foldl_cons, List.foldl_nil, Write.apply, hn, Option.map_some]
    rfl
  rcases I.next_key k with ⟨y, hy, hpy, hk⟩ | hnk
  · obtain ⟨n, hn, h1, h2⟩ := I.nodes y hy
    exact hold y n (by rw [hpy]; rfl) hn (h1.trans hk)
  by_cases hempty : lst 0 = [] ∧ k = minKey
  · obtain ⟨n0, hn0, hk0⟩ := I.head
    exact hold 0 n0 (by rw [hempty.1]; rfl) hn0 (by rw [hk0, hempty.2])
  · obtain ⟨n, hn, hnk'⟩ := I.test hnk hempty
    have hlev : randomLevel r < L := by
      unfold randomLevel; split <;> omega
    obtain ⟨u, hu, hup⟩ := I.upd k hlev
    refine ⟨_, _, writes_new I hnk hempty v hr hL, ?_⟩
    rw [I.insert_start, SkipList.get, hn, Res.ofOption_some, Res.ok_bind, if_neg hnk']
    dsimp only
    have hlw := linkWrites_eq I k (randomLevel r) 0 (by omega) (fun j hj => hup j (by omega))
    -- the list when the links begin
    generalize hs1 : (if randomLevel r > s.level then { s with level := randomLevel r } else s : SL K V) = s1
    have e1 : s1.heap = s.heap ∧ s1.fresh = s.fresh ∧ s1.nodeCount = s.nodeCount ∧
        s1.level = (if randomLevel r > s.level then randomLevel r else s.level) := by
      rw [← hs1]; split <;> exact ⟨rfl, rfl, rfl, rfl⟩
    have hap : applyAll s (newWrites s key lst k v (randomLevel r)) =
        Write.apply (applyAll (Write.apply s1 (.node ⟨k, v, randomLevel r, fun _ => none⟩))
          ((List.range' 0 (randomLevel r)).flatMap (pair s key k lst))) .count := by
      unfold newWrites
      rw [applyAll_append, ← hs1]
      have : applyAll s (if randomLevel r > s.level then [Write.level (randomLevel r)] else []) =
          (if randomLevel r > s.level then { s with level := randomLevel r } else s) := by split <;> rfl
      rw [this]
      have happ : ∀ (z : SL K V) (w : Write K V) (X : List (Write K V)), applyAll z (w :: X) =
        applyAll (Write.apply z w) X := fun _ _ _ => rfl
      rw [happ, applyAll_append]
      rfl
    have hl := link_writes (randomLevel r) 0 _ (Write.apply s1 (.node ⟨k, v, randomLevel r, fun _ => none⟩)) hlw
      (by simp only [Write.apply]; rw [e1.2.1, put_self]; rfl)
      (fun j p _ hj hp => by
        have hj : j < randomLevel r := by omega
        rw [hup j hj] at hp
        injection hp with hp
        unfold fwdAt SkipList.get
        simp only [Write.apply]
        rw [e1.1, e1.2.1, put_ne _ _ (by rw [← hp]; exact (pred_there I k j).1)])
    have hheap : (Write.apply s1 (.node ⟨k, v, randomLevel r, fun _ => none⟩)).heap =
        put s.heap s.fresh (some ⟨k, v, randomLevel r, fun _ => none⟩) := by
      simp only [Write.apply]; rw [e1.1, e1.2.1]
    obtain ⟨p1, p2, p3⟩ := pair_rest (Write.apply s1 (.node ⟨k, v, randomLevel r, fun _ => none⟩))
      ((List.range' 0 (randomLevel r)).flatMap (pair s key k lst)) (fun w hw => pairs_fwd _ 0 w hw)
    rw [hu, Res.ok_bind, ← hheap, hl, Res.ok_bind, hap]
    generalize applyAll (Write.apply s1 (.node ⟨k, v, randomLevel r, fun _ => none⟩))
      ((List.range' 0 (randomLevel r)).flatMap (pair s key k lst)) = sr at *
    have q1 : sr.level = (if randomLevel r > s.level then randomLevel r else s.level) := p1.trans e1.2.2.2
    have q2 : sr.nodeCount = s.nodeCount := p2.trans e1.2.2.1
    have q3 : sr.fresh = s.fresh + 1 := by rw [p3, ← e1.2.1]; rfl
    simp only [Write.apply]
    rw [q1, q2, q3]
    rfl

/-! ## Histories with crashes -/

/-- An event: an insert, or an insert with a crash behind its first `t` assignments and the restart. -/
inductive CEv (K V : Type) where
  | ins (i : Ins K V)
  | crash (i : Ins K V) (t : Nat)

/-- The insert of an event. -/
def CEv.ins' : CEv K V → Ins K V
  | .ins i => i
  | .crash i _ => i

/-- A history; the results of the completed inserts are returned. -/
def execC (L : Nat) : SL K V → List (CEv K V) → Res (List Bool × SL K V)
  | s, [] => .ok ([], s)
  | s, .ins i :: es => do
    let r ← insert L s i.key i.val i.rnd
    let r' ← execC L r.2 es
    pure (r.1 :: r'.1, r'.2)
  | s, .crash i t :: es => do
    let s' ← crashInsert L s i.key i.val i.rnd t
    execC L s' es

/-- What a history may do to a map: `MayBe m es bs m'` says that the completed inserts return `bs` and the map is `m'`
afterwards, where every interrupted insert took effect or did not. -/
inductive MayBe : (K → Option V) → List (CEv K V) → List Bool → (K → Option V) → Prop
  | nil (m : K → Option V) : MayBe m [] [] m
  | ins {m m' : K → Option V} {es : List (CEv K V)} {bs : List Bool} (i : Ins K V) :
      MayBe (step m (.insert i.key i.val)) es bs m' → MayBe m (.ins i :: es) ((m i.key).isNone :: bs) m'
  | lost {m m' : K → Option V} {es : List (CEv K V)} {bs : List Bool} (i : Ins K V) (t : Nat) :
      MayBe m es bs m' → MayBe m (.crash i t :: es) bs m'
  | done {m m' : K → Option V} {es : List (CEv K V)} {bs : List Bool} (i : Ins K V) (t : Nat) :
      MayBe (step m (.insert i.key i.val)) es bs m' → MayBe m (.crash i t :: es) bs m'

/-- Up to and including the first completed insert, no insert is one of the smallest key value. -/
def AboveUntil (minKey : K) : List (CEv K V) → Prop
  | [] => True
  | .ins i :: _ => i.key ≠ minKey
  | .crash i _ :: es => i.key ≠ minKey ∧ AboveUntil minKey es

/-- The number of crashes. -/
def crashes : List (CEv K V) → Nat
  | [] => 0
  | .ins _ :: es => crashes es
  | .crash _ _ :: es => crashes es + 1

theorem execC_ok (hL : 2 ≤ L) : ∀ (es : List (CEv K V)) (c : Nat) (s : SL K V) (m : K → Option V)
    (lst : Nat → List Nat) (key : Nat → K) (val : Nat → V),
    Inv L minKey c s lst key val → Stores lst key val m → (∀ e ∈ es, e.ins'.rnd < L) →
    ((∃ x, m x ≠ none) ∨ AboveUntil minKey es) →
    ∃ bs s' m' c' lst' key' val', execC L s es = .ok (bs, s') ∧ MayBe m es bs m' ∧ Inv L minKey c' s' lst' key' val' ∧
      c' ≤ c + crashes es ∧ Stores lst' key' val' m'
  | [], c, s, m, lst, key, val, I, h, _, _ => ⟨[], s, m, c, lst, key, val, rfl, .nil m, I, by omega, h⟩
  | .ins i :: es, c, s, m, lst, key, val, I, h, hr, hf => by
    have hnd : ¬ Dropped minKey i.key m := by
      rintro ⟨h1, h2⟩
      rcases hf with ⟨x, hx⟩ | hf
      · exact hx (h2 x)
      · exact hf h1
    obtain ⟨s1, lst1, key1, val1, e1, I1, h1⟩ := (I.insert (r := i.rnd) h i.key i.val (hr _ (List.mem_cons_self ..)) hL).2 hnd
    obtain ⟨bs, s', m', c', lst', key', val', e', a', I', l', h'⟩ := execC_ok hL es c s1
      (step m (.insert i.key i.val)) lst1 key1 val1 I1 h1 (fun j hj => hr j (List.mem_cons_of_mem _ hj))
      (Or.inl ⟨i.key, by simp [step]⟩)
    refine ⟨_, s', m', c', lst', key', val', ?_, .ins i a', I', l', h'⟩
    rw [execC, e1, Res.ok_bind, e', Res.ok_bind]
    rfl
  | .crash i t :: es, c, s, m, lst, key, val, I, h, hr, hf => by
    have hnd : ¬ Dropped minKey i.key m := by
      rintro ⟨h1, h2⟩
      rcases hf with ⟨x, hx⟩ | hf
      · exact hx (h2 x)
      · exact hf.1 h1
    obtain ⟨s1, c1, lst1, key1, val1, e1, I1, l1, h1⟩ := Inv.crash I (r := i.rnd) h i.key i.val (hr _ (List.mem_cons_self ..)) hL hnd t
    rcases h1 with h1 | h1
    · obtain ⟨bs, s', m', c', lst', key', val', e', a', I', l', h'⟩ := execC_ok hL es c1 s1 m lst1 key1 val1 I1 h1
        (fun j hj => hr j (List.mem_cons_of_mem _ hj)) (hf.imp id And.right)
      refine ⟨bs, s', m', c', lst', key', val', ?_, .lost i t a', I', by rw [crashes]; omega, h'⟩
      rw [execC, e1, Res.ok_bind, e']
    · obtain ⟨bs, s', m', c', lst', key', val', e', a', I', l', h'⟩ := execC_ok hL es c1 s1
        (step m (.insert i.key i.val)) lst1 key1 val1 I1 h1
        (fun j hj => hr j (List.mem_cons_of_mem _ hj)) (Or.inl ⟨i.key, by simp [step]⟩)
      refine ⟨bs, s', m', c', lst', key', val', ?_, .done i t a', I', by rw [crashes]; omega, h'⟩
      rw [execC, e1, Res.ok_bind, e']

/-! ## C93 -/

variable [Inhabited V]

/-- C93. In every history of inserts, some of which are interrupted by a crash behind any of their assignments, every
interrupted insert has taken effect or not as a whole: the results of the completed inserts and all later searches are
those of one map.  Up to the first completed insert, the smallest key value is not inserted (see
`C27_min_key_dropped`). -/
theorem C93_crash_atomic (L : Nat) (hL : 2 ≤ L) (minKey : K) (es : List (CEv K V)) (hr : ∀ e ∈ es, e.ins'.rnd < L)
    (hf : AboveUntil minKey es) :
    ∃ bs s m, execC L (init minKey L) es = .ok (bs, s) ∧ MayBe empty es bs m ∧ Reads (search L s) m := by
  obtain ⟨bs, s, m, c, lst, key, val, e, a, I, _, h⟩ := execC_ok hL es 0 (init minKey L) empty _ _ _
    (init_inv minKey (by omega)) (init_stores minKey) hr (Or.inr hf)
  exact ⟨bs, s, m, e, a, fun k => I.search h k⟩

/-- The same for one insert after a history. -/
theorem C93_one_crash (L : Nat) (hL : 2 ≤ L) (minKey : K) (is : List (Ins K V)) (hr : InRange L is)
    (hf : FirstAbove minKey is) (i : Ins K V) (hi : i.rnd < L) (h0 : is = [] → i.key ≠ minKey) (t : Nat) :
    ∃ s s', execAll L (init minKey L) is = .ok (news empty is, s) ∧ crashInsert L s i.key i.val i.rnd t = .ok s' ∧
      BeforeOrAfter (search L s') (run empty (ops is)) (step (run empty (ops is)) (.insert i.key i.val)) := by
  obtain ⟨s, lst, key, val, e, I, h⟩ := execAll_ok hL is (init minKey L) empty _ _ _ (init_inv minKey (by omega))
    (init_stores minKey) hr (Or.inr hf)
  have hnd : ¬ Dropped minKey i.key (run empty (ops is)) := by
    rintro ⟨h1, h2⟩
    cases is with
    | nil => exact h0 rfl h1
    | cons j js =>
      have : ∀ (js : List (Ins K V)) (m : K → Option V), (∃ x, m x ≠ none) → ∃ x, run m (ops js) x ≠ none := by
        intro js
        induction js with
        | nil => exact fun m hm => hm
        | cons j js ih => exact fun m hm => ih _ ⟨j.key, by simp [step]⟩
      obtain ⟨x, hx⟩ := this js (step empty (.insert j.key j.val)) ⟨j.key, by simp [step]⟩
      exact hx (h2 x)
  obtain ⟨s', c', lst', key', val', e', I', _, h'⟩ := Inv.crash I h i.key i.val hi hL hnd t
  exact ⟨s, s', e, e', h'.imp (fun h' k => I'.search h' k) (fun h' k => I'.search h' k)⟩

/-- An insert whose assignments are all done is a completed insert. -/
theorem C93_all_assignments (L : Nat) (hL : 2 ≤ L) (minKey : K) (es : List (CEv K V)) (hr : ∀ e ∈ es, e.ins'.rnd < L)
    (hf : AboveUntil minKey es) (i : Ins K V) (hi : i.rnd < L) :
    ∃ bs s b ws s', execC L (init minKey L) es = .ok (bs, s) ∧ insertWrites L s i.key i.val i.rnd = .ok (b, ws) ∧
      insert L s i.key i.val i.rnd = .ok (b, s') ∧
      ∀ t, ws.length ≤ t → crashInsert L s i.key i.val i.rnd t = .ok s' := by
  obtain ⟨bs, s, m, c, lst, key, val, e, a, I, _, h⟩ := execC_ok hL es 0 (init minKey L) empty _ _ _
    (init_inv minKey (by omega)) (init_stores minKey) hr (Or.inr hf)
  obtain ⟨b, ws, h1, h2⟩ := insert_writes I h i.key i.val hi hL
  refine ⟨bs, s, b, ws, _, e, h1, h2, fun t ht => ?_⟩
  unfold crashInsert
  rw [h1, Res.ok_bind]
  dsimp only
  rw [List.take_of_length_le ht]
  rfl

/-- Six events: two of three interrupted inserts are lost, one is done. -/
def crashSample : List (CEv Nat Nat) :=
  [.crash ⟨5, 50, 3⟩ 2, .ins ⟨7, 70, 1⟩, .crash ⟨3, 30, 2⟩ 4, .ins ⟨3, 31, 0⟩, .crash ⟨9, 90, 3⟩ 1, .ins ⟨8, 80, 3⟩]

example : (∀ e ∈ crashSample, e.ins'.rnd < 4) ∧ AboveUntil 0 crashSample ∧
    (do
      let r ← execC 4 (init 0 4) crashSample
      let a ← search 4 r.2 5
      let b ← search 4 r.2 3
      let d ← search 4 r.2 9
      let l0 ← levelList 4 r.2 0
      let l1 ← levelList 4 r.2 1
      pure ((r.1, a, b, d), l0, l1, r.2.nodeCount)) =
      Res.ok (([true, false, true], none, some 31, none), [(3, 31), (7, 70), (8, 80)], [(8, 80)], 2) := by
  refine ⟨?_, ?_, rfl⟩
  · simp [crashSample, CEv.ins']
  · simp [crashSample, AboveUntil]

/-- Why the order matters: when the second pointer assignment of an insert reaches the memory before the first one, the
entries behind the new one are lost. -/
theorem C93_needs_order : ∃ (s : SL Nat Nat) (w1 w2 : Write Nat Nat) (rest : List (Write Nat Nat)),
    execAll 4 (init 0 4) [⟨5, 50, 1⟩, ⟨7, 70, 1⟩] = .ok ([true, true], s) ∧
    (∃ n, insertWrites 4 s 3 30 1 = .ok (true, .node n :: w1 :: w2 :: rest) ∧
      search 4 (applyAll s [.node n, w2]) 5 = .ok none) ∧ search 4 s 5 = .ok (some 50) :=
  ⟨_, _, _, _, rfl, ⟨_, rfl, by decide⟩, by decide⟩

/-! ## C94 -/

/-- C94. After every history of inserts and crashes, every level is a list with strictly increasing keys, the entries of
level `i + 1` are a sublist of those of level `i`, level 0 has exactly the entries of one of the possible maps, and
`nodeCount` is at most their number and at most the number of crashes smaller. -/
theorem C94_levels_after_crashes (L : Nat) (hL : 2 ≤ L) (minKey : K) (es : List (CEv K V)) (hr : ∀ e ∈ es, e.ins'.rnd < L)
    (hf : AboveUntil minKey es) :
    ∃ bs s m, ∃ lv : Nat → List (K × V), execC L (init minKey L) es = .ok (bs, s) ∧ MayBe empty es bs m ∧
      (∀ i, i < L → levelList L s i = .ok (lv i)) ∧
      (∀ i, (lv i).Pairwise (fun a b => a.1 < b.1)) ∧
      (∀ i, (lv (i + 1)).Sublist (lv i)) ∧
      (∀ k v, (k, v) ∈ lv 0 ↔ m k = some v) ∧
      s.nodeCount ≤ (lv 0).length ∧ (lv 0).length ≤ s.nodeCount + crashes es := by
  obtain ⟨bs, s, m, c, lst, key, val, e, a, I, l, h⟩ := execC_ok hL es 0 (init minKey L) empty _ _ _
    (init_inv minKey (by omega)) (init_stores minKey) hr (Or.inr hf)
  have := I.count
  refine ⟨bs, s, m, fun i => (lst i).map fun a => (key a, val a), e, a, fun i hi => I.levelList hi, fun i => ?_, fun i => ?_,
    fun k v => ?_, ?_, ?_⟩
  · rw [List.pairwise_map]; exact I.sortedAt i
  · exact (I.sub i).map _
  · rw [h k v, List.mem_map]
    constructor
    · rintro ⟨a, ha, e⟩
      exact ⟨a, ha, congrArg Prod.fst e, congrArg Prod.snd e⟩
    · rintro ⟨a, ha, rfl, rfl⟩
      exact ⟨a, ha, rfl⟩
  · rw [List.length_map]; omega
  · rw [List.length_map]; omega

/-- The bound is reached: every crash before the last assignment makes `nodeCount` smaller by one for good. -/
theorem C94_count_lost : ∃ s : SL Nat Nat,
    execC 4 (init 0 4) [.crash ⟨5, 50, 1⟩ 4, .crash ⟨3, 30, 1⟩ 3, .ins ⟨7, 70, 1⟩] = .ok ([true], s) ∧
    levelList 4 s 0 = .ok [(3, 30), (5, 50), (7, 70)] ∧ s.nodeCount = 1 := by
  exact ⟨_, rfl, by decide, by decide⟩

end Verif.SkipListProps
