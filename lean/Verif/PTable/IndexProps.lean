import Verif.PTable.Index

/-!
# Property theorems for the table over its index (C85)
-/

namespace Verif.PTable

open Verif.BTree (State SLeaf Iter PB pbCfg execAll)
open Verif.MapSpec (empty ErasesPresent outs)

variable {c : Cfg} {N M : Nat}

theorem run_sim (hg : c.Good) (h0 : c.sch[0]? ≠ some .str) {q : Nat} (hN : N = 2 * q) (hq : 3 ≤ q) (hM : 2 ≤ M) {f : Nat} {t' : Tbl} :
    ∀ (ops : List Op) {t : Tbl} {R : Nat → Rows} {l : List Nat} {x : Ix} {m : Int → Option (List Val)}, Inv c t R l → LiveOK c t R l → Holds c m (recsOf t R l) →
    Has N M x t.index → (∀ op ∈ ops, ∀ vs ∈ op.recs, c.Rec vs) → (∀ op ∈ ops, op.Keyed c) → Legal m ops → run c f t ops = .ok t' →
    ∃ x', runX c N M f ⟨t.bare, x⟩ ops = .ok ⟨t'.bare, x'⟩ ∧ Has N M x' t'.index
  | [], t, R, l, x, m, _, _, _, hx, _, _, _, e => by cases e; exact ⟨x, rfl, hx⟩
  | op :: ops, t, R, l, x, m, h, hl, hh, hx, hr, hk, hm, e => by
    rw [run_cons] at e
    obtain ⟨t1, e1, e2⟩ := Res.bind_eq_ok.1 e
    obtain ⟨R1, l1, hf⟩ := after_sound hg h (hr op (List.mem_cons_self ..)) e1
    obtain ⟨q1, q2⟩ := hf.holds hg h0 h hl hh (hk _ (List.mem_cons_self ..)) hm.1
    obtain ⟨x1, f1, h1⟩ := after_sim hg h0 hN hq hM h hl hx (hr op (List.mem_cons_self ..)) e1
    obtain ⟨x', f2, h2⟩ := run_sim hg h0 hN hq hM ops (hf.inv h) q1 q2 h1 (fun o ho => hr o (List.mem_cons_of_mem _ ho))
      (fun o ho => hk o (List.mem_cons_of_mem _ ho)) hm.2 e2
    exact ⟨x', by rw [runX_cons, f1, Res.ok_bind, f2], h2⟩

/-- A run of the model with a map as index gives one with the tree as index. -/
theorem runX_of_run (hg : c.Good) (h0 : c.sch[0]? ≠ some .str) {q : Nat} (hN : N = 2 * q) (hq : 3 ≤ q) (hM : 2 ≤ M) {ops : List Op}
    (hr : ∀ op ∈ ops, ∀ vs ∈ op.recs, c.Rec vs) (hk : ∀ op ∈ ops, op.Keyed c) (hm : Legal (fun _ => none) ops) {f : Nat} {t0 t : Tbl}
    (hi : init c = .ok t0) (e : run c f t0 ops = .ok t) :
    ∃ s0 x, initX c N M = .ok s0 ∧ runX c N M f s0 ops = .ok ⟨t.bare, x⟩ ∧ Has N M x t.index := by
  obtain ⟨t0', h0', hinv, hnone, hdel⟩ := inv_init hg
  rw [hi] at h0'
  cases h0'
  have hlive : live t0 (fun _ => []) [0] = [] := by
    simp [live, liveAt, liveFrom]
  have hd : delsAt t0 0 = [] := by
    unfold delsAt
    split
    · rename_i nd hn; exact hdel 0 nd hn
    · rfl
  have hix : t0.index = fun _ => none := funext hnone
  have hb : t0.bare = t0 := by unfold Tbl.bare; rw [← hix]
  obtain ⟨x, e1, e2⟩ := run_sim hg h0 hN hq hM (x := BTree.init (PB N M)) ops (m := fun _ => none) hinv ⟨fun id hid => by
      have : id = 0 := by simpa using hid
      rw [this, hd]; simp, by rw [hlive]; simp, fun k hd => by rw [hnone, hlive]; simp⟩
    (fun k vs => by unfold recsOf; rw [hlive]; simp) (by rw [hix]; exact Has.init N M) hr hk hm e
  refine ⟨⟨t0, BTree.init (PB N M)⟩, x, ?_, ?_, e2⟩
  · unfold initX
    rw [hi]; rfl
  · rw [hb] at e1; exact e1

/-! ## The loop of `select` -/

theorem iterRun_mono {x : Ix} : ∀ (n : Nat) (it : Iter) (es : List (Int × Handle)), Iter.run (pbCfg N M) x.heap n it = .ok es →
    Iter.run (pbCfg N M) x.heap es.length it = .ok es
  | 0, it, es, e => by
    rw [Iter.run] at e
    split at e
    · rename_i h
      cases e
      rw [List.length_nil, Iter.run, if_pos h]
    · cases e
  | n + 1, it, es, e => by
    rw [Iter.run] at e
    split at e
    · rename_i h
      cases e
      rw [List.length_nil, Iter.run, if_pos h]
    · rename_i h
      obtain ⟨a, e1, e⟩ := Res.bind_eq_ok.1 e
      obtain ⟨it', e2, e⟩ := Res.bind_eq_ok.1 e
      obtain ⟨r, e3, e⟩ := Res.bind_eq_ok.1 e
      cases e
      rw [List.length_cons, Iter.run, if_neg h, e1, Res.ok_bind, e2, Res.ok_bind, iterRun_mono n it' r e3, Res.ok_bind]; rfl

/-- The loop skips the entries up to the next one that satisfies the predicate. -/
theorem skipX_ok {x : Ix} {p : Handle → Res Bool} {b : Handle → Bool} : ∀ (es : List (Int × Handle)) (it : Iter) (f : Nat), es.length < f →
    Iter.run (pbCfg N M) x.heap es.length it = .ok es → (∀ e ∈ es, p e.2 = .ok (b e.2)) →
    ∃ it', skip N M x p f it = .ok it' ∧ Iter.run (pbCfg N M) x.heap (es.dropWhile (fun e => !b e.2)).length it' = .ok (es.dropWhile (fun e => !b e.2))
  | [], it, f + 1, _, e, _ => by
    refine ⟨it, ?_, e⟩
    rw [List.length_nil, Iter.run] at e
    split at e
    · rename_i h; rw [skip, if_pos h]
    · cases e
  | a :: es, it, f + 1, hf, e, hp => by
    have e0 := e
    rw [List.length_cons, Iter.run] at e
    split at e
    · cases e
    · rename_i h
      obtain ⟨a', e1, e⟩ := Res.bind_eq_ok.1 e
      obtain ⟨it', e2, e⟩ := Res.bind_eq_ok.1 e
      obtain ⟨r, e3, e⟩ := Res.bind_eq_ok.1 e
      cases e
      rw [skip, if_neg h, e1, Res.ok_bind, hp a (List.mem_cons_self ..), Res.ok_bind, List.dropWhile_cons]
      cases hb : b a.2 with
      | true =>
        exact ⟨it, by rw [if_pos rfl], by simpa using e0⟩
      | false =>
        obtain ⟨it'', f1, f2⟩ := skipX_ok es it' f (by simpa using hf) e3 (fun e he => hp e (List.mem_cons_of_mem _ he))
        refine ⟨it'', ?_, by simpa using f2⟩
        rw [if_neg (by simp), e2, Res.ok_bind, f1]

theorem dropWhile_filter {α : Type} (b : α → Bool) : ∀ es : List α, (es.dropWhile (fun e => !b e)).filter b = es.filter b
  | [] => rfl
  | a :: es => by
    rw [List.dropWhile_cons]
    cases h : b a with
    | true => simp
    | false => simp [h, dropWhile_filter b es]

theorem collectX_ok {x : Ix} {p : Handle → Res Bool} {b : Handle → Bool} (n fuel : Nat) (hfu : n ≤ fuel) : ∀ (f : Nat) (es : List (Int × Handle)) (it : Iter),
    es.length < f → es.length ≤ n → (∀ a, es.head? = some a → b a.2 = true) →
    Iter.run (pbCfg N M) x.heap es.length it = .ok es → (∀ e ∈ es, p e.2 = .ok (b e.2)) →
    collect N M x p (fuel + 1) f it = .ok ((es.filter (fun e => b e.2)).map Prod.snd)
  | f + 1, [], it, _, _, _, e, _ => by
    rw [List.length_nil, Iter.run] at e
    split at e
    · rename_i h; rw [collect, if_pos h]; rfl
    · cases e
  | f + 1, a :: es, it, hf, hn, hh, e, hp => by
    rw [List.length_cons, Iter.run] at e
    split at e
    · cases e
    · rename_i h
      obtain ⟨a', e1, e⟩ := Res.bind_eq_ok.1 e
      obtain ⟨it', e2, e⟩ := Res.bind_eq_ok.1 e
      obtain ⟨r, e3, e⟩ := Res.bind_eq_ok.1 e
      cases e
      rw [List.length_cons] at hf hn
      have hp' : ∀ e ∈ es, p e.2 = .ok (b e.2) := fun e he => hp e (List.mem_cons_of_mem _ he)
      obtain ⟨it'', f1, f2⟩ := skipX_ok es it' (fuel + 1) (by omega) e3 hp'
      have hdl := (List.dropWhile_sublist (fun e : Int × Handle => !b e.2) (l := es)).length_le
      have f3 := collectX_ok n fuel hfu f (es.dropWhile (fun e => !b e.2)) it'' (by omega) (by omega) (fun d hd => by
        have := List.head?_dropWhile_not (fun e : Int × Handle => !b e.2) es
        rw [hd] at this
        simpa using this) f2 (fun e he => hp' e (List.dropWhile_sublist _ |>.mem he))
      rw [collect, if_neg h, e1, Res.ok_bind, e2, Res.ok_bind, f1, Res.ok_bind, f3, Res.ok_bind, dropWhile_filter (fun e : Int × Handle => b e.2)]
      rw [List.filter_cons, if_pos (hh a rfl)]; rfl

/-- `select` gives the entries of the loop over the tree that satisfy the predicate. -/
theorem select_ok {s : XTbl} {p : Handle → Res Bool} {b : Handle → Bool} {es : List (Int × Handle)} {it : Iter} (h1 : Iter.begin (pbCfg N M) s.ix = .ok it)
    (h2 : Iter.run (pbCfg N M) s.ix.heap es.length it = .ok es) (hp : ∀ e ∈ es, p e.2 = .ok (b e.2)) {f : Nat} (hf : es.length < f) :
    select N M s p f = .ok ((es.filter (fun e => b e.2)).map Prod.snd) := by
  obtain ⟨f, rfl⟩ : ∃ g, f = g + 1 := ⟨f - 1, by omega⟩
  obtain ⟨it', f1, f2⟩ := skipX_ok es it (f + 1) hf h2 hp
  have hdl := (List.dropWhile_sublist (fun e : Int × Handle => !b e.2) (l := es)).length_le
  have f3 := collectX_ok f f (Nat.le_refl _) (f + 1) (es.dropWhile (fun e => !b e.2)) it' (by omega) (by omega) (fun d hd => by
    have := List.head?_dropWhile_not (fun e : Int × Handle => !b e.2) es
    rw [hd] at this
    simpa using this) f2 (fun e he => hp e (List.dropWhile_sublist _ |>.mem he))
  unfold select
  rw [h1, Res.ok_bind, f1, Res.ok_bind, f3, dropWhile_filter (fun e : Int × Handle => b e.2)]

/-! ## C85 -/

/-- The predicate on records that `select` evaluates for a tuple. -/
def onRecord (c : Cfg) (s : XTbl) (p : List Val → Bool) (h : Handle) : Res Bool := do
  let vs ← readHandle c s.tbl h
  pure (p vs)

/-- The tuples give the records `vs` with `p` of the map, by increasing key. -/
def Selects (c : Cfg) (s : XTbl) (m : Int → Option (List Val)) (p : List Val → Bool) (hs : List Handle) : Prop :=
  ∃ (ks : List Int) (rs : List (List Val)), ks.Pairwise (· < ·) ∧ (∀ k, k ∈ ks ↔ ∃ vs, m k = some vs ∧ p vs = true) ∧
    ks.map m = rs.map some ∧ hs.map (readHandle c s.tbl) = rs.map .ok

/-- The keys and tuples give the records of the map with a key in the range, by increasing key. -/
def SelectsRange (c : Cfg) (s : XTbl) (m : Int → Option (List Val)) (lo hi : Int) (es : List (Int × Handle)) : Prop :=
  ∃ rs : List (List Val), (es.map Prod.fst).Pairwise (· < ·) ∧ (∀ k, k ∈ es.map Prod.fst ↔ lo ≤ k ∧ k ≤ hi ∧ m k ≠ none) ∧
    (es.map Prod.fst).map m = rs.map some ∧ (es.map Prod.snd).map (readHandle c s.tbl) = rs.map .ok

/-- The full statement of C85 for `select`: every history of legal calls. -/
def C85_statement : Prop :=
  ∀ (c : Cfg), c.Good → ∀ (N M q : Nat), N = 2 * q → 3 ≤ q → 2 ≤ M → ∀ (ops : List Op), (∀ op ∈ ops, ∀ vs ∈ op.recs, c.Rec vs) → Legal (fun _ => none) ops →
    ∀ (f : Nat) (s0 s : XTbl), initX c N M = .ok s0 → runX c N M f s0 ops = .ok s →
    ∀ p, ∃ hs F, (∀ n, F ≤ n → select N M s (onRecord c s p) n = .ok hs) ∧ Selects c s (specRun ops) p hs

theorem index_read (hg : c.Good) (h0 : c.sch[0]? ≠ some .str) {ops : List Op} (hr : ∀ op ∈ ops, ∀ vs ∈ op.recs, c.Rec vs)
    (hk : ∀ op ∈ ops, op.Keyed c) (hm : Legal (fun _ => none) ops) {f : Nat} {t0 t : Tbl} (hi : init c = .ok t0) (e : run c f t0 ops = .ok t) (k : Int) :
    match t.index k with
    | some h => ∃ vs, specRun ops k = some vs ∧ readHandle c t h = .ok vs
    | none => specRun ops k = none := by
  have h := C59_get_partial hg h0 hr hk hm hi e k
  unfold getByKey at h
  cases hx : t.index k with
  | none =>
    rw [hx] at h
    cases hs : specRun ops k with
    | none => rfl
    | some vs =>
      rw [hs] at h
      obtain ⟨_, h1, -⟩ := h
      cases h1
  | some hd =>
    rw [hx] at h
    cases hs : specRun ops k with
    | none => rw [hs] at h; cases h
    | some vs =>
      rw [hs] at h
      obtain ⟨hd', h1, h2⟩ := h
      cases h1
      exact ⟨vs, rfl, h2⟩

/-- Records read through a list of entries of the index. -/
theorem records_of {ix : Int → Option Handle} {m : Int → Option (List Val)} {t : Tbl}
    (h : ∀ k, match ix k with | some h => ∃ vs, m k = some vs ∧ readHandle c t h = .ok vs | none => m k = none) :
    ∀ (es : List (Int × Handle)), (∀ e ∈ es, ix e.1 = some e.2) → ∃ rs : List (List Val), (es.map Prod.fst).map m = rs.map some ∧
      (es.map Prod.snd).map (readHandle c t) = rs.map .ok
  | [], _ => ⟨[], rfl, rfl⟩
  | e :: es, he => by
    obtain ⟨rs, h1, h2⟩ := records_of h es (fun a ha => he a (List.mem_cons_of_mem _ ha))
    have := h e.1
    rw [he e (List.mem_cons_self ..)] at this
    obtain ⟨vs, h3, h4⟩ := this
    exact ⟨vs :: rs, by simp only [List.map_cons, h1, h3], by simp only [List.map_cons, h2, h4]⟩

/-- C85 for the table over a `PBPTree` as index.  After a history of accepted calls the table exists; `getByKey`, `count`,
`rangeScan2` agree with the map of the records, and, for a table that is not empty, `select`.  The restrictions are those of C24,
and for `select` the table must have a record; see `C85_refuted`. -/
theorem C85_index_partial (hg : c.Good) (h0 : c.sch[0]? ≠ some .str) {q : Nat} (hN : N = 2 * q) (hq : 3 ≤ q) (hM : 2 ≤ M) {ops : List Op}
    (hr : ∀ op ∈ ops, ∀ vs ∈ op.recs, c.Rec vs ∧ c.Accepted vs) (hk : ∀ op ∈ ops, op.Keyed c) (hm : Legal (fun _ => none) ops) :
    ∃ s0 F, initX c N M = .ok s0 ∧ ∀ f, F ≤ f → ∃ s, runX c N M f s0 ops = .ok s ∧
      (∀ k, match specRun ops k with
        | some vs => ∃ h, getByKeyX N M s k = .ok h ∧ readHandle c s.tbl h = .ok vs
        | none => getByKeyX N M s k = .throws) ∧
      (∃ ks : List Int, ks.Nodup ∧ (∀ k, k ∈ ks ↔ specRun ops k ≠ none) ∧ tableCount s.tbl = .ok ks.length) ∧
      (∀ lo hi, ∃ es, rangeScan2 N M s lo hi = .ok es ∧ SelectsRange c s (specRun ops) lo hi es) ∧
      ((∃ k, specRun ops k ≠ none) → ∀ p, ∃ hs G, (∀ n, G ≤ n → select N M s (onRecord c s p) n = .ok hs) ∧ Selects c s (specRun ops) p hs) := by
  obtain ⟨t0, t, F, hi, hrun⟩ := C23_insert_succeeds hg hr
  have hr' : ∀ op ∈ ops, ∀ vs ∈ op.recs, c.Rec vs := fun op ho vs hv => (hr op ho vs hv).1
  have hi0 : initX c N M = .ok ⟨t0, BTree.init (PB N M)⟩ := by
    unfold initX
    rw [hi]; rfl
  refine ⟨⟨t0, BTree.init (PB N M)⟩, F, hi0, fun f hf => ?_⟩
  have e := hrun f hf
  obtain ⟨s0, x, e0, ex, hx⟩ := runX_of_run hg h0 hN hq hM hr' hk hm hi e
  rw [hi0] at e0
  cases e0
  have hread := index_read hg h0 hr' hk hm hi e
  have hnone : ∀ k, t.index k = none ↔ specRun ops k = none := by
    intro k
    have := hread k
    cases hk : t.index k with
    | none => rw [hk] at this; simp [this]
    | some h =>
      rw [hk] at this
      obtain ⟨vs, h1, -⟩ := this
      simp [h1]
  refine ⟨⟨t.bare, x⟩, ex, fun k => ?_, ?_, fun lo hi' => ?_, fun hne p => ?_⟩
  · have := C59_get_partial hg h0 hr' hk hm hi e k
    cases hs : specRun ops k with
    | none =>
      rw [hs] at this
      dsimp only at this ⊢
      rw [getByKey_sim hN hq hM hx, this]
    | some vs =>
      rw [hs] at this
      dsimp only at this ⊢
      obtain ⟨h, h1, h2⟩ := this
      exact ⟨h, by rw [getByKey_sim hN hq hM hx, h1], h2⟩
  · obtain ⟨ks, k1, k2, k3⟩ := C24_count_partial hg h0 hr' hk hm hi e
    refine ⟨ks, k1, fun k => ?_, by rw [tableCount_bare]; exact k3⟩
    rw [k2, Ne, ← hnone]
    unfold getByKey
    cases t.index k with
    | none => simp
    | some h => simp
  · obtain ⟨tr, h1, h2, h3⟩ := hx
    obtain ⟨s', e', -, -, hrg, -⟩ := BTreeProps.C38_map N M q hN hq hM tr h1
    rw [h2] at e'
    cases e'
    obtain ⟨es, r1, r2, r3⟩ := hrg lo hi'
    rw [h3] at r3
    obtain ⟨rs, q1, q2⟩ := records_of hread es (fun a ha => ((r3 a.1 a.2).1 ha).2.2)
    refine ⟨es, r1, rs, List.pairwise_map.2 r2, fun k => ?_, q1, q2⟩
    constructor
    · intro hk
      obtain ⟨a, ha, rfl⟩ := List.mem_map.1 hk
      obtain ⟨u1, u2, u3⟩ := (r3 a.1 a.2).1 ha
      refine ⟨u1, u2, ?_⟩
      rw [Ne, ← hnone, u3]
      simp
    · rintro ⟨u1, u2, u3⟩
      rw [Ne, ← hnone] at u3
      obtain ⟨h, hh⟩ := Option.ne_none_iff_exists'.1 u3
      exact List.mem_map.2 ⟨(k, h), (r3 k h).2 ⟨u1, u2, hh⟩, rfl⟩
  · obtain ⟨tr, h1, h2, h3⟩ := hx
    obtain ⟨s', e', -, -, -, hit, -⟩ := BTreeProps.C38_map N M q hN hq hM tr h1
    rw [h2] at e'
    cases e'
    rw [h3] at hit
    obtain ⟨it, es, r1, r2, r3, r4⟩ := hit (by
      obtain ⟨k, hk⟩ := hne
      exact ⟨k, by rw [Ne, hnone]; exact hk⟩)
    let b : Handle → Bool := fun h => match readHandle c t h with | .ok vs => p vs | _ => false
    have hb : ∀ e ∈ es, onRecord c ⟨t.bare, x⟩ p e.2 = .ok (b e.2) ∧ ∃ vs, specRun ops e.1 = some vs ∧ b e.2 = p vs := by
      intro a ha
      have := hread a.1
      rw [(r4 a.1 a.2).1 ha] at this
      obtain ⟨vs, v1, v2⟩ := this
      have hbv : b a.2 = p vs := by show (match readHandle c t a.2 with | .ok vs => p vs | _ => false) = _; rw [v2]
      refine ⟨?_, vs, v1, hbv⟩
      unfold onRecord
      rw [show readHandle c (XTbl.mk t.bare x).tbl a.2 = readHandle c t a.2 from rfl, v2, Res.ok_bind, hbv]; rfl
    obtain ⟨rs, q1, q2⟩ := records_of hread (es.filter (fun e => b e.2)) (fun a ha => (r4 a.1 a.2).1 (List.mem_filter.1 ha).1)
    refine ⟨_, es.length + 1, fun n hn => select_ok r1 (r2 _ (Nat.le_refl _)) (fun e he => (hb e he).1) hn,
      (es.filter (fun e => b e.2)).map Prod.fst, rs, List.pairwise_map.2 (r3.filter _), fun k => ?_, q1, q2⟩
    constructor
    · intro hk
      obtain ⟨a, ha, rfl⟩ := List.mem_map.1 hk
      obtain ⟨u1, u2⟩ := List.mem_filter.1 ha
      obtain ⟨-, vs, v1, v2⟩ := hb a u1
      exact ⟨vs, v1, by rw [← v2]; exact u2⟩
    · rintro ⟨vs, v1, v2⟩
      have hn : t.index k ≠ none := by rw [Ne, hnone, v1]; simp
      obtain ⟨h, hh⟩ := Option.ne_none_iff_exists'.1 hn
      have hmem := (r4 k h).2 hh
      obtain ⟨-, vs', w1, w2⟩ := hb _ hmem
      rw [v1] at w1
      cases w1
      exact List.mem_map.2 ⟨(k, h), List.mem_filter.2 ⟨hmem, by rw [w2]; exact v2⟩, rfl⟩

/-- On an empty table `select` reads the first slot of the empty root leaf, which nothing has written. -/
theorem select_empty (N : Nat) {M : Nat} (hM : 0 < M) (t : Tbl) (p : Handle → Res Bool) (n : Nat) : select N M ⟨t, BTree.init (PB N M)⟩ p n = .ub := by
  have hd : Iter.deref (pbCfg N M) (BTree.init (PB N M) : Ix).heap ⟨some 0, 0⟩ = .ub := by
    show (Slots.rd M _ 0 >>= _) = _
    unfold Slots.rd
    rw [if_pos hM]; rfl
  show (skip N M (BTree.init (PB N M) : Ix) p n ⟨some 0, 0⟩ >>= _) = _
  cases n with
  | zero => rfl
  | succ n =>
    rw [skip, if_neg (by simp [Iter.end]), hd]; rfl

/-- C85 is false for a table without records: `select` dereferences `begin()` of an empty tree. -/
theorem C85_refuted : ¬ C85_statement := by
  intro h
  obtain ⟨t0, hi, -⟩ := inv_init exTable_good
  have hi0 : initX exTable 6 2 = .ok ⟨t0, BTree.init (PB 6 2)⟩ := by
    unfold initX
    rw [hi]; rfl
  obtain ⟨hs, F, h1, -⟩ := h exTable exTable_good 6 2 3 rfl (by omega) (by omega) [] (by simp) trivial 0 _ _ hi0 rfl (fun _ => true)
  have := h1 F (Nat.le_refl _)
  rw [select_empty 6 (by omega)] at this
  cases this

/-- A history with a block split, over an index with the node sizes of the code (for a `PTuple` of 40 bytes). -/
example : ∃ s0 F, initX exText branchKeys (leafKeys 40) = .ok s0 ∧ ∀ f, F ≤ f → ∃ s, runX exText branchKeys (leafKeys 40) f s0 exOps = .ok s ∧
    tableCount s.tbl = .ok 1 ∧ ∃ hs G, (∀ n, G ≤ n → select branchKeys (leafKeys 40) s (onRecord exText s (fun _ => true)) n = .ok hs) ∧
      hs.map (readHandle exText s.tbl) = [.ok (exRow 1 20000)] := by
  obtain ⟨s0, F, h0, h⟩ := C85_index_partial (N := branchKeys) (M := leafKeys 40) (q := 170) exText_good (by decide) rfl (by omega) (by decide) exOps_ok.1 exOps_ok.2.1 exOps_ok.2.2
  have hsp : ∀ k, specRun exOps k = if k = 1 then some (exRow 1 20000) else none := by
    intro k
    simp only [specRun, exOps, List.foldl_cons, List.foldl_nil, specStep]
    by_cases h1 : k = 1
    · subst h1; simp
    · by_cases h5 : k = 5
      · subst h5; simp
      · simp [h1, h5]
  refine ⟨s0, F, h0, fun f hf => ?_⟩
  obtain ⟨s, e, -, ⟨ks, k1, k2, k3⟩, -, hsel⟩ := h f hf
  obtain ⟨hs, G, g1, ks', rs, p1, p2, p3, p4⟩ := hsel ⟨1, by rw [hsp]; simp⟩ (fun _ => true)
  have one : ∀ l : List Int, l.Nodup → (∀ k, k ∈ l ↔ k = 1) → l = [1] := by
    intro l hn hl
    have : l.Perm [1] := (List.perm_ext_iff_of_nodup hn (by simp)).2 (fun k => by rw [hl k]; simp)
    exact List.perm_singleton.1 this
  refine ⟨s, e, ?_, hs, G, g1, ?_⟩
  · rw [k3, one ks k1 (fun k => by rw [k2, hsp]; simp)]; rfl
  · rw [one ks' (p1.imp (fun h => ne_of_lt h)) (fun k => by rw [p2, hsp]; simp)] at p3
    rw [p4]
    simp only [List.map_cons, List.map_nil, hsp, if_pos] at p3
    cases rs with
    | nil => cases p3
    | cons r rs =>
      cases rs with
      | nil =>
        simp at p3 ⊢
        exact p3.symm
      | cons _ _ => cases p3

end Verif.PTable
