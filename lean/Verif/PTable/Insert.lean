import Verif.PTable.SplitBlock

/-!
# `insert`: termination of the splits and the resulting table
-/

namespace Verif.PTable

variable {c : Cfg}

theorem pick_full {x : Nat} {e : Ent} : ∀ {l : List Ent}, pick x l = some (e, true) → e.full = true
  | e' :: l, h => by
    rw [pick] at h
    split at h
    · rename_i hx
      split at h
      · rename_i hw
        cases h
        cases l with
        | nil => rw [walkE] at hw; omega
        | cons a l =>
          rw [walkE] at hw
          split at hw
          · rename_i h1; exact h1.2
          · omega
      · have h1 := (Prod.ext_iff.1 (Option.some.inj h)).1
        have h2 := (Prod.ext_iff.1 (Option.some.inj h)).2
        dsimp only at h1 h2
        rw [← h1]; exact h2
    · exact pick_full h

/-- Weight of the records of a node with upper bound `hi`. -/
def wt (c : Cfg) (hi : Nat) (rows : Rows) : Nat :=
  if rows = [] then 0 else 4 * rows.length - 2 + (if ∀ r ∈ rows, c.xtr r.1 = hi then 0 else 1)

/-- Total weight of the nodes whose range contains `x`. -/
def mu (c : Cfg) (t : Tbl) (R : Nat → Rows) (x : Nat) (l : List Nat) : Nat :=
  (l.map fun id => if (rangeAt t id).1 ≤ x ∧ x ≤ (rangeAt t id).2 then wt c (rangeAt t id).2 (R id) else 0).sum

theorem liveFrom_sublist (dels : List Nat) : ∀ (rs : Rows) (p : Nat), ((liveFrom dels p rs).map Prod.snd).Sublist rs
  | [], _ => List.Sublist.refl _
  | r :: rs, p => by
    rw [liveFrom]
    split
    · exact (liveFrom_sublist dels rs _).cons _
    · rw [List.map_cons]; exact (liveFrom_sublist dels rs _).cons_cons _

theorem liveFrom_lt (dels : List Nat) (m : Nat) : ∀ (rs : Rows) (p : Nat), ((liveFrom dels p rs).filter (fun q => decide (q.1 < m))).length ≤ m - p
  | [], _ => by simp [liveFrom]
  | r :: rs, p => by
    have := liveFrom_lt dels m rs (p + 1)
    rw [liveFrom]
    split
    · omega
    · rw [List.filter_cons]
      split
      · rename_i h
        have : p < m := by simpa using h
        rw [List.length_cons]; omega
      · omega

theorem liveFrom_ge (dels : List Nat) (m : Nat) : ∀ (rs : Rows) (p : Nat),
    ((liveFrom dels p rs).filter (fun q => !decide (q.1 < m))).length ≤ p + rs.length - max m p
  | [], _ => by simp [liveFrom]
  | r :: rs, p => by
    have := liveFrom_ge dels m rs (p + 1)
    rw [liveFrom]
    split
    · rw [List.length_cons]; omega
    · rw [List.filter_cons]
      split
      · rename_i h
        have : m ≤ p := by simpa using h
        rw [List.length_cons, List.length_cons]; omega
      · rw [List.length_cons]; omega

theorem rowsAfter_fst {i : Nat} {mv : List Move} {L : List (Nat × List Val × List Nat)} {f : Nat → List Val → Nat}
    (h : mv.map (fun m => (m.1, m.2.1)) = L.map (fun q => (f q.1 q.2.1, q.2.1))) :
    (rowsAfter i mv []).map Prod.fst = ((L.filter (fun q => decide (f q.1 q.2.1 = i))).map (fun q => q.2.1)).reverse := by
  unfold rowsAfter
  rw [List.append_nil, List.map_reverse]
  congr 1
  have h1 : ((mv.filter fun m => decide (m.1 = i)).map Prod.snd).map Prod.fst = ((mv.map fun m => (m.1, m.2.1)).filter fun m => decide (m.1 = i)).map Prod.snd := by
    rw [List.filter_map, List.map_map, List.map_map]; rfl
  rw [h1, h, List.filter_map, List.map_map]
  rfl

theorem liveFrom_count (dels : List Nat) (p : List Val → Bool) (rs : Rows) (n : Nat) :
    ((liveFrom dels n rs).filter (fun q => p q.2.1)).length ≤ rs.countP (fun r => p r.1) := by
  have h := (liveFrom_sublist dels rs n).countP_le (p := fun r => p r.1)
  rw [List.countP_map] at h
  rw [← List.countP_eq_length_filter]
  exact h

theorem wt_le (hi : Nat) (rows : Rows) (n : Nat) (h : rows.length ≤ n) : wt c hi rows ≤ 4 * n - 1 := by
  unfold wt
  split
  · omega
  · rename_i hne
    have := List.length_pos_iff.2 hne
    split <;> omega

/-- A split makes the weight of `x` smaller, or leaves an empty node with the range of the node that was split. -/
theorem SplitTo.mu {t t' : Tbl} {R : Nat → Rows} {pre post : List Nat} {id sv : Nat} {nd nd1 nd2 : Node} {mv : List Move}
    (h : Inv c t R (pre ++ id :: post)) (hnd : t.nodes id = some nd) (hne : R id ≠ []) (hs : SplitTo c t R id nd t' sv mv nd1 nd2)
    {x : Nat} (hx : loOf nd.blk ≤ x ∧ x ≤ hiOf nd.blk) :
    mu c t' (rowsSplit R t.fresh (t.fresh + 1) mv) x (pre ++ t.fresh :: (t.fresh + 1) :: post) < mu c t R x (pre ++ id :: post) ∨
    (rowsAfter t.fresh mv [] = [] ∧ sv = hiOf nd.blk) := by
  have ok := h.ok id nd hnd
  have hlen : 0 < (R id).length := List.length_pos_iff.2 hne
  have hlt : ∀ j ∈ pre ++ id :: post, j < t.fresh := by
    intro j hj
    obtain ⟨n, hn⟩ := h.chain.mem j hj
    exact h.lt j n hn
  have hsame : ∀ j ∈ pre ++ id :: post, rangeAt t' j = rangeAt t j ∧ rowsSplit R t.fresh (t.fresh + 1) mv j = R j := by
    intro j hj
    have hl := hlt j hj
    refine ⟨?_, by unfold rowsSplit; rw [if_neg (by omega), if_neg (by omega)]⟩
    obtain ⟨n, hn⟩ := h.chain.mem j hj
    obtain ⟨n', q1, q2, -⟩ := hs.old j n hn
    unfold rangeAt
    rw [hn, q1]; dsimp only; rw [q2]
  have e1 : rangeAt t' t.fresh = (loOf nd.blk, sv) := by unfold rangeAt; rw [hs.node1]; dsimp only; rw [hs.lo1, hs.hi1]
  have e2 : rangeAt t' (t.fresh + 1) = ((if sv = hiOf nd.blk then hiOf nd.blk else sv + 1), hiOf nd.blk) := by
    unfold rangeAt; rw [hs.node2]; dsimp only; rw [hs.lo2, hs.hi2]
  have e0 : rangeAt t id = (loOf nd.blk, hiOf nd.blk) := by unfold rangeAt; rw [hnd]
  have r1 : rowsSplit R t.fresh (t.fresh + 1) mv t.fresh = rowsAfter t.fresh mv [] := by
    unfold rowsSplit; rw [if_neg (by omega), if_pos rfl]
  have r2 : rowsSplit R t.fresh (t.fresh + 1) mv (t.fresh + 1) = rowsAfter (t.fresh + 1) mv [] := by
    unfold rowsSplit; rw [if_pos rfl]
  have hcong : ∀ l : List Nat, (∀ j ∈ l, j ∈ pre ++ id :: post) → (l.map fun id => if (rangeAt t' id).1 ≤ x ∧ x ≤ (rangeAt t' id).2 then
      wt c (rangeAt t' id).2 (rowsSplit R t.fresh (t.fresh + 1) mv id) else 0) =
      l.map fun id => if (rangeAt t id).1 ≤ x ∧ x ≤ (rangeAt t id).2 then wt c (rangeAt t id).2 (R id) else 0 := by
    intro l hl
    refine List.map_congr_left (fun j hj => ?_)
    obtain ⟨q1, q2⟩ := hsame j (hl j hj)
    rw [q1, q2]
  have hred : ∀ A : Prop, ((if loOf nd.blk ≤ x ∧ x ≤ sv then wt c sv (rowsAfter t.fresh mv []) else 0) +
      (if (if sv = hiOf nd.blk then hiOf nd.blk else sv + 1) ≤ x ∧ x ≤ hiOf nd.blk then wt c (hiOf nd.blk) (rowsAfter (t.fresh + 1) mv []) else 0) <
      wt c (hiOf nd.blk) (R id) ∨ A) →
      (PTable.mu c t' (rowsSplit R t.fresh (t.fresh + 1) mv) x (pre ++ t.fresh :: (t.fresh + 1) :: post) < PTable.mu c t R x (pre ++ id :: post) ∨ A) := by
    intro A hA
    refine hA.imp_left (fun hlt => ?_)
    unfold PTable.mu
    rw [List.map_append, List.map_cons, List.map_cons, List.map_append, List.map_cons, hcong pre (fun j hj => by simp [hj]),
      hcong post (fun j hj => by simp [hj]), List.sum_append, List.sum_append, List.sum_cons, List.sum_cons, List.sum_cons, e0, e1, e2, r1, r2]
    dsimp only
    rw [if_pos hx]
    omega
  refine hred _ ?_
  have m1 := rowsAfter_fst (i := t.fresh) (f := fun p vs => tgt c (R id).length sv (hiOf nd.blk) t.fresh (t.fresh + 1) p vs) hs.moved
  have m2 := rowsAfter_fst (i := t.fresh + 1) (f := fun p vs => tgt c (R id).length sv (hiOf nd.blk) t.fresh (t.fresh + 1) p vs) hs.moved
  have n1 := congrArg List.length m1
  have n2 := congrArg List.length m2
  rw [List.length_map, List.length_reverse, List.length_map] at n1 n2
  have mem : ∀ i, ∀ r ∈ rowsAfter i mv [], ∃ r' ∈ R id, r'.1 = r.1 := by
    intro i r hr
    have hr' : r.1 ∈ (rowsAfter i mv []).map Prod.fst := List.mem_map.2 ⟨r, hr, rfl⟩
    rw [rowsAfter_fst (f := fun p vs => tgt c (R id).length sv (hiOf nd.blk) t.fresh (t.fresh + 1) p vs) hs.moved, List.mem_reverse] at hr'
    obtain ⟨q, hq, e⟩ := List.mem_map.1 hr'
    have := (liveFrom_mem (List.mem_filter.1 hq).1).1
    exact ⟨q.2, by simpa using this, e⟩
  have hdm := Nat.div_mul_le_self (xsum c (R id)) (R id).length
  rw [← hs.avg] at hdm
  by_cases hc : sv = hiOf nd.blk
  · rw [if_pos hc]
    have hall : ∀ r ∈ R id, c.xtr r.1 = hiOf nd.blk := xsum_all (fun r hr => (ok.rng r hr).2) (by rw [← hc]; exact hdm)
    by_cases hemp : rowsAfter t.fresh mv [] = []
    · exact Or.inr ⟨hemp, hc⟩
    left
    have w0 : wt c (hiOf nd.blk) (R id) = 4 * (R id).length - 2 := by unfold wt; rw [if_neg hne, if_pos hall]; rfl
    have hw : ∀ i, wt c (hiOf nd.blk) (rowsAfter i mv []) = if rowsAfter i mv [] = [] then 0 else 4 * (rowsAfter i mv []).length - 2 := by
      intro i
      unfold wt
      split
      · rfl
      · rw [if_pos (fun r hr => ?_)]; rfl
        obtain ⟨r', h1, h2⟩ := mem i r hr
        rw [← h2]; exact hall r' h1
    have hp1 := List.length_pos_iff.2 hemp
    have b1 : (rowsAfter t.fresh mv []).length ≤ (R id).length / 2 := by
      rw [n1]
      refine Nat.le_trans (Nat.le_of_eq ?_) (Nat.le_trans (liveFrom_lt nd.deleted ((R id).length / 2) (R id).reverse 0) (by omega))
      congr 1
      refine List.filter_congr (fun q _ => ?_)
      unfold tgt
      rw [if_pos hc]
      by_cases hq : q.1 < (R id).length / 2 <;> simp [hq]
    have b2 : (rowsAfter (t.fresh + 1) mv []).length ≤ (R id).length - (R id).length / 2 := by
      rw [n2]
      refine Nat.le_trans (Nat.le_of_eq ?_) (Nat.le_trans (liveFrom_ge nd.deleted ((R id).length / 2) (R id).reverse 0) (by rw [List.length_reverse]; omega))
      congr 1
      refine List.filter_congr (fun q _ => ?_)
      unfold tgt
      rw [if_pos hc]
      by_cases hq : q.1 < (R id).length / 2 <;> simp [hq]
    rw [hc, hw, hw, w0, if_neg hemp]
    by_cases he2 : rowsAfter (t.fresh + 1) mv [] = []
    · rw [if_pos he2]
      split <;> split <;> omega
    · rw [if_neg he2]
      have := List.length_pos_iff.2 he2
      split <;> split <;> omega
  · left
    rw [if_neg hc]
    have hsh := hs.svhi
    have hnall : ¬ ∀ r ∈ R id, c.xtr r.1 = hiOf nd.blk := by
      intro hall
      have : ∀ l : Rows, (∀ r ∈ l, c.xtr r.1 = hiOf nd.blk) → xsum c l = hiOf nd.blk * l.length := by
        intro l
        induction l with
        | nil => intro _; rfl
        | cons a l ih =>
          intro hl
          have e : xsum c (a :: l) = c.xtr a.1 + xsum c l := by simp [xsum]
          rw [e, ih (fun q hq => hl q (List.mem_cons_of_mem _ hq)), hl a (List.mem_cons_self ..), List.length_cons, Nat.mul_succ]
          omega
      have e := hs.avg
      rw [this _ hall, Nat.mul_div_cancel _ hlen] at e
      exact hc e
    have w0 : wt c (hiOf nd.blk) (R id) = 4 * (R id).length - 2 + 1 := by unfold wt; rw [if_neg hne, if_neg hnall]
    have c1 : (rowsAfter t.fresh mv []).length ≤ (R id).countP (fun r => decide (c.xtr r.1 ≤ sv)) := by
      rw [n1, ← (List.reverse_perm (R id)).countP_eq]
      refine Nat.le_trans (Nat.le_of_eq ?_) (liveFrom_count nd.deleted (fun vs => decide (c.xtr vs ≤ sv)) (R id).reverse 0)
      congr 1
      refine List.filter_congr (fun q _ => ?_)
      unfold tgt
      rw [if_neg hc]
      by_cases hq : c.xtr q.2.1 ≤ sv <;> simp [hq]
    have c2 : (rowsAfter (t.fresh + 1) mv []).length ≤ (R id).countP (fun r => decide (¬ c.xtr r.1 ≤ sv)) := by
      rw [n2, ← (List.reverse_perm (R id)).countP_eq]
      refine Nat.le_trans (Nat.le_of_eq ?_) (liveFrom_count nd.deleted (fun vs => decide (¬ c.xtr vs ≤ sv)) (R id).reverse 0)
      congr 1
      refine List.filter_congr (fun q _ => ?_)
      unfold tgt
      rw [if_neg hc]
      by_cases hq : c.xtr q.2.1 ≤ sv <;> simp [hq]
    have k1 := List.countP_le_length (p := fun r : List Val × List Nat => decide (c.xtr r.1 ≤ sv)) (l := R id)
    have k2 := List.countP_le_length (p := fun r : List Val × List Nat => decide (¬ c.xtr r.1 ≤ sv)) (l := R id)
    have hn2 : (R id).countP (fun r => decide (¬ c.xtr r.1 ≤ sv)) < (R id).length := by
      rcases Nat.lt_or_ge ((R id).countP (fun r => decide (¬ c.xtr r.1 ≤ sv))) (R id).length with h | h
      · exact h
      · exfalso
        have hall := List.countP_eq_length.1 (Nat.le_antisymm k2 h)
        have : ∀ l : Rows, (∀ r ∈ l, decide (¬ c.xtr r.1 ≤ sv) = true) → (sv + 1) * l.length ≤ xsum c l := by
          intro l
          induction l with
          | nil => intro _; simp
          | cons a l ih =>
            intro hl
            have e : xsum c (a :: l) = c.xtr a.1 + xsum c l := by simp [xsum]
            have := ih (fun q hq => hl q (List.mem_cons_of_mem _ hq))
            have ha := hl a (List.mem_cons_self ..)
            have ha : ¬ c.xtr a.1 ≤ sv := by simpa using ha
            rw [e, List.length_cons, Nat.mul_succ]
            omega
        have := (Nat.le_div_iff_mul_le hlen).2 (this _ hall)
        have e := hs.avg
        omega
    by_cases hxs : x ≤ sv
    · rw [if_pos ⟨hx.1, hxs⟩, if_neg (by omega), w0]
      by_cases hfull : (rowsAfter t.fresh mv []).length = (R id).length
      · have hall := List.countP_eq_length.1 (Nat.le_antisymm k1 (by omega))
        have hall' : ∀ r ∈ R id, c.xtr r.1 = sv := xsum_all (fun r hr => by simpa using hall r hr) hdm
        have hne1 : rowsAfter t.fresh mv [] ≠ [] := by
          intro h; rw [h] at hfull; simp at hfull; omega
        have : wt c sv (rowsAfter t.fresh mv []) = 4 * (rowsAfter t.fresh mv []).length - 2 := by
          unfold wt
          rw [if_neg hne1, if_pos (fun r hr => ?_)]; rfl
          obtain ⟨r', h1, h2⟩ := mem _ r hr
          rw [← h2]; exact hall' r' h1
        rw [this]
        omega
      · have := wt_le (c := c) sv (rowsAfter t.fresh mv []) _ (Nat.le_refl _)
        omega
    · rw [if_neg (by omega), w0]
      have := wt_le (c := c) (hiOf nd.blk) (rowsAfter (t.fresh + 1) mv []) _ (Nat.le_refl _)
      split <;> omega

/-- A sequence of splits. -/
inductive Splits (c : Cfg) : Tbl → (Nat → Rows) → List Nat → Tbl → (Nat → Rows) → List Nat → Prop
  | refl (t R l) : Splits c t R l t R l
  | step {t R pre id post nd t1 sv mv nd1 nd2 t' R' l'} : Inv c t R (pre ++ id :: post) → t.nodes id = some nd → R id ≠ [] →
    SplitTo c t R id nd t1 sv mv nd1 nd2 →
    Inv c t1 (rowsSplit R t.fresh (t.fresh + 1) mv) (pre ++ t.fresh :: (t.fresh + 1) :: post) →
    Splits c t1 (rowsSplit R t.fresh (t.fresh + 1) mv) (pre ++ t.fresh :: (t.fresh + 1) :: post) t' R' l' →
    Splits c t R (pre ++ id :: post) t' R' l'

/-- The record is added to a node. -/
structure Added (c : Cfg) (t : Tbl) (R : Nat → Rows) (l : List Nat) (key : Int) (vs : List Val) (id : Nat) (os : List Nat) (t' : Tbl) : Prop where
  inv : Inv c t R l
  mem : id ∈ l
  node : ∃ nd nd', t.nodes id = some nd ∧ t' = { t.put id nd' with index := setIx t.index key (some (id, os)) } ∧
    NodeOK c nd' ((vs, os) :: R id) ∧ Same nd nd'

def addRow (R : Nat → Rows) (id : Nat) (r : List Val × List Nat) : Nat → Rows := fun j => if j = id then r :: R id else R j

theorem Added.inv' {t t' : Tbl} {R : Nat → Rows} {l : List Nat} {key : Int} {vs : List Val} {id : Nat} {os : List Nat}
    (h : Added c t R l key vs id os t') : Inv c t' (addRow R id (vs, os)) l := by
  obtain ⟨nd, nd', h1, rfl, h3, h4⟩ := h.node
  have hi := h.inv
  have hr : ∀ j, rangeAt { t.put id nd' with index := setIx t.index key (some (id, os)) } j = rangeAt t j := by
    intro j
    unfold rangeAt
    show (match (if j = id then some nd' else t.nodes j) with | some nd => _ | none => _) = _
    by_cases hj : j = id
    · rw [if_pos hj, hj, h1]; dsimp only; rw [h4.2.2.1, h4.2.2.2]
    · rw [if_neg hj]; rfl
  have hn : ∀ j n, t.nodes j = some n → ∃ n', (if j = id then some nd' else t.nodes j) = some n' ∧ n'.next = n.next := by
    intro j n hj
    by_cases hjd : j = id
    · rw [if_pos hjd]
      rw [hjd, h1] at hj
      cases hj
      exact ⟨nd', rfl, h4.1⟩
    · rw [if_neg hjd]; exact ⟨n, hj, rfl⟩
  refine ⟨hi.chain.frame (fun j _ n hj => hn j n hj), hi.nodup, ?_, ?_, ?_, ?_⟩
  · intro j n hj
    have hj : (if j = id then some nd' else t.nodes j) = some n := hj
    by_cases hjd : j = id
    · rw [hjd]; exact hi.lt id nd h1
    · rw [if_neg hjd] at hj; exact hi.lt j n hj
  · intro j n hj
    have hj : (if j = id then some nd' else t.nodes j) = some n := hj
    unfold addRow
    by_cases hjd : j = id
    · rw [if_pos hjd] at hj ⊢
      cases hj
      exact h3
    · rw [if_neg hjd] at hj ⊢; exact hi.ok j n hj
  · rw [List.map_congr_left (fun j _ => hr j)]; exact hi.gap
  · intro k j os' hk
    have hk : (if k = key then some (id, os) else t.index k) = some (j, os') := hk
    by_cases hkk : k = key
    · rw [if_pos hkk] at hk
      cases hk
      exact ⟨nd', vs, by show (if id = id then _ else _) = _; rw [if_pos rfl], by unfold addRow; rw [if_pos rfl]; exact List.mem_cons_self ..⟩
    · rw [if_neg hkk] at hk
      obtain ⟨n, vs', q1, q2⟩ := hi.idx k j os' hk
      obtain ⟨n', q3, -⟩ := hn j n q1
      refine ⟨n', vs', q3, ?_⟩
      unfold addRow
      split
      · rename_i hj; rw [hj] at q2; exact List.mem_cons_of_mem _ q2
      · exact q2

theorem full_ne {t : Tbl} {R : Nat → Rows} {l : List Nat} (h : Inv c t R l) {vs : List Val} (hv : c.Accepted vs) {id : Nat} {nd : Node}
    (hnd : t.nodes id = some nd) (hf : fullOf c vs nd = true) : R id ≠ [] := by
  intro he
  obtain ⟨lo, hi, hlo, hhi, hb⟩ := (h.ok id nd hnd).empty he
  have := hv lo hi nd.blk hlo hhi hb
  unfold fullOf at hf
  rw [this] at hf
  simp at hf

theorem insert_land (hg : c.Good) {vs : List Val} (hv : c.Rec vs) {key : Int} {t : Tbl} {R : Nat → Rows} {l : List Nat} {id : Nat} {nd : Node} (h : Inv c t R l)
    (hid : id ∈ l) (hnd : t.nodes id = some nd) (hlo : loOf nd.blk ≤ c.xtr vs) (hhi : c.xtr vs ≤ hiOf nd.blk) (hf : fullOf c vs nd = false)
    (heq : ∀ f, insert c (f + 1) t key vs = insertTuple c t key vs id) : ∃ os t', Added c t R l key vs id os t' ∧
      ∀ f, insert c (f + 1) t key vs = .ok t' := by
  obtain ⟨nd', os, e, hok, hsame⟩ := insertTuple_ok hg hnd (h.ok id nd hnd) hv (((h.ok id nd hnd).space hv.typed).2 hf) ⟨hlo, hhi⟩ key
  exact ⟨os, _, ⟨h, hid, nd, nd', hnd, rfl, hok, hsame⟩, fun f => (heq f).trans e⟩

theorem insert_ok (hg : c.Good) {vs : List Val} (hv : c.Rec vs) (ha : c.Accepted vs) (key : Int) : ∀ (m : Nat) {t : Tbl} {R : Nat → Rows} {l : List Nat}, Inv c t R l →
    mu c t R (c.xtr vs) l ≤ m → ∃ t1 R1 l1 id os t', Splits c t R l t1 R1 l1 ∧ Added c t1 R1 l1 key vs id os t' ∧
      ∀ f, m + 2 ≤ f → insert c f t key vs = .ok t' := by
  intro m
  induction m using Nat.strongRecOn with
  | _ m ih =>
    intro t R l h hm
    obtain ⟨id, nd, ns, hp, hid, hnd, hlo, hhi, hns⟩ := h.pick vs (hg.xtr vs)
    have heq := fun f => insert_eq h hv.typed (f := f) (key := key) hp
    rw [entOf_id] at heq
    cases ns with
    | false =>
      obtain ⟨os, t', had, he⟩ := insert_land hg hv h hid hnd hlo hhi (hns rfl) heq
      refine ⟨t, R, l, id, os, t', Splits.refl _ _ _, had, fun f hf => ?_⟩
      obtain ⟨f, rfl⟩ : ∃ g, f = g + 1 := ⟨f - 1, by omega⟩
      exact he f
    | true =>
      have hfull : fullOf c vs nd = true := by
        have := pick_full hp
        rw [entOf_some hnd] at this
        exact this
      have hne := full_ne h ha hnd hfull
      obtain ⟨pre, post, rfl⟩ := List.append_of_mem hid
      obtain ⟨t1, sv, mv, nd1, nd2, es, hs, hi1⟩ := splitBlock_ok hg h hnd hne
      have heq1 : ∀ f, insert c (f + 1) t key vs = insert c f t1 key vs := by
        intro f
        rw [heq f, if_pos rfl, es, Res.ok_bind]
      rcases hs.mu h hnd hne ⟨hlo, hhi⟩ with hmu | ⟨he, hsv⟩
      · obtain ⟨t2, R2, l2, id', os, t', hsp, had, he⟩ := ih _ (by omega : mu c t1 (rowsSplit R t.fresh (t.fresh + 1) mv) (c.xtr vs)
          (pre ++ t.fresh :: (t.fresh + 1) :: post) < m) hi1 (Nat.le_refl _)
        refine ⟨t2, R2, l2, id', os, t', Splits.step h hnd hne hs hi1 hsp, had, fun f hf => ?_⟩
        obtain ⟨f, rfl⟩ : ∃ g, f = g + 1 := ⟨f - 1, by omega⟩
        rw [heq1]
        exact he f (by omega)
      · have hnf : fullOf c vs nd1 = false := by
          cases hf : fullOf c vs nd1 with
          | false => rfl
          | true =>
            refine absurd ?_ (full_ne hi1 ha hs.node1 hf)
            unfold rowsSplit
            rw [if_neg (by omega), if_pos rfl]
            exact he
        have hent : ∀ j ∈ pre ++ id :: post, entOf c t1 vs j = entOf c t vs j := by
          intro j hj
          obtain ⟨n, hn⟩ := h.chain.mem j hj
          obtain ⟨n', q1, q2, -⟩ := hs.old j n hn
          rw [entOf_some hn, entOf_some q1]
          unfold fullOf
          rw [q2]
        have hland := pick_land (x := c.xtr vs) (s := entOf c t vs id) (s' := entOf c t1 vs t.fresh)
          (post := post.map (entOf c t vs)) (post' := ((t.fresh + 1) :: post).map (entOf c t1 vs))
          (by rw [entOf_some hs.node1]; exact hnf)
          (by rw [entOf_some hs.node1, entOf_some hnd]; exact ⟨hs.lo1, hs.hi1.trans hsv⟩)
          (by rw [entOf_some hnd]; exact ⟨hlo, hhi⟩)
          (pre.map (entOf c t vs)) (by rw [← List.map_cons, ← List.map_append]; exact hp)
          (by
            intro hc
            obtain ⟨j, hj, e⟩ := List.mem_map.1 hc
            have e := congrArg Ent.id e
            rw [entOf_id, entOf_id] at e
            have := h.nodup
            rw [List.nodup_append] at this
            exact this.2.2 j hj id (by simp) e)
        have hp1 : pick (c.xtr vs) ((pre ++ t.fresh :: (t.fresh + 1) :: post).map (entOf c t1 vs)) = some (entOf c t1 vs t.fresh, false) := by
          rw [List.map_append, List.map_cons, List.map_congr_left (fun j hj => hent j (by simp [hj]))]
          exact hland
        have heq2 := fun f => insert_eq hi1 hv.typed (f := f) (key := key) hp1
        rw [entOf_id] at heq2
        obtain ⟨os, t', had, he'⟩ := insert_land hg hv hi1 (by simp) hs.node1 (by rw [hs.lo1]; exact hlo) (by rw [hs.hi1, hsv]; exact hhi) hnf heq2
        refine ⟨t1, _, _, t.fresh, os, t', Splits.step h hnd hne hs hi1 (Splits.refl _ _ _), had, fun f hf => ?_⟩
        obtain ⟨f, rfl⟩ : ∃ g, f = g + 2 := ⟨f - 2, by omega⟩
        rw [heq1]
        exact he' f

/-- Every insert that comes to an end consists of splits, and adds the record to a node. -/
theorem insert_sound (hg : c.Good) {vs : List Val} (hv : c.Rec vs) {key : Int} {t' : Tbl} : ∀ (f : Nat) {t : Tbl} {R : Nat → Rows} {l : List Nat}, Inv c t R l →
    insert c f t key vs = .ok t' → ∃ t1 R1 l1 id os, Splits c t R l t1 R1 l1 ∧ Added c t1 R1 l1 key vs id os t'
  | 0, _, _, _, _, e => by cases e
  | f + 1, t, R, l, h, e => by
    obtain ⟨id, nd, ns, hp, hid, hnd, hlo, hhi, hns⟩ := h.pick vs (hg.xtr vs)
    have heq := fun f => insert_eq h hv.typed (f := f) (key := key) hp
    rw [entOf_id] at heq
    cases ns with
    | false =>
      obtain ⟨os, t'', had, he⟩ := insert_land hg hv h hid hnd hlo hhi (hns rfl) heq
      rw [he f] at e
      cases e
      exact ⟨t, R, l, id, os, Splits.refl _ _ _, had⟩
    | true =>
      rw [heq f, if_pos rfl] at e
      by_cases hne : R id = []
      · have hcnt := (h.ok id nd hnd).rep.count
        rw [hne] at hcnt
        have : splitBlock c t id = .ub := by
          unfold splitBlock
          rw [Tbl.get_ok hnd, Res.ok_bind, range_ok, Res.ok_bind, hcnt, Res.ok_bind]
          rfl
        rw [this] at e
        cases e
      · obtain ⟨pre, post, rfl⟩ := List.append_of_mem hid
        obtain ⟨t1, sv, mv, nd1, nd2, es, hs, hi1⟩ := splitBlock_ok hg h hnd hne
        rw [es, Res.ok_bind] at e
        obtain ⟨t2, R2, l2, id', os, hsp, had⟩ := insert_sound hg hv f hi1 e
        exact ⟨t2, R2, l2, id', os, Splits.step h hnd hne hs hi1 hsp, had⟩

end Verif.PTable
