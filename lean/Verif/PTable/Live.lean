import Verif.PTable.History

/-!
# Live records of a table and the index
-/

namespace Verif.PTable

variable {c : Cfg}

def delsAt (t : Tbl) (id : Nat) : List Nat :=
  match t.nodes id with
  | some nd => nd.deleted
  | none => []

/-- Live records of a node. -/
def liveAt (t : Tbl) (R : Nat → Rows) (id : Nat) : List Move := (liveFrom (delsAt t id) 0 (R id).reverse).map (fun q => (id, q.2))

/-- Live records of the table. -/
def live (t : Tbl) (R : Nat → Rows) (l : List Nat) : List Move := l.flatMap (liveAt t R)

def mkey (c : Cfg) (m : Move) : Int := key16 c m.2.1

structure LiveOK (c : Cfg) (t : Tbl) (R : Nat → Rows) (l : List Nat) : Prop where
  pos : ∀ id ∈ l, (delsAt t id).Nodup ∧ ∀ p ∈ delsAt t id, p < (R id).length
  nodup : ((live t R l).map (mkey c)).Nodup
  idx : ∀ k h, t.index k = some h ↔ ∃ m ∈ live t R l, mkey c m = k ∧ h = (m.1, m.2.2)

theorem liveFrom_nil : ∀ (rs : Rows) (p : Nat), (liveFrom [] p rs).map Prod.snd = rs
  | [], _ => rfl
  | r :: rs, p => by
    rw [liveFrom, if_neg (by simp), List.map_cons, liveFrom_nil rs]

theorem liveAt_new {t : Tbl} {R : Nat → Rows} {i : Nat} {mv : List Move} (hd : delsAt t i = []) (hR : R i = rowsAfter i mv []) :
    liveAt t R i = mv.filter (fun m => decide (m.1 = i)) := by
  have h : liveAt t R i = ((liveFrom [] 0 (R i).reverse).map Prod.snd).map (fun r => (i, r)) := by
    unfold liveAt
    rw [hd, List.map_map]; rfl
  rw [h, liveFrom_nil, hR]
  unfold rowsAfter
  rw [List.append_nil, List.reverse_reverse, List.map_map]
  conv => rhs; rw [← List.map_id (mv.filter _)]
  refine List.map_congr_left (fun m hm => ?_)
  have : m.1 = i := by simpa using (List.mem_filter.1 hm).2
  show (i, m.2) = m
  rw [← this]

theorem filter_two {mv : List Move} {a b : Nat} (hab : a ≠ b) (h : ∀ m ∈ mv, m.1 = a ∨ m.1 = b) :
    (mv.filter (fun m => decide (m.1 = a)) ++ mv.filter (fun m => decide (m.1 = b))).Perm mv := by
  have hb : mv.filter (fun m => decide (m.1 = b)) = mv.filter (fun m => !decide (m.1 = a)) := by
    refine List.filter_congr (fun m hm => ?_)
    rcases h m hm with e | e
    · simp [e, hab]
    · simp [e, Ne.symm hab]
  rw [hb]
  exact List.filter_append_perm _ _

theorem foldl_moveIx_iff : ∀ (mv : List Move) (ix : Int → Option Handle) (k : Int) (h : Handle), (mv.map (mkey c)).Nodup →
    (mv.foldl (moveIx c) ix k = some h ↔ (∃ m ∈ mv, mkey c m = k ∧ h = (m.1, m.2.2)) ∨ (k ∉ mv.map (mkey c) ∧ ix k = some h))
  | [], ix, k, h, _ => by simp
  | m :: mv, ix, k, h, hd => by
    rw [List.map_cons, List.nodup_cons] at hd
    rw [List.foldl_cons, foldl_moveIx_iff mv _ k h hd.2]
    by_cases hk : k = mkey c m
    · have hn : k ∉ mv.map (mkey c) := by rw [hk]; exact hd.1
      have e : moveIx c ix m k = some (m.1, m.2.2) := by
        unfold moveIx setIx
        exact if_pos hk
      rw [e]
      constructor
      · rintro (⟨m', hm, e1, e2⟩ | ⟨-, e⟩)
        · exact Or.inl ⟨m', List.mem_cons_of_mem _ hm, e1, e2⟩
        · exact Or.inl ⟨m, List.mem_cons_self .., hk.symm, (Option.some.inj e).symm⟩
      · rintro (⟨m', hm, e1, e2⟩ | ⟨e1, -⟩)
        · rcases List.mem_cons.1 hm with rfl | hm
          · exact Or.inr ⟨hn, by rw [e2]⟩
          · exact Or.inl ⟨m', hm, e1, e2⟩
        · exact absurd (by rw [List.map_cons, hk]; exact List.mem_cons_self ..) e1
    · have e : moveIx c ix m k = ix k := by
        unfold moveIx setIx
        exact if_neg hk
      rw [e]
      constructor
      · rintro (⟨m', hm, e1, e2⟩ | ⟨hn, e⟩)
        · exact Or.inl ⟨m', List.mem_cons_of_mem _ hm, e1, e2⟩
        · refine Or.inr ⟨?_, e⟩
          rw [List.map_cons, List.mem_cons]
          rintro (h | h)
          · exact hk h
          · exact hn h
      · rintro (⟨m', hm, e1, e2⟩ | ⟨hn, e⟩)
        · rcases List.mem_cons.1 hm with rfl | hm
          · exact absurd e1.symm hk
          · exact Or.inl ⟨m', hm, e1, e2⟩
        · rw [List.map_cons, List.mem_cons] at hn
          exact Or.inr ⟨fun h => hn (Or.inr h), e⟩

/-- Live records after a split. -/
theorem SplitTo.live {t t' : Tbl} {R : Nat → Rows} {pre post : List Nat} {id sv : Nat} {nd nd1 nd2 : Node} {mv : List Move}
    (h : Inv c t R (pre ++ id :: post)) (hnd : t.nodes id = some nd) (hs : SplitTo c t R id nd t' sv mv nd1 nd2) :
    (live t' (rowsSplit R t.fresh (t.fresh + 1) mv) (pre ++ t.fresh :: (t.fresh + 1) :: post)).Perm (live t R pre ++ (mv ++ live t R post)) ∧
    mv.map (fun m => m.2.1) = (liveAt t R id).map (fun m => m.2.1) ∧
    (∀ j ∈ pre ++ post, delsAt t' j = delsAt t j ∧ rowsSplit R t.fresh (t.fresh + 1) mv j = R j) ∧
    delsAt t' t.fresh = [] ∧ delsAt t' (t.fresh + 1) = [] := by
  have hlt : ∀ j ∈ pre ++ id :: post, j < t.fresh := by
    intro j hj
    obtain ⟨n, hn⟩ := h.chain.mem j hj
    exact h.lt j n hn
  have hsame : ∀ j ∈ pre ++ post, delsAt t' j = delsAt t j ∧ rowsSplit R t.fresh (t.fresh + 1) mv j = R j := by
    intro j hj
    have hj' : j ∈ pre ++ id :: post := by
      rcases List.mem_append.1 hj with h | h <;> simp [h]
    have hl := hlt j hj'
    refine ⟨?_, by unfold rowsSplit; rw [if_neg (by omega), if_neg (by omega)]⟩
    obtain ⟨n, hn⟩ := h.chain.mem j hj'
    obtain ⟨n', q1, -, q3, -⟩ := hs.old j n hn
    unfold delsAt
    rw [hn, q1]; exact q3
  have hcong : ∀ l : List Nat, (∀ j ∈ l, j ∈ pre ++ post) → PTable.live t' (rowsSplit R t.fresh (t.fresh + 1) mv) l = PTable.live t R l := by
    intro l hl
    unfold PTable.live
    rw [List.flatMap_def, List.flatMap_def]
    congr 1
    refine List.map_congr_left (fun j hj => ?_)
    obtain ⟨q1, q2⟩ := hsame j (hl j hj)
    unfold liveAt
    rw [q1, q2]
  have d1 : delsAt t' t.fresh = [] := by unfold delsAt; rw [hs.node1]; exact hs.dels.1
  have d2 : delsAt t' (t.fresh + 1) = [] := by unfold delsAt; rw [hs.node2]; exact hs.dels.2
  have r1 : rowsSplit R t.fresh (t.fresh + 1) mv t.fresh = rowsAfter t.fresh mv [] := by
    unfold rowsSplit; rw [if_neg (by omega), if_pos rfl]
  have r2 : rowsSplit R t.fresh (t.fresh + 1) mv (t.fresh + 1) = rowsAfter (t.fresh + 1) mv [] := by
    unfold rowsSplit; rw [if_pos rfl]
  refine ⟨?_, ?_, hsame, d1, d2⟩
  · have e : PTable.live t' (rowsSplit R t.fresh (t.fresh + 1) mv) (pre ++ t.fresh :: (t.fresh + 1) :: post) =
        PTable.live t R pre ++ ((mv.filter (fun m => decide (m.1 = t.fresh)) ++ mv.filter (fun m => decide (m.1 = t.fresh + 1))) ++ PTable.live t R post) := by
      rw [← hcong pre (fun j hj => by simp [hj]), ← hcong post (fun j hj => by simp [hj]), ← liveAt_new d1 r1, ← liveAt_new d2 r2]
      unfold PTable.live
      rw [List.flatMap_append, List.flatMap_cons, List.flatMap_cons, List.append_assoc]
    rw [e]
    refine List.Perm.append_left _ (List.Perm.append_right _ (filter_two (by omega) (fun m hm => ?_)))
    have : (m.1, m.2.1) ∈ mv.map (fun m => (m.1, m.2.1)) := List.mem_map.2 ⟨m, hm, rfl⟩
    rw [hs.moved] at this
    obtain ⟨q, -, e⟩ := List.mem_map.1 this
    have e : tgt c (R id).length sv (hiOf nd.blk) t.fresh (t.fresh + 1) q.1 q.2.1 = m.1 := (Prod.ext_iff.1 e).1
    rcases tgt_or c (R id).length sv (hiOf nd.blk) t.fresh (t.fresh + 1) q.1 q.2.1 with hc | hc
    · exact Or.inl (e.symm.trans hc)
    · exact Or.inr (e.symm.trans hc)
  · have e := congrArg (List.map Prod.snd) hs.moved
    rw [List.map_map, List.map_map] at e
    have hd : delsAt t id = nd.deleted := by unfold delsAt; rw [hnd]
    unfold liveAt
    rw [hd, List.map_map]
    exact e

theorem live_split_at (t : Tbl) (R : Nat → Rows) (pre post : List Nat) (id : Nat) :
    live t R (pre ++ id :: post) = live t R pre ++ (liveAt t R id ++ live t R post) := by
  unfold live
  rw [List.flatMap_append, List.flatMap_cons]

theorem SplitTo.liveOK {t t' : Tbl} {R : Nat → Rows} {pre post : List Nat} {id sv : Nat} {nd nd1 nd2 : Node} {mv : List Move}
    (h : Inv c t R (pre ++ id :: post)) (hnd : t.nodes id = some nd) (hs : SplitTo c t R id nd t' sv mv nd1 nd2) (hl : LiveOK c t R (pre ++ id :: post)) :
    LiveOK c t' (rowsSplit R t.fresh (t.fresh + 1) mv) (pre ++ t.fresh :: (t.fresh + 1) :: post) ∧
    ((PTable.live t' (rowsSplit R t.fresh (t.fresh + 1) mv) (pre ++ t.fresh :: (t.fresh + 1) :: post)).map (fun m => m.2.1)).Perm
      ((PTable.live t R (pre ++ id :: post)).map (fun m => m.2.1)) := by
  obtain ⟨hp, hmv, hsame, d1, d2⟩ := hs.live h hnd
  have hkeys : mv.map (mkey c) = (liveAt t R id).map (mkey c) := by
    have := congrArg (List.map (key16 c)) hmv
    rw [List.map_map, List.map_map] at this
    exact this
  have hnd' := hl.nodup
  rw [live_split_at, List.map_append, List.map_append, ← hkeys] at hnd'
  have hrec : ((PTable.live t' (rowsSplit R t.fresh (t.fresh + 1) mv) (pre ++ t.fresh :: (t.fresh + 1) :: post)).map (fun m => m.2.1)).Perm
      ((PTable.live t R (pre ++ id :: post)).map (fun m => m.2.1)) := by
    refine (hp.map _).trans ?_
    rw [live_split_at, List.map_append, List.map_append, List.map_append, List.map_append, hmv]
  refine ⟨⟨?_, ?_, ?_⟩, hrec⟩
  · intro j hj
    have hcase : j = t.fresh ∨ j = t.fresh + 1 ∨ j ∈ pre ++ post := by
      rcases List.mem_append.1 hj with h | h
      · simp [h]
      · rcases List.mem_cons.1 h with h | h
        · simp [h]
        · rcases List.mem_cons.1 h with h | h <;> simp [h]
    rcases hcase with e | e | e
    · rw [e, d1]; simp
    · rw [e, d2]; simp
    · obtain ⟨q1, q2⟩ := hsame j e
      rw [q1, q2]
      exact hl.pos j (by rcases List.mem_append.1 e with h | h <;> simp [h])
  · refine ((hp.map (mkey c)).nodup_iff).2 ?_
    rw [List.map_append, List.map_append]
    exact hnd'
  · intro k hd
    have hmem : ∀ m, m ∈ PTable.live t' (rowsSplit R t.fresh (t.fresh + 1) mv) (pre ++ t.fresh :: (t.fresh + 1) :: post) ↔
        m ∈ mv ∨ m ∈ PTable.live t R pre ++ PTable.live t R post := by
      intro m
      rw [hp.mem_iff]
      simp only [List.mem_append]
      tauto
    rw [List.nodup_append, List.nodup_append] at hnd'
    obtain ⟨n1, ⟨n2, n3, n4⟩, n5⟩ := hnd'
    rw [hs.index, foldl_moveIx_iff mv _ k hd n2]
    have hout : ∀ m, m ∈ PTable.live t R pre ++ PTable.live t R post → mkey c m ∉ mv.map (mkey c) := by
      intro m hm hc
      rcases List.mem_append.1 hm with h | h
      · exact n5 _ (List.mem_map_of_mem h) _ (List.mem_append_left _ hc) rfl
      · exact n4 _ hc _ (List.mem_map_of_mem h) rfl
    constructor
    · rintro (⟨m, hm, e1, e2⟩ | ⟨hn, e⟩)
      · exact ⟨m, (hmem m).2 (Or.inl hm), e1, e2⟩
      · obtain ⟨m, hm, e1, e2⟩ := (hl.idx k hd).1 e
        refine ⟨m, (hmem m).2 (Or.inr ?_), e1, e2⟩
        rw [live_split_at] at hm
        rcases List.mem_append.1 hm with h | h
        · exact List.mem_append_left _ h
        · rcases List.mem_append.1 h with h | h
          · exact absurd (by rw [hkeys, ← e1]; exact List.mem_map_of_mem h) hn
          · exact List.mem_append_right _ h
    · rintro ⟨m, hm, e1, e2⟩
      rcases (hmem m).1 hm with h | h
      · exact Or.inl ⟨m, h, e1, e2⟩
      · refine Or.inr ⟨by rw [← e1]; exact hout m h, (hl.idx k hd).2 ⟨m, ?_, e1, e2⟩⟩
        rw [live_split_at]
        rcases List.mem_append.1 h with h | h
        · exact List.mem_append_left _ h
        · exact List.mem_append_right _ (List.mem_append_right _ h)

theorem Splits.liveOK {t t' : Tbl} {R R' : Nat → Rows} {l l' : List Nat} (h : Splits c t R l t' R' l') (hl : LiveOK c t R l) :
    LiveOK c t' R' l' ∧ ((live t' R' l').map (fun m => m.2.1)).Perm ((live t R l).map (fun m => m.2.1)) := by
  induction h with
  | refl => exact ⟨hl, List.Perm.refl _⟩
  | step h hnd _ hs _ _ ih =>
    obtain ⟨q1, q2⟩ := hs.liveOK h hnd hl
    obtain ⟨q3, q4⟩ := ih q1
    exact ⟨q3, q4.trans q2⟩

theorem liveFrom_append (dels : List Nat) (r : List Val × List Nat) : ∀ (rs : Rows) (p : Nat), p + rs.length ∉ dels →
    liveFrom dels p (rs ++ [r]) = liveFrom dels p rs ++ [(p + rs.length, r)]
  | [], p, h => by
    rw [List.nil_append]
    show (if p ∈ dels then _ else _) = _
    rw [if_neg (by simpa using h)]; rfl
  | r' :: rs, p, h => by
    have ih := liveFrom_append dels r rs (p + 1) (by rw [List.length_cons] at h; rwa [show p + 1 + rs.length = p + (rs.length + 1) by omega])
    rw [List.cons_append, liveFrom, liveFrom, ih, List.length_cons, show p + 1 + rs.length = p + (rs.length + 1) by omega]
    split <;> rfl

/-- Only nodes outside `l` differ. -/
theorem live_congr {t t' : Tbl} {R R' : Nat → Rows} {l : List Nat} (h : ∀ j ∈ l, delsAt t' j = delsAt t j ∧ R' j = R j) : live t' R' l = live t R l := by
  unfold live
  rw [List.flatMap_def, List.flatMap_def]
  congr 1
  refine List.map_congr_left (fun j hj => ?_)
  obtain ⟨q1, q2⟩ := h j hj
  unfold liveAt
  rw [q1, q2]

theorem Added.liveOK {t t' : Tbl} {R : Nat → Rows} {l : List Nat} {key : Int} {vs : List Val} {id : Nat} {os : List Nat}
    (h : Added c t R l key vs id os t') (hl : LiveOK c t R l) (hk : key = key16 c vs) (habs : t.index key = none) :
    LiveOK c t' (addRow R id (vs, os)) l ∧ (live t' (addRow R id (vs, os)) l).Perm ((id, vs, os) :: live t R l) := by
  obtain ⟨nd, nd', h1, rfl, h3, h4⟩ := h.node
  have hd : ∀ j, delsAt { t.put id nd' with index := setIx t.index key (some (id, os)) } j = delsAt t j := by
    intro j
    unfold delsAt
    show (match (if j = id then some nd' else t.nodes j) with | some nd => _ | none => _) = _
    by_cases hj : j = id
    · rw [if_pos hj, hj, h1]; exact h4.2.1
    · rw [if_neg hj]
  generalize ht' : ({ t.put id nd' with index := setIx t.index key (some (id, os)) } : Tbl) = t' at hd
  have hix : t'.index = setIx t.index key (some (id, os)) := by rw [← ht']
  have hp : (live t' (addRow R id (vs, os)) l).Perm ((id, vs, os) :: live t R l) := by
    obtain ⟨pre, post, rfl⟩ := List.append_of_mem h.mem
    have hnd := h.inv.nodup
    rw [List.nodup_append, List.nodup_cons] at hnd
    have hpre : live t' (addRow R id (vs, os)) pre = live t R pre := live_congr (fun j hj => ⟨hd j, by
      unfold addRow
      rw [if_neg (fun e => hnd.2.2 j hj id (List.mem_cons_self ..) e)]⟩)
    have hpost : live t' (addRow R id (vs, os)) post = live t R post := live_congr (fun j hj => ⟨hd j, by
      unfold addRow
      rw [if_neg (fun e : j = id => hnd.2.1.1 (e ▸ hj))]⟩)
    have hat : liveAt t' (addRow R id (vs, os)) id = liveAt t R id ++ [(id, vs, os)] := by
      unfold liveAt
      have : addRow R id (vs, os) id = (vs, os) :: R id := by unfold addRow; rw [if_pos rfl]
      rw [this, hd, List.reverse_cons, liveFrom_append, List.map_append]
      · rfl
      · intro hc
        have := (hl.pos id h.mem).2 _ hc
        rw [List.length_reverse] at this
        omega
    rw [live_split_at, live_split_at, hpre, hpost, hat, List.append_assoc, List.singleton_append]
    have := List.perm_middle (l₁ := live t R pre ++ liveAt t R id) (l₂ := live t R post) (a := (id, vs, os))
    rw [List.append_assoc, List.append_assoc] at this
    exact this
  refine ⟨⟨?_, ?_, ?_⟩, hp⟩
  · intro j hj
    rw [hd]
    obtain ⟨q1, q2⟩ := hl.pos j hj
    refine ⟨q1, fun p hp => ?_⟩
    have := q2 p hp
    unfold addRow
    split
    · rename_i e; rw [List.length_cons, ← e]; omega
    · exact this
  · refine ((hp.map (mkey c)).nodup_iff).2 ?_
    rw [List.map_cons, List.nodup_cons]
    refine ⟨fun hc => ?_, hl.nodup⟩
    obtain ⟨m, hm, e⟩ := List.mem_map.1 hc
    have e : mkey c m = key := e.trans hk.symm
    have := (hl.idx key (m.1, m.2.2)).2 ⟨m, hm, e, rfl⟩
    rw [habs] at this
    cases this
  · intro k hh
    have hmem : ∀ m, m ∈ live t' (addRow R id (vs, os)) l ↔ m = (id, vs, os) ∨ m ∈ live t R l := by
      intro m; rw [hp.mem_iff, List.mem_cons]
    rw [hix]
    unfold setIx
    by_cases hkk : k = key
    · rw [if_pos hkk]
      constructor
      · intro e
        exact ⟨(id, vs, os), (hmem _).2 (Or.inl rfl), by rw [hkk]; exact hk.symm, (Option.some.inj e).symm⟩
      · rintro ⟨m, hm, e1, e2⟩
        rcases (hmem m).1 hm with rfl | hm
        · rw [e2]
        · have := (hl.idx k (m.1, m.2.2)).2 ⟨m, hm, e1, rfl⟩
          rw [hkk, habs] at this
          cases this
    · rw [if_neg hkk, hl.idx]
      constructor
      · rintro ⟨m, hm, e1, e2⟩
        exact ⟨m, (hmem m).2 (Or.inr hm), e1, e2⟩
      · rintro ⟨m, hm, e1, e2⟩
        rcases (hmem m).1 hm with rfl | hm
        · exact absurd (e1.symm.trans hk.symm) hkk
        · exact ⟨m, hm, e1, e2⟩

theorem liveFrom_del (dels : List Nat) (p : Nat) : ∀ (rs : Rows) (n : Nat), liveFrom (dels ++ [p]) n rs = (liveFrom dels n rs).filter (fun q => !decide (q.1 = p))
  | [], _ => rfl
  | r :: rs, n => by
    have ih := liveFrom_del dels p rs (n + 1)
    rw [liveFrom, liveFrom]
    by_cases hn : n ∈ dels
    · rw [if_pos (List.mem_append_left _ hn), if_pos hn, ih]
    · rw [if_neg hn, List.filter_cons]
      by_cases hp : n = p
      · rw [if_pos (by simp [hp]), if_neg (by simp [hp]), ih]
      · rw [if_neg (by simp [hn, hp]), if_pos (by simp [hp]), ih]

theorem liveFrom_nodup (dels : List Nat) : ∀ (rs : Rows) (n : Nat), ((liveFrom dels n rs).map Prod.fst).Nodup ∧ ∀ q ∈ liveFrom dels n rs, n ≤ q.1
  | [], _ => by simp [liveFrom]
  | r :: rs, n => by
    obtain ⟨h1, h2⟩ := liveFrom_nodup dels rs (n + 1)
    rw [liveFrom]
    split
    · exact ⟨h1, fun q hq => by have := h2 q hq; omega⟩
    · refine ⟨?_, fun q hq => ?_⟩
      · rw [List.map_cons, List.nodup_cons]
        refine ⟨fun hc => ?_, h1⟩
        obtain ⟨q, hq, e⟩ := List.mem_map.1 hc
        have := h2 q hq
        omega
      · rcases List.mem_cons.1 hq with rfl | hq
        · exact Nat.le_refl _
        · have := h2 q hq; omega

theorem perm_filter_ne {L : List (Nat × List Val × List Nat)} (hn : (L.map Prod.fst).Nodup) {q : Nat × List Val × List Nat} (hq : q ∈ L) :
    L.Perm (q :: L.filter (fun q' => !decide (q'.1 = q.1))) := by
  have h := (List.filter_append_perm (fun q' : Nat × List Val × List Nat => decide (q'.1 = q.1)) L).symm
  have e : L.filter (fun q' => decide (q'.1 = q.1)) = [q] := by
    induction L with
    | nil => cases hq
    | cons a L ih =>
      rw [List.map_cons, List.nodup_cons] at hn
      rw [List.filter_cons]
      rcases List.mem_cons.1 hq with rfl | hq'
      · rw [if_pos (by simp)]
        congr 1
        rw [List.filter_eq_nil_iff]
        intro b hb hc
        have hc : b.1 = q.1 := by simpa using hc
        exact hn.1 (by rw [← hc]; exact List.mem_map_of_mem hb)
      · rw [if_neg (fun hc => ?_), ih hn.2 hq' ((List.filter_append_perm _ _).symm)]
        have hc : a.1 = q.1 := by simpa using hc
        exact hn.1 (by rw [hc]; exact List.mem_map_of_mem hq')
  rw [e] at h
  exact h

/-- The position that `deleteByKey` marks is the position of the record, if the first column holds numbers. -/
theorem delPos_eq (hg : c.Good) (h0 : c.sch[0]? ≠ some .str) {nd : Node} {rows : Rows} (ok : NodeOK c nd rows) {p : Nat} {r : List Val × List Nat}
    (hr : rows.reverse[p]? = some r) : delPos c r.2 = p := by
  have hpos : 0 < c.sch.length := List.length_pos_iff.2 hg.ne
  have e2 : c.sch[0]? = some c.sch[0] := List.getElem?_eq_getElem hpos
  have hns : c.sch[0] ≠ .str := fun e => h0 (by rw [e2, e])
  have ho := ok.rep.offset_scalar hr e2 hns
  rw [(ok.std 0 hpos).2] at ho
  have hp : p < rows.length := by
    have := (List.getElem?_eq_some_iff.1 hr).1
    simpa using this
  have hle := ok.rep.length_le hg.ne
  have hd : dataOf c.sch 0 ≤ blockSize := by
    have := ok.rep.use_le ok.std hpos
    have hin := ok.rep.lay.inside 0 hpos
    rw [ok.std.end] at hin
    have hbs : blockSize = 32768 := rfl
    omega
  have hbs : blockSize = 32768 := rfl
  unfold delPos
  rw [List.getD_eq_getElem?_getD, ho, e2]
  show (sub64 (dataOf c.sch 0 + p * c.sch[0].dataSize) (dataOf c.sch 0) / c.sch[0].dataSize) % 65536 = p
  cases ht : c.sch[0] with
  | int => unfold sub64 Ty.dataSize; dsimp only; omega
  | dbl => unfold sub64 Ty.dataSize; dsimp only; omega
  | str => exact absurd ht hns

theorem LiveOK.delete (hg : c.Good) (h0 : c.sch[0]? ≠ some .str) {t : Tbl} {R : Nat → Rows} {l : List Nat} (h : Inv c t R l) (hl : LiveOK c t R l)
    {key : Int} {id : Nat} {os : List Nat} (hk : t.index key = some (id, os)) {nd : Node} (hnd : t.nodes id = some nd) :
    LiveOK c { t.put id { nd with deleted := nd.deleted ++ [delPos c os] } with index := setIx t.index key none } R l ∧
    ∃ m, mkey c m = key ∧
      (live t R l).Perm (m :: live { t.put id { nd with deleted := nd.deleted ++ [delPos c os] } with index := setIx t.index key none } R l) := by
  obtain ⟨m, hm, hmk, e⟩ := (hl.idx key (id, os)).1 hk
  obtain ⟨j, hj, hmj⟩ := List.mem_flatMap.1 hm
  unfold liveAt at hmj
  obtain ⟨q, hq, rfl⟩ := List.mem_map.1 hmj
  have e1 : id = j := (Prod.ext_iff.1 e).1
  have e2 : os = q.2.2 := (Prod.ext_iff.1 e).2
  subst e1
  obtain ⟨-, -, hrow, hnotdel⟩ := liveFrom_mem hq
  rw [Nat.sub_zero] at hrow
  have hdp : delPos c os = q.1 := by rw [e2]; exact delPos_eq hg h0 (h.ok id nd hnd) hrow
  rw [hdp]
  have hdid : delsAt t id = nd.deleted := by unfold delsAt; rw [hnd]
  have hd : ∀ i, delsAt { t.put id { nd with deleted := nd.deleted ++ [q.1] } with index := setIx t.index key none } i =
      if i = id then delsAt t id ++ [q.1] else delsAt t i := by
    intro i
    rw [hdid]
    unfold delsAt
    show (match (if i = id then some { nd with deleted := nd.deleted ++ [q.1] } else t.nodes i) with | some nd => _ | none => _) = _
    by_cases hi : i = id
    · rw [if_pos hi, if_pos hi]
    · rw [if_neg hi, if_neg hi]
  generalize ht' : ({ t.put id { nd with deleted := nd.deleted ++ [q.1] } with index := setIx t.index key none } : Tbl) = t' at hd
  have hix : t'.index = setIx t.index key none := by rw [← ht']
  have hp : (live t R l).Perm ((id, q.2) :: live t' R l) := by
    obtain ⟨pre, post, rfl⟩ := List.append_of_mem hj
    have hn := h.nodup
    rw [List.nodup_append, List.nodup_cons] at hn
    have hpre : live t' R pre = live t R pre := live_congr (fun i hi => ⟨by
      rw [hd, if_neg (fun e => hn.2.2 i hi id (List.mem_cons_self ..) e)], rfl⟩)
    have hpost : live t' R post = live t R post := live_congr (fun i hi => ⟨by
      rw [hd, if_neg (fun e : i = id => hn.2.1.1 (e ▸ hi))], rfl⟩)
    have hat : (liveAt t R id).Perm ((id, q.2) :: liveAt t' R id) := by
      unfold liveAt
      rw [hd, if_pos rfl, liveFrom_del]
      exact (perm_filter_ne (liveFrom_nodup _ _ _).1 hq).map _
    rw [live_split_at, live_split_at, hpre, hpost]
    refine (List.Perm.append_left _ (List.Perm.append_right _ hat)).trans ?_
    rw [List.cons_append]
    exact List.perm_middle
  have hkn := ((hp.map (mkey c)).nodup_iff).1 hl.nodup
  rw [List.map_cons, List.nodup_cons] at hkn
  refine ⟨⟨?_, hkn.2, ?_⟩, (id, q.2), hmk, hp⟩
  · intro i hi
    rw [hd]
    obtain ⟨q1, q2⟩ := hl.pos i hi
    by_cases he : i = id
    · rw [if_pos he]
      subst he
      refine ⟨?_, fun p hp => ?_⟩
      · rw [List.nodup_append]
        refine ⟨q1, by simp, fun a ha b hb => ?_⟩
        have : b = q.1 := by simpa using hb
        rw [this]
        intro e
        exact hnotdel (e ▸ ha)
      · rcases List.mem_append.1 hp with hp | hp
        · exact q2 p hp
        · have : p = q.1 := by simpa using hp
          rw [this]
          have := (List.getElem?_eq_some_iff.1 hrow).1
          simpa using this
    · rw [if_neg he]; exact ⟨q1, q2⟩
  · intro k hh
    rw [hix]
    unfold setIx
    by_cases hkk : k = key
    · rw [if_pos hkk]
      constructor
      · intro e; cases e
      · rintro ⟨m, hm, e1, e2⟩
        refine absurd ?_ hkn.1
        rw [hmk, ← hkk, ← e1]
        exact List.mem_map_of_mem hm
    · rw [if_neg hkk, hl.idx]
      constructor
      · rintro ⟨m, hm, e1, e2⟩
        rcases List.mem_cons.1 (hp.mem_iff.1 hm) with rfl | hm
        · exact absurd (e1.symm.trans hmk) hkk
        · exact ⟨m, hm, e1, e2⟩
      · rintro ⟨m, hm, e1, e2⟩
        exact ⟨m, hp.mem_iff.2 (List.mem_cons_of_mem _ hm), e1, e2⟩

end Verif.PTable
