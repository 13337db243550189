import Verif.PTable.Scan

/-!
# C22: range scans
-/

namespace Verif.PTable

variable {c : Cfg}

/-- Read all records of a scan. -/
def readAll (c : Cfg) (t : Tbl) : List Handle → Res (List (List Val))
  | [] => .ok []
  | h :: hs => do
    let vs ← readHandle c t h
    let rest ← readAll c t hs
    pure (vs :: rest)

/-- The full statement of C22: a scan ends, and returns exactly the live records in the ranges.  `strict = true` is the code as written;
`strict = false` grants that a read of `*candidates.end()` gives a null pointer. -/
def C22_statement (strict : Bool) : Prop :=
  ∀ c : Cfg, c.Good → c.sch[0]? ≠ some .str → ∀ ops : List Op, (∀ op ∈ ops, ∀ vs ∈ op.recs, c.Rec vs ∧ ∀ v ∈ vs, v.number) → (∀ op ∈ ops, op.Keyed c) →
    Legal (fun _ => none) ops → ∀ ps, PredsOK c ps → (∀ p ∈ ps, p.lo.number ∧ p.hi.number) →
    ∀ (f : Nat) (t0 t : Tbl), init c = .ok t0 → run c f t0 ops = .ok t →
    (∃ g hs, rangeScan c strict t ps g = .ok hs) ∧ ∀ g hs, rangeScan c strict t ps g = .ok hs →
      ∃ recs, readAll c t hs = .ok recs ∧ recs.Nodup ∧ ∀ vs, vs ∈ recs ↔ (∃ k, specRun ops k = some vs) ∧ Inside ps vs

/-- No candidate block behind the first one is empty. -/
def NoGap (c : Cfg) (t : Tbl) (ps : List Pred) : Prop :=
  ∀ cs, candidates c t ps t.fresh (some t.head) = .ok cs → ∀ id ∈ cs.tail, ∀ nd, t.nodes id = some nd → count nd.blk ≠ .ok 0

theorem later_all {R : Nat → Rows} : ∀ {l : List Nat}, (∀ id ∈ l, R id ≠ []) → later R l = l.flatMap (rowsAt R)
  | [], _ => rfl
  | id :: l, h => by
    rw [later, if_neg (h id (List.mem_cons_self ..)), later_all (fun j hj => h j (List.mem_cons_of_mem _ hj)), List.flatMap_cons]

theorem scanned_all {R : Nat → Rows} {l : List Nat} (h : ∀ id ∈ l.tail, R id ≠ []) : scanned R l = l.flatMap (rowsAt R) := by
  cases l with
  | nil => rfl
  | cons id l => rw [scanned, later_all (l := l) h, List.flatMap_cons]

theorem mem_rowsAt {R : Nat → Rows} {id : Nat} {m : Move} : m ∈ rowsAt R id ↔ m.1 = id ∧ m.2 ∈ R id := by
  unfold rowsAt
  rw [List.mem_map]
  constructor
  · rintro ⟨r, hr, rfl⟩
    exact ⟨rfl, by simpa using hr⟩
  · rintro ⟨h1, h2⟩
    exact ⟨m.2, by simpa using h2, by rw [← h1]⟩

/-- The records of non-candidates are not in the ranges. -/
theorem filter_cand (hg : c.Good) {t : Tbl} {R : Nat → Rows} {l : List Nat} (h : Inv c t R l) {ps : List Pred} (hp : PredsOK c ps)
    (hn : ∀ id ∈ l, ∀ r ∈ R id, ∀ v ∈ r.1, v.number) (hq : ∀ p ∈ ps, p.lo.number ∧ p.hi.number) :
    (((l.filter (cand c t ps)).flatMap (rowsAt R)).filter fun x => passes ps x.2.1) = (l.flatMap (rowsAt R)).filter fun x => passes ps x.2.1 := by
  have aux : ∀ l' : List Nat, (∀ id ∈ l', id ∈ l) →
      (((l'.filter (cand c t ps)).flatMap (rowsAt R)).filter fun x => passes ps x.2.1) = (l'.flatMap (rowsAt R)).filter fun x => passes ps x.2.1 := by
    intro l' hl'
    induction l' with
    | nil => rfl
    | cons id l' ih =>
      have ih := ih (fun j hj => hl' j (List.mem_cons_of_mem _ hj))
      have hid := hl' id (List.mem_cons_self ..)
      rw [List.filter_cons, List.flatMap_cons, List.filter_append]
      by_cases hc : cand c t ps id = true
      · rw [if_pos hc, List.flatMap_cons, List.filter_append, ih]
      · rw [if_neg hc, ih]
        have : ((rowsAt R id).filter fun x => passes ps x.2.1) = [] := by
          rw [List.filter_eq_nil_iff]
          intro m hm hpass
          obtain ⟨-, hm⟩ := mem_rowsAt.1 hm
          obtain ⟨nd, hnd⟩ := h.chain.mem id hid
          have ok := h.ok id nd hnd
          obtain ⟨e, he⟩ := ok.blockInRange hg hp
          have hef : e = false := by
            unfold cand at hc
            rw [hnd] at hc
            dsimp only at hc
            rw [he] at hc
            exact Bool.eq_false_iff.2 hc
          rw [hef] at he
          exact ok.excluded hg hp he m.2 hm ((passes_iff hp (ok.recs m.2 hm).typed (hn id hid m.2 hm) hq).1 hpass)
        rw [this]; rfl
  exact aux l (fun _ h => h)

theorem readAll_ok {t : Tbl} {R : Nat → Rows} {l : List Nat} (h : Inv c t R l) : ∀ {T : List Move}, (∀ m ∈ T, m.1 ∈ l ∧ m.2 ∈ R m.1) →
    readAll c t (T.map handleOf) = .ok (T.map fun m => m.2.1)
  | [], _ => rfl
  | m :: T, hm => by
    obtain ⟨h1, h2⟩ := hm m (List.mem_cons_self ..)
    obtain ⟨nd, hnd⟩ := h.chain.mem m.1 h1
    rw [List.map_cons, readAll]
    unfold readHandle
    show (do let vs ← (do let nd ← t.get m.1; createTuple nd.blk c.sch m.2.2); let rest ← readAll c t (T.map handleOf); pure (vs :: rest)) = _
    rw [Tbl.get_ok hnd, Res.ok_bind, (h.ok _ nd hnd).rep.create h2, Res.ok_bind, readAll_ok h (fun x hx => hm x (List.mem_cons_of_mem _ hx)), Res.ok_bind]
    rfl

/-- Without gaps, a scan returns the stored records in the ranges, deleted ones included. -/
theorem scan_stored (hg : c.Good) {t : Tbl} {R : Nat → Rows} {l : List Nat} (h : Inv c t R l) {ps : List Pred} (hp : PredsOK c ps)
    (hn : ∀ id ∈ l, ∀ r ∈ R id, ∀ v ∈ r.1, v.number) (hq : ∀ p ∈ ps, p.lo.number ∧ p.hi.number) (hgap : NoGap c t ps) :
    ∃ hs N, (∀ f, N ≤ f → rangeScan c false t ps f = .ok hs) ∧ readAll c t hs = .ok (((l.flatMap (rowsAt R)).map fun m => m.2.1).filter (passes ps)) := by
  have hgap : ∀ id ∈ (l.filter (cand c t ps)).tail, R id ≠ [] := by
    intro id hid he
    have hidl := (List.mem_filter.1 (List.mem_of_mem_tail hid)).1
    obtain ⟨nd, hnd⟩ := h.chain.mem id hidl
    refine hgap _ (candidates_ok hg h hp l _ _ h.chain h.len) id hid nd hnd ?_
    rw [(h.ok id nd hnd).rep.count, he]
    rfl
  have hok := rangeScan_ok hg h hp (fun id hid he => absurd he (hgap id hid))
  rw [scanned_all hgap] at hok
  refine ⟨_, _, fun f hf => hok f (Nat.lt_of_succ_le hf), ?_⟩
  rw [filter_cand hg h hp hn hq, readAll_ok h]
  · rw [List.filter_map]; rfl
  · intro m hm
    obtain ⟨id, hid, hm⟩ := List.mem_flatMap.1 (List.mem_filter.1 hm).1
    obtain ⟨h1, h2⟩ := mem_rowsAt.1 hm
    rw [h1]
    exact ⟨hid, h2⟩

/-! ## Insert-only histories -/

/-- All stored records. -/
def stored (R : Nat → Rows) (l : List Nat) : List (List Val) := (l.flatMap (rowsAt R)).map fun m => m.2.1

theorem liveAt_stored {t : Tbl} {R : Nat → Rows} {id : Nat} (h : delsAt t id = []) : liveAt t R id = rowsAt R id := by
  unfold liveAt rowsAt
  rw [h, ← liveFrom_nil (R id).reverse 0, List.map_map]
  rw [liveFrom_nil]
  rfl

theorem live_stored {t : Tbl} {R : Nat → Rows} : ∀ {l : List Nat}, (∀ id ∈ l, delsAt t id = []) → live t R l = l.flatMap (rowsAt R)
  | [], _ => rfl
  | id :: l, h => by
    have ih := live_stored (R := R) (fun j hj => h j (List.mem_cons_of_mem id hj))
    unfold live at ih ⊢
    rw [List.flatMap_cons, List.flatMap_cons, ih, liveAt_stored (h id (List.mem_cons_self ..))]

theorem Splits.stored {t t' : Tbl} {R R' : Nat → Rows} {l l' : List Nat} (h : Splits c t R l t' R' l') (hd : ∀ id ∈ l, delsAt t id = []) :
    (∀ id ∈ l', delsAt t' id = []) ∧ (stored R' l').Perm (stored R l) := by
  induction h with
  | refl => exact ⟨hd, List.Perm.refl _⟩
  | @step t R pre id post nd t1 sv mv nd1 nd2 t' R' l' hi hnd _ hs _ _ ih =>
    obtain ⟨q1, q2, q3, q4, q5⟩ := hs.live hi hnd
    have hd1 : ∀ j ∈ pre ++ t.fresh :: (t.fresh + 1) :: post, delsAt t1 j = [] := by
      intro j hj
      simp only [List.mem_append, List.mem_cons] at hj
      rcases hj with hj | rfl | rfl | hj
      · rw [(q3 j (by simp [hj])).1]; exact hd j (by simp [hj])
      · exact q4
      · exact q5
      · rw [(q3 j (by simp [hj])).1]; exact hd j (by simp [hj])
    obtain ⟨r1, r2⟩ := ih hd1
    refine ⟨r1, r2.trans ?_⟩
    rw [live_stored hd1, live_stored (fun j hj => hd j (by simp [hj])), live_stored (fun j hj => hd j (by simp [hj]))] at q1
    have q1 := q1.map (fun m : Move => m.2.1)
    rw [List.map_append, List.map_append, q2, liveAt_stored (hd id (by simp))] at q1
    unfold PTable.stored
    rw [List.flatMap_append (xs := pre) (ys := id :: post), List.flatMap_cons (xs := post), List.map_append, List.map_append]
    exact q1

theorem Added.stored {t t' : Tbl} {R : Nat → Rows} {l : List Nat} {key : Int} {vs : List Val} {id : Nat} {os : List Nat}
    (h : Added c t R l key vs id os t') (hd : ∀ j ∈ l, delsAt t j = []) :
    (∀ j ∈ l, delsAt t' j = []) ∧ (stored (addRow R id (vs, os)) l).Perm (vs :: stored R l) := by
  obtain ⟨nd, nd', h1, rfl, h3, h4⟩ := h.node
  constructor
  · intro j hj
    have hdj := hd j hj
    unfold delsAt at hdj ⊢
    show (match (if j = id then some nd' else t.nodes j) with | some nd => nd.deleted | none => []) = []
    by_cases hj : j = id
    · rw [hj, h1] at hdj
      rw [if_pos hj]
      exact h4.2.1.trans hdj
    · rw [if_neg hj]; exact hdj
  · obtain ⟨pre, post, rfl⟩ := List.append_of_mem h.mem
    have hnd := h.inv.nodup
    rw [List.nodup_append, List.nodup_cons] at hnd
    have hcongr : ∀ l' : List Nat, id ∉ l' → l'.flatMap (rowsAt (addRow R id (vs, os))) = l'.flatMap (rowsAt R) := by
      intro l' hl'
      rw [List.flatMap_def, List.flatMap_def]
      congr 1
      refine List.map_congr_left (fun j hj => ?_)
      unfold rowsAt addRow
      rw [if_neg (fun e : j = id => hl' (e ▸ hj))]
    have hat : rowsAt (addRow R id (vs, os)) id = rowsAt R id ++ [(id, vs, os)] := by
      unfold rowsAt addRow
      rw [if_pos rfl, List.reverse_cons, List.map_append]
      rfl
    unfold PTable.stored
    rw [List.flatMap_append, List.flatMap_cons, List.flatMap_append, List.flatMap_cons, hcongr pre (fun hc => hnd.2.2 id hc id (List.mem_cons_self ..) rfl),
      hcongr post hnd.2.1.1, hat]
    have hperm : (pre.flatMap (rowsAt R) ++ (rowsAt R id ++ [(id, vs, os)] ++ post.flatMap (rowsAt R))).Perm
        ((id, vs, os) :: (pre.flatMap (rowsAt R) ++ (rowsAt R id ++ post.flatMap (rowsAt R)))) := by
      rw [List.append_assoc, List.singleton_append]
      have := List.perm_middle (l₁ := pre.flatMap (rowsAt R) ++ rowsAt R id) (l₂ := post.flatMap (rowsAt R)) (a := ((id, vs, os) : Move))
      rw [List.append_assoc, List.append_assoc] at this
      exact this
    exact hperm.map (fun m : Move => m.2.1)

def Op.isIns : Op → Prop
  | .ins _ _ => True
  | _ => False

theorem Hist.stored {t t' : Tbl} {R R' : Nat → Rows} {l l' : List Nat} {ops : List Op} (h : Hist c t R l ops t' R' l') :
    (∀ op ∈ ops, op.isIns) → (∀ id ∈ l, delsAt t id = []) → (stored R' l').Perm (ops.flatMap Op.recs ++ stored R l) := by
  induction h with
  | nil => intro _ _; exact List.Perm.refl _
  | @cons t R l op ops t1 R1 l1 t2 R2 l2 hi he _ ih =>
    intro ho hd
    have hop := ho op (List.mem_cons_self ..)
    cases he with
    | ins hs ha =>
      obtain ⟨q1, q2⟩ := hs.stored hd
      obtain ⟨q3, q4⟩ := ha.stored q1
      have := ih (fun o h => ho o (List.mem_cons_of_mem _ h)) q3
      rw [List.flatMap_cons]
      refine this.trans ?_
      refine (List.Perm.append_left _ (q4.trans (List.Perm.cons _ q2))).trans ?_
      exact List.perm_middle
    | del _ _ => exact hop.elim
    | upd _ _ _ _ => exact hop.elim
    | delAbsent _ => exact hop.elim
    | updAbsent _ => exact hop.elim

/-- The records of a history without NaN. -/
theorem stored_recs (P : List Val → Prop) {t t' : Tbl} {R R' : Nat → Rows} {l l' : List Nat} {ops : List Op} (h : Hist c t R l ops t' R' l') :
    (∀ op ∈ ops, ∀ vs ∈ op.recs, P vs) → (∀ id, ∀ r ∈ R id, P r.1) → ∀ id, ∀ r ∈ R' id, P r.1 := by
  have hsplits : ∀ {t t' : Tbl} {R R' : Nat → Rows} {l l' : List Nat}, Splits c t R l t' R' l' → (∀ id, ∀ r ∈ R id, P r.1) → ∀ id, ∀ r ∈ R' id, P r.1 := by
    intro t t' R R' l l' h
    induction h with
    | refl => exact fun h => h
    | @step t R pre id post nd t1 sv mv nd1 nd2 t' R' l' hi hnd _ hs _ _ ih =>
      intro hR
      refine ih (fun j r hr => ?_)
      have hmv : ∀ m ∈ mv, P m.2.1 := by
        intro m hm
        have : (m.1, m.2.1) ∈ mv.map (fun m => (m.1, m.2.1)) := List.mem_map_of_mem hm
        rw [hs.moved] at this
        obtain ⟨q, hq, e⟩ := List.mem_map.1 this
        have e2 : q.2.1 = m.2.1 := congrArg Prod.snd e
        rw [← e2]
        exact hR id q.2 (by simpa using (liveFrom_mem hq).1)
      have hra : ∀ i (rows : Rows), (∀ r ∈ rows, P r.1) → ∀ r ∈ rowsAfter i mv rows, P r.1 := by
        intro i rows h0 r hr
        unfold rowsAfter at hr
        rcases List.mem_append.1 hr with hr | hr
        · obtain ⟨m, hm, rfl⟩ := List.mem_map.1 (List.mem_reverse.1 hr)
          exact hmv m (List.mem_filter.1 hm).1
        · exact h0 r hr
      unfold rowsSplit at hr
      split at hr
      · exact hra _ _ (by simp) r hr
      · split at hr
        · exact hra _ _ (by simp) r hr
        · exact hR j r hr
  have hadd : ∀ {R : Nat → Rows} {id : Nat} {vs : List Val} {os : List Nat}, P vs → (∀ id, ∀ r ∈ R id, P r.1) → ∀ j, ∀ r ∈ addRow R id (vs, os) j, P r.1 := by
    intro R id vs os hv hR j r hr
    unfold addRow at hr
    split at hr
    · rcases List.mem_cons.1 hr with rfl | hr
      · exact hv
      · exact hR _ r hr
    · exact hR j r hr
  induction h with
  | nil => exact fun _ h => h
  | @cons t R l op ops t1 R1 l1 t2 R2 l2 hi he _ ih =>
    intro ho hR
    have hop := ho op (List.mem_cons_self ..)
    refine ih (fun o h => ho o (List.mem_cons_of_mem _ h)) ?_
    cases he with
    | ins hs ha => exact hadd (hop _ (by simp [Op.recs])) (hsplits hs hR)
    | del _ _ => exact hR
    | upd _ _ hs ha => exact hadd (hop _ (by simp [Op.recs])) (hsplits hs hR)
    | delAbsent _ => exact hR
    | updAbsent _ => exact hR

/-! ## C22 -/

theorem Perm.filter_congr {α : Type} {l l' : List α} (h : l.Perm l') {p q : α → Bool} (hpq : ∀ x ∈ l', p x = q x) : (l.filter p).Perm (l'.filter q) := by
  rw [← List.filter_congr hpq]
  exact h.filter p

open Classical in
/-- C22, restricted: after a history of inserts (of any keys), and if a read of `*candidates.end()` gives a null pointer, a scan without empty
candidates behind the first returns the inserted records in the ranges, each as often as inserted.  Missing: deleted records (see
`C22_lenient_refuted`), empty candidates (see `C22_gap`), NaN, and the read of `*candidates.end()` (see `C22_refuted`). -/
theorem C22_inserts_partial (hg : c.Good) {ops : List Op} (hi : ∀ op ∈ ops, op.isIns) (hr : ∀ op ∈ ops, ∀ vs ∈ op.recs, c.Rec vs ∧ ∀ v ∈ vs, v.number)
    {ps : List Pred} (hp : PredsOK c ps) (hq : ∀ p ∈ ps, p.lo.number ∧ p.hi.number) {f : Nat} {t0 t : Tbl} (h0 : init c = .ok t0) (e : run c f t0 ops = .ok t)
    (hgap : NoGap c t ps) :
    ∃ hs recs N, (∀ g, N ≤ g → rangeScan c false t ps g = .ok hs) ∧ readAll c t hs = .ok recs ∧
      recs.Perm ((ops.flatMap Op.recs).filter fun vs => decide (Inside ps vs)) := by
  obtain ⟨t0', h0', hinv, hnone, hdel⟩ := inv_init hg
  rw [h0] at h0'
  cases h0'
  obtain ⟨R, l, hh, h⟩ := run_sound hg ops hinv (fun op ho vs hv => (hr op ho vs hv).1) e
  have hd : ∀ id ∈ [0], delsAt t0 id = [] := by
    intro id _
    unfold delsAt
    split
    · rename_i nd hn; exact hdel id nd hn
    · rfl
  have hst := hh.stored hi hd
  have h00 : stored (fun _ => []) [0] = [] := rfl
  rw [h00, List.append_nil] at hst
  have hnum := stored_recs (fun vs => ∀ v ∈ vs, v.number) hh (fun op ho vs hv => (hr op ho vs hv).2) (by simp)
  obtain ⟨hs, N, h1, h2⟩ := scan_stored hg h hp (fun id _ => hnum id) hq hgap
  refine ⟨hs, _, N, h1, h2, Perm.filter_congr hst ?_⟩
  intro vs hvs
  obtain ⟨op, ho, hv⟩ := List.mem_flatMap.1 hvs
  have := passes_iff hp (hr op ho vs hv).1.typed (hr op ho vs hv).2 hq
  rw [Bool.eq_iff_iff, this, decide_eq_true_iff]

/-- C22, the other half, restricted: after any history, a scan without empty candidates behind the first returns every live record in the
ranges.  (It may also return deleted records.) -/
theorem C22_complete_partial (hg : c.Good) (hs0 : c.sch[0]? ≠ some .str) {ops : List Op}
    (hr : ∀ op ∈ ops, ∀ vs ∈ op.recs, c.Rec vs ∧ ∀ v ∈ vs, v.number) (hk : ∀ op ∈ ops, op.Keyed c) (hm : Legal (fun _ => none) ops)
    {ps : List Pred} (hp : PredsOK c ps) (hq : ∀ p ∈ ps, p.lo.number ∧ p.hi.number) {f : Nat} {t0 t : Tbl} (h0 : init c = .ok t0) (e : run c f t0 ops = .ok t)
    (hgap : NoGap c t ps) :
    ∃ hs recs N, (∀ g, N ≤ g → rangeScan c false t ps g = .ok hs) ∧ readAll c t hs = .ok recs ∧
      (∀ vs, (∃ k, specRun ops k = some vs) → Inside ps vs → vs ∈ recs) ∧ ∀ vs ∈ recs, Inside ps vs ∧ ∃ op ∈ ops, vs ∈ op.recs := by
  obtain ⟨t0', h0', hinv, hnone, hdel⟩ := inv_init hg
  rw [h0] at h0'
  cases h0'
  obtain ⟨R, l, hh, h⟩ := run_sound hg ops hinv (fun op ho vs hv => (hr op ho vs hv).1) e
  have hd : delsAt t0 0 = [] := by
    unfold delsAt
    split
    · rename_i nd hn; exact hdel 0 nd hn
    · rfl
  have hlive : live t0 (fun _ => []) [0] = [] := by simp [live, liveAt, liveFrom]
  obtain ⟨-, q2⟩ := hh.holds hg hs0 (M := fun _ => none) ⟨fun id hid => by
      have : id = 0 := by simpa using hid
      rw [this, hd]; simp, by rw [hlive]; simp, fun k hd => by rw [hnone, hlive]; simp⟩
    (fun k vs => by unfold recsOf; rw [hlive]; simp) hk hm
  have hnum := stored_recs (fun vs => (∀ v ∈ vs, v.number) ∧ c.Rec vs ∧ ∃ op ∈ ops, vs ∈ op.recs) hh
    (fun op ho vs hv => ⟨(hr op ho vs hv).2, (hr op ho vs hv).1, op, ho, hv⟩) (by simp)
  obtain ⟨hs, N, h1, h2⟩ := scan_stored hg h hp (fun id _ r hr => (hnum id r hr).1) hq hgap
  refine ⟨hs, _, N, h1, h2, ?_, ?_⟩
  · rintro vs ⟨k, hk⟩ hin
    obtain ⟨hmem, -⟩ := (q2 k vs).1 hk
    obtain ⟨m, hm, rfl⟩ := List.mem_map.1 hmem
    obtain ⟨id, hid, hm⟩ := List.mem_flatMap.1 hm
    unfold liveAt at hm
    obtain ⟨q, hq', rfl⟩ := List.mem_map.1 hm
    have hrow : q.2 ∈ R id := by simpa using (liveFrom_mem hq').1
    have hqv := hnum id q.2 hrow
    refine List.mem_filter.2 ⟨List.mem_map.2 ⟨(id, q.2), List.mem_flatMap.2 ⟨id, hid, mem_rowsAt.2 ⟨rfl, hrow⟩⟩, rfl⟩, ?_⟩
    exact (passes_iff hp hqv.2.1.typed hqv.1 hq).2 hin
  · intro vs hvs
    obtain ⟨hvs, hpass⟩ := List.mem_filter.1 hvs
    obtain ⟨m, hm, rfl⟩ := List.mem_map.1 hvs
    obtain ⟨id, hid, hm⟩ := List.mem_flatMap.1 hm
    obtain ⟨-, hm⟩ := mem_rowsAt.1 hm
    have hqv := hnum id m.2 hm
    exact ⟨(passes_iff hp hqv.2.1.typed hqv.1 hq).1 hpass, hqv.2.2⟩

/-- What goes wrong with an empty candidate behind the first: the scan ends there, the records behind it are not returned. -/
theorem C22_gap (hg : c.Good) {t : Tbl} {R : Nat → Rows} {l : List Nat} (h : Inv c t R l) {ps : List Pred} (hp : PredsOK c ps) {id0 id1 : Nat} {pre post : List Nat}
    (hcs : l.filter (cand c t ps) = id0 :: pre ++ id1 :: post) (h0 : R id0 ≠ []) (hpre : ∀ id ∈ pre, R id ≠ []) (h1 : R id1 = []) :
    ∃ N, ∀ f, N ≤ f → rangeScan c false t ps f = .ok ((((id0 :: pre).flatMap (rowsAt R)).filter fun x => passes ps x.2.1).map handleOf) := by
  have hmem : id0 ∈ l := (List.mem_filter.1 (show id0 ∈ l.filter (cand c t ps) by rw [hcs]; simp)).1
  obtain ⟨nd, hnd⟩ := h.chain.mem id0 hmem
  have hroom := (h.ok id0 nd hnd).roomy h0
  have hok := rangeScan_ok hg h hp (fun _ _ _ => hroom)
  have hl : ∀ pre : List Nat, (∀ id ∈ pre, R id ≠ []) → later R (pre ++ id1 :: post) = pre.flatMap (rowsAt R) := by
    intro pre
    induction pre with
    | nil => intro _; rw [List.nil_append, later, if_pos h1]; rfl
    | cons a pre ih =>
      intro hp
      rw [List.cons_append, later, if_neg (hp a (List.mem_cons_self ..)), ih (fun j hj => hp j (List.mem_cons_of_mem _ hj)), List.flatMap_cons]
  have hsc : scanned R (l.filter (cand c t ps)) = (id0 :: pre).flatMap (rowsAt R) := by
    rw [hcs, List.cons_append, scanned, hl pre hpre, List.flatMap_cons]
  rw [hsc] at hok
  exact ⟨_, fun f hf => hok f (Nat.lt_of_succ_le hf)⟩

/-! ## Refutations and examples -/

theorem exOp_ok (ops : List Op) (h : ∀ op ∈ ops, ∀ vs ∈ op.recs, ∃ x, vs = [.int x]) : ∀ op ∈ ops, ∀ vs ∈ op.recs, exTable.Rec vs ∧ ∀ v ∈ vs, v.number := by
  intro op ho vs hv
  obtain ⟨x, rfl⟩ := h op ho vs hv
  exact ⟨exTable_rec x, by simp [Val.number]⟩

set_option maxRecDepth 10000 in
/-- C22 is false: a scan of a table with one record reads `*candidates.end()`. -/
theorem C22_refuted : ¬ C22_statement true := by
  intro hs
  have hcnt : (init exTable >>= fun t => run exTable 5 t [.ins 1 [.int 1]] >>= fun t => candidates exTable t [] t.fresh (some t.head)) = .ok [0] := by decide +kernel
  obtain ⟨t0, h0, hc⟩ := Res.bind_eq_ok.1 hcnt
  obtain ⟨t, ht, hc⟩ := Res.bind_eq_ok.1 hc
  obtain ⟨⟨g, l, hscan⟩, -⟩ := hs exTable exTable_good (by simp [exTable]) [.ins 1 [.int 1]] (exOp_ok _ (by simp [Op.recs])) (by
      intro op ho
      rw [List.mem_singleton.1 ho]
      exact ⟨1, rfl, rfl, by decide, by decide⟩) ⟨rfl, trivial⟩ [] (by intro p hp; cases hp) (by simp) 5 t0 t h0 ht
  exact rangeScan_strict hc (by simp) g l hscan

set_option maxRecDepth 10000 in
/-- C22 is false even if a read of `*candidates.end()` gives a null pointer: a scan returns deleted records. -/
theorem C22_lenient_refuted : ¬ C22_statement false := by
  intro hs
  have hcnt : (init exTable >>= fun t => run exTable 5 t [.ins 1 [.int 1], .del 1] >>= fun t => rangeScan exTable false t [] 5 >>= readAll exTable t) = .ok [[.int 1]] := by decide +kernel
  obtain ⟨t0, h0, hc⟩ := Res.bind_eq_ok.1 hcnt
  obtain ⟨t, ht, hc⟩ := Res.bind_eq_ok.1 hc
  obtain ⟨l, hscan, hc⟩ := Res.bind_eq_ok.1 hc
  obtain ⟨-, h⟩ := hs exTable exTable_good (by simp [exTable]) [.ins 1 [.int 1], .del 1] (exOp_ok _ (by
      intro op ho vs hv
      rcases List.mem_cons.1 ho with rfl | ho
      · exact ⟨1, by simpa [Op.recs] using hv⟩
      · rw [List.mem_singleton.1 ho] at hv; cases hv)) (by
      intro op ho
      rcases List.mem_cons.1 ho with rfl | ho
      · exact ⟨1, rfl, rfl, by decide, by decide⟩
      · rw [List.mem_singleton.1 ho]; trivial) ⟨rfl, trivial, trivial⟩ [] (by intro p hp; cases hp) (by simp) 5 t0 t h0 ht
  obtain ⟨recs, hr, -, hiff⟩ := h 5 l hscan
  rw [hc] at hr
  cases hr
  obtain ⟨⟨k, hk⟩, -⟩ := (hiff [.int 1]).1 (by simp)
  have hk : (if k = 1 then none else if k = 1 then some [Val.int 1] else none) = some [Val.int 1] := hk
  split at hk <;> cases hk

/-- Three inserts, the range 2 to 20. -/
def exInserts : List Op := [.ins 1 [.int 1], .ins 5 [.int 5], .ins 18 [.int 18]]

set_option maxRecDepth 10000 in
/-- The hypotheses of the partial theorems, in particular the absence of gaps, can be met. -/
example : ∃ t0 t, init exTable = .ok t0 ∧ run exTable 5 t0 exInserts = .ok t ∧ (∀ op ∈ exInserts, op.isIns) ∧
    (∀ op ∈ exInserts, ∀ vs ∈ op.recs, exTable.Rec vs ∧ ∀ v ∈ vs, v.number) ∧ PredsOK exTable [⟨0, .int 2, .int 20⟩] ∧ NoGap exTable t [⟨0, .int 2, .int 20⟩] ∧
    (rangeScan exTable false t [⟨0, .int 2, .int 20⟩] 9 >>= readAll exTable t) = .ok [[.int 5], [.int 18]] := by
  have hcnt : (init exTable >>= fun t => run exTable 5 t exInserts >>= fun t => candidates exTable t [⟨0, .int 2, .int 20⟩] t.fresh (some t.head) >>= fun cs =>
    (rangeScan exTable false t [⟨0, .int 2, .int 20⟩] 9 >>= readAll exTable t) >>= fun r => pure (cs, r)) = .ok ([0], [[.int 5], [.int 18]]) := by decide +kernel
  obtain ⟨t0, h0, hc⟩ := Res.bind_eq_ok.1 hcnt
  obtain ⟨t, ht, hc⟩ := Res.bind_eq_ok.1 hc
  obtain ⟨cs, hcs, hc⟩ := Res.bind_eq_ok.1 hc
  obtain ⟨r, hr, hc⟩ := Res.bind_eq_ok.1 hc
  cases hc
  refine ⟨t0, t, h0, ht, ?_, exOp_ok _ ?_, ?_, ?_, hr⟩
  · intro op ho
    simp only [exInserts, List.mem_cons, List.not_mem_nil, or_false] at ho
    rcases ho with rfl | rfl | rfl <;> trivial
  · intro op ho vs hv
    simp only [exInserts, List.mem_cons, List.not_mem_nil, or_false] at ho
    rcases ho with rfl | rfl | rfl <;> exact ⟨_, by simpa [Op.recs] using hv⟩
  · intro p hp
    rw [List.mem_singleton.1 hp]
    exact ⟨rfl, rfl⟩
  · intro cs' hcs' id hid
    rw [hcs] at hcs'
    cases hcs'
    cases hid

end Verif.PTable
