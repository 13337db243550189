import Verif.PTable.TableCrashInv

/-!
# C110 to C113: crashes inside operations of a table
-/

namespace Verif.PTable

variable {c : Cfg} {S : List Val → Prop}

/-- `getByKey` finds this record, or throws. -/
def LookAt (c : Cfg) (t : Tbl) (k : Int) : Option (List Val) → Prop
  | some vs => ∃ h, getByKey t k = .ok h ∧ readHandle c t h = .ok vs
  | none => getByKey t k = .throws

/-- `getByKey` finds the records of `M`, and no other keys. -/
def Look (c : Cfg) (t : Tbl) (M : Int → Option (List Val)) : Prop := ∀ k, LookAt c t k (M k)

def Op.key : Op → Int
  | .ins k _ => k
  | .del k => k
  | .upd k _ => k

def TEv.op : TEv → Op
  | .call op => op
  | .crash op _ => op

/-- The completed calls that name `k`. -/
def callsOf (k : Int) : List TEv → List Op
  | [] => []
  | .call op :: es => if op.key = k then op :: callsOf k es else callsOf k es
  | .crash _ _ :: es => callsOf k es

/-- The history without the calls interrupted by crashes, each of which is taken as done or not done. -/
inductive Resolved : List TEv → List Op → Prop
  | nil : Resolved [] []
  | call {op es ops} : Resolved es ops → Resolved (.call op :: es) (op :: ops)
  | done {op q es ops} : Resolved es ops → Resolved (.crash op q :: es) (op :: ops)
  | undone {op q es ops} : Resolved es ops → Resolved (.crash op q :: es) ops

/-! ## Reading -/

theorem TInv.readW {t : Tbl} {R : Nat → Rows} {l : List Nat} (h : TInv c S t R l) {id : Nat} {os : List Nat} {nd : Node} {vs : List Val}
    (hnd : t.nodes id = some nd) (hm : (vs, os) ∈ R id) : readHandle c t (id, os) = .ok vs := by
  unfold readHandle
  dsimp only
  rw [Tbl.get_ok hnd, Res.ok_bind, (h.ok id nd hnd).rep.create hm]

theorem KInv.look {t : Tbl} {R : Nat → Rows} {l : List Nat} (h : TInv c S t R l) {k : Int} {M : Option (List Val)} (hk : KInv c t R l k M) : LookAt c t k M := by
  have his := hk.is
  cases M with
  | none =>
    show getByKey t k = .throws
    unfold getByKey
    rw [his.2]
  | some vs =>
    obtain ⟨m, e1, e2, e3⟩ := his
    refine ⟨(m.1, m.2.2), by unfold getByKey; rw [e3], ?_⟩
    have hm : m ∈ keyRows c t R l k := by rw [e1]; simp
    obtain ⟨j, hj, hmj⟩ := List.mem_flatMap.1 (List.mem_filter.1 hm).1
    unfold liveAt at hmj
    obtain ⟨q, hq, rfl⟩ := List.mem_map.1 hmj
    have hmem : q.2 ∈ R j := by simpa using (liveFrom_mem hq).1
    obtain ⟨nd, hnd⟩ := h.chain.mem j hj
    rw [← e2]
    exact h.readW hnd hmem

/-! ## Counting -/

def PosOK (t : Tbl) (R : Nat → Rows) (l : List Nat) : Prop := ∀ id ∈ l, (delsAt t id).Nodup ∧ ∀ p ∈ delsAt t id, p < (R id).length

theorem countFromW_ok {t : Tbl} {R : Nat → Rows} {l0 : List Nat} (h : TInv c S t R l0) (hl : PosOK t R l0) :
    ∀ (l : List Nat) (p : Option Nat) (f : Nat), Chain t.nodes p l → l.length ≤ f → (∀ id ∈ l, id ∈ l0) → countFrom t f p = .ok ((live t R l).length % 2 ^ 64)
  | [], p, f, hc, _, _ => by
    have hc : p = none := hc
    subst hc
    rw [countFrom]
    rfl
  | id :: l, p, 0, hc, hf, _ => by simp at hf
  | id :: l, p, f + 1, ⟨h1, nd, h2, h3⟩, hf, hmem => by
    subst h1
    have ok := h.ok id nd h2
    rw [countFrom, Tbl.get_ok h2, Res.ok_bind, ok.rep.count, Res.ok_bind,
      countFromW_ok h hl l nd.next f h3 (by simpa using hf) (fun i hi => hmem i (List.mem_cons_of_mem _ hi)), Res.ok_bind, Res.pure_eq]
    congr 1
    obtain ⟨q1, q2⟩ := hl id (hmem id (List.mem_cons_self ..))
    have hd : delsAt t id = nd.deleted := by unfold delsAt; rw [h2]
    have hlen := liveFrom_length q1 (R id).reverse 0
    have hall : (delsAt t id).countP (fun d => decide (0 ≤ d ∧ d < 0 + (R id).reverse.length)) = (delsAt t id).length := by
      rw [List.countP_eq_length]
      intro d hd
      have := q2 d hd
      rw [List.length_reverse]
      simpa using this
    rw [hall, List.length_reverse, hd] at hlen
    have hcons : (live t R (id :: l)).length = (liveFrom nd.deleted 0 (R id).reverse).length + (live t R l).length := by
      unfold live
      rw [List.flatMap_cons, List.length_append]
      congr 1
      unfold liveAt
      rw [List.length_map, hd]
    rw [hcons]
    have hsmall := ok.rep.small
    unfold sub64
    omega

theorem countW_ok {t : Tbl} {R : Nat → Rows} {l : List Nat} (h : TInv c S t R l) (hl : PosOK t R l) : tableCount t = .ok ((live t R l).length % 2 ^ 64) := by
  unfold tableCount
  exact countFromW_ok h hl l _ _ h.chain h.len (fun _ h => h)

theorem SplitsW.pos {t t' : Tbl} {R R' : Nat → Rows} {l l' : List Nat} (h : SplitsW c S t R l t' R' l') (hp : PosOK t R l) :
    PosOK t' R' l' ∧ (live t' R' l').length = (live t R l).length := by
  induction h with
  | refl h => exact ⟨hp, rfl⟩
  | @step t R pre id post nd t1 mv nd1 nd2 t' R' l' h hnd _ hs _ ih =>
    obtain ⟨hperm, hmv, hsame, d1, d2⟩ := hs.live h hnd
    have hp' : PosOK t1 (rowsSplit R t.fresh (t.fresh + 1) mv) (pre ++ t.fresh :: (t.fresh + 1) :: post) := by
      intro j hj
      have hcase : j = t.fresh ∨ j = t.fresh + 1 ∨ j ∈ pre ++ post := by
        rcases List.mem_append.1 hj with h | h
        · simp [h]
        · rcases List.mem_cons.1 h with h | h
          · simp [h]
          · rcases List.mem_cons.1 h with h | h <;> simp [h]
      rcases hcase with e | e | e
      · rw [e, d1]; simp
      · rw [e, d2]; simp
      · obtain ⟨q1, q2⟩ := hsame j e
        rw [q1, q2]
        exact hp j (by rcases List.mem_append.1 e with h | h <;> simp [h])
    obtain ⟨q1, q2⟩ := ih hp'
    refine ⟨q1, q2.trans ?_⟩
    have e := hperm.length_eq
    have e2 := congrArg List.length hmv
    rw [List.length_map, List.length_map] at e2
    rw [e, live_split_at, List.length_append, List.length_append, List.length_append, List.length_append, e2]

theorem PutW.pos {t t' : Tbl} {R : Nat → Rows} {l : List Nat} {ro : Option (List Val × List Nat)} {ix : Int → Option Handle} {id : Nat}
    (h : TInv c S t R l) (hp : PutW c S t R l ro ix id t') (hpos : PosOK t R l) :
    PosOK t' (putRows R id ro) l ∧ (PTable.live t' (putRows R id ro) l).length = ro.toList.length + (PTable.live t R l).length := by
  obtain ⟨hd, hperm⟩ := hp.live h (fun i hi => (hpos i hi).2)
  refine ⟨fun i hi => ?_, ?_⟩
  · rw [hd]
    obtain ⟨q1, q2⟩ := hpos i hi
    refine ⟨q1, fun p hp => ?_⟩
    have := q2 p hp
    unfold putRows
    split
    · rename_i e; rw [List.length_append, ← e]; omega
    · exact this
  · have := hperm.length_eq
    rw [List.length_append, List.length_map] at this
    exact this

/-! ## From tables without crashes -/

theorem Inv.weakS (hg : c.Good) {S : List Val → Prop} {t : Tbl} {R : Nat → Rows} {l : List Nat} (h : Inv c t R l) (hS : ∀ id, ∀ r ∈ R id, S r.1) : TInv c S t R l := by
  refine ⟨h.chain, h.nodup, h.lt, fun id nd hn => (h.ok id nd hn).weak hg (hS id), h.idx, fun x hx => ?_⟩
  obtain ⟨r, hr, h1, h2⟩ := h.gap.covers (Nat.zero_le x) (by omega)
  obtain ⟨i, hi, rfl⟩ := List.mem_map.1 hr
  obtain ⟨nd, hnd⟩ := h.chain.mem i hi
  unfold rangeAt at h1 h2
  rw [hnd] at h1 h2
  exact ⟨i, hi, nd, hnd, h1, h2⟩

theorem Inv.weak (hg : c.Good) {t : Tbl} {R : Nat → Rows} {l : List Nat} (h : Inv c t R l) : TInv c (fun _ => True) t R l := h.weakS hg (fun _ _ _ => trivial)

theorem LiveOK.kinv {t : Tbl} {R : Nat → Rows} {l : List Nat} (hl : LiveOK c t R l) {M : Int → Option (List Val)} (hh : Holds c M (recsOf t R l)) (k : Int) :
    KInv c t R l k (M k) := by
  refine ⟨fun id hid => (hl.pos id hid).2, fun j id os hj => ?_, ?_⟩
  · obtain ⟨m, hm, e1, e2⟩ := (hl.idx j (id, os)).1 hj
    obtain ⟨i, hi, hmi⟩ := List.mem_flatMap.1 hm
    unfold liveAt at hmi
    obtain ⟨q, hq, rfl⟩ := List.mem_map.1 hmi
    have hmem : q.2 ∈ R i := by simpa using (liveFrom_mem hq).1
    cases e2
    exact ⟨q.2.1, hmem, e1⟩
  · have hone : ∀ m ∈ live t R l, mkey c m = k → keyRows c t R l k = [m] := by
      intro m hm hmk
      have hnd := hl.nodup
      unfold keyRows
      generalize live t R l = L at hm hnd
      induction L with
      | nil => cases hm
      | cons a L ih =>
        rw [List.map_cons, List.nodup_cons] at hnd
        rw [List.filter_cons]
        rcases List.mem_cons.1 hm with rfl | hm'
        · rw [if_pos (by simpa using hmk)]
          congr 1
          rw [List.filter_eq_nil_iff]
          intro b hb hc
          have hc : mkey c b = k := by simpa using hc
          exact hnd.1 (by rw [hmk, ← hc]; exact List.mem_map_of_mem hb)
        · rw [if_neg (fun hc => ?_), ih hm' hnd.2]
          have hc : mkey c a = k := by simpa using hc
          exact hnd.1 (by rw [hc, ← hmk]; exact List.mem_map_of_mem hm')
    cases hM : M k with
    | none =>
      refine ⟨?_, (index_none hl hh k).2 hM⟩
      unfold keyRows
      rw [List.filter_eq_nil_iff]
      intro m hm hc
      have hc : mkey c m = k := by simpa using hc
      have := (hh k m.2.1).2 ⟨List.mem_map.2 ⟨m, hm, rfl⟩, hc⟩
      rw [hM] at this
      cases this
    | some vs =>
      obtain ⟨q1, q2⟩ := (hh k vs).1 hM
      obtain ⟨m, hm, rfl⟩ := List.mem_map.1 q1
      exact ⟨m, hone m hm q2, rfl, (hl.idx k (m.1, m.2.2)).2 ⟨m, hm, q2, rfl⟩⟩

/-! ## C110 -/

/-- The crash states of an insert that would complete. -/
theorem insertAt_steps (hg : c.Good) {vs : List Val} (hv : c.Rec vs) (hS : S vs) {key : Int} : ∀ (f : Nat) {t t'' : Tbl} {R : Nat → Rows} {l : List Nat},
    TInv c S t R l → insert c f t key vs = .ok t'' → ∃ m, ∀ q, ∃ t' tq Rq lq, insertAt c f t key vs q = .ok t' ∧ SplitsW c S t R l tq Rq lq ∧
      (q ≤ m → t' = tq ∨ ∃ id, PutW c S tq Rq lq none tq.index id t') ∧
      (m < q → q ≤ m + 2 → ∃ id os, PutW c S tq Rq lq (some (vs, os)) tq.index id t') ∧
      (m + 2 < q → ∃ id os, PutW c S tq Rq lq (some (vs, os)) (setIx tq.index key (some (id, os))) id t') ∧
      (m + 4 ≤ q → t' = t'') := by
  intro f
  induction f with
  | zero => intro t t'' R l h e; cases e
  | succ f ih =>
    intro t t'' R l h e
    rw [insert] at e
    simp only [insertAt]
    rcases choiceW h hv.typed with e0 | ⟨i, id, ns, e1, e2, hid, nd, hnd, hns⟩
    · rw [e0] at e; cases e
    rw [e1, Res.ok_bind] at e
    dsimp only at e
    rw [e2, Res.ok_bind] at e
    rw [e1]
    simp only [Res.ok_bind]
    rw [e2]
    simp only [Res.ok_bind]
    cases ns with
    | false =>
      rw [if_neg (by simp)] at e
      obtain ⟨os, L, hL, hq⟩ := insertTupleAt_ok hg hnd (h.ok id nd hnd) hv hS (hns rfl) key
      refine ⟨L - 2, fun q => ?_⟩
      obtain ⟨nd', e', hn, hs, hc⟩ := hq q
      rw [if_neg (by simp)]
      refine ⟨_, t, R, l, e', .refl h, fun h1 => Or.inr ⟨id, ?_⟩, fun h1 h2 => ⟨id, os, ?_⟩, fun h1 => ⟨id, os, ?_⟩, fun h1 => ?_⟩
      · rw [if_neg (by omega)]
        rw [if_pos (by omega)] at hn
        exact ⟨hid, nd, nd', hnd, rfl, hs, hn⟩
      · rw [if_neg (by omega)]
        rw [if_neg (by omega)] at hn
        exact ⟨hid, nd, nd', hnd, rfl, hs, hn⟩
      · rw [if_pos (by omega)]
        rw [if_neg (by omega)] at hn
        exact ⟨hid, nd, nd', hnd, rfl, hs, hn⟩
      · have := (hc (by omega)).1
        rw [e, e'] at this
        exact (Res.ok.inj this).symm
    | true =>
      rw [if_pos rfl] at e
      have hne : R id ≠ [] := by
        intro hne
        have hcnt := (h.ok id nd hnd).rep.count
        rw [hne] at hcnt
        have : splitBlock c t id = .ub := by
          unfold splitBlock
          rw [Tbl.get_ok hnd, Res.ok_bind, range_ok, Res.ok_bind, hcnt, Res.ok_bind]
          rfl
        rw [this] at e
        cases e
      obtain ⟨pre, post, rfl⟩ := List.append_of_mem hid
      obtain ⟨t1, mv, nd1, nd2, es, hs, hi1⟩ := splitBlockW_ok hg h hnd hne
      rw [es, Res.ok_bind] at e
      obtain ⟨m, hm⟩ := ih hi1 e
      refine ⟨m + 1, fun q => ?_⟩
      rw [if_pos rfl]
      cases q with
      | zero => exact ⟨t, t, R, _, rfl, .refl h, fun _ => Or.inl rfl, fun h1 => by omega, fun h1 => by omega, fun h1 => by omega⟩
      | succ q =>
        dsimp only
        rw [es]
        simp only [Res.ok_bind]
        obtain ⟨t', tq, Rq, lq, q1, q2, q3, q4, q5, q6⟩ := hm q
        exact ⟨t', tq, Rq, lq, q1, .step h hnd hne hs q2, fun h1 => q3 (by omega), fun h1 h2 => q4 (by omega) (by omega), fun h1 => q5 (by omega),
          fun h1 => q6 (by omega)⟩

/-- What is seen after a crash inside an insert. -/
theorem insertAt_look (hg : c.Good) {vs : List Val} (hv : c.Rec vs) {key : Int} (hkey : key16 c vs = key) {t t'' : Tbl} {R : Nat → Rows} {l : List Nat}
    (h : TInv c (fun _ => True) t R l) (hp : PosOK t R l) {M : Int → Option (List Val)} (hk : ∀ k, KInv c t R l k (M k)) (habs : M key = none)
    {f : Nat} (e : insert c f t key vs = .ok t'') {n : Nat} (hn : tableCount t = .ok n) (hn1 : n + 1 < 2 ^ 64) :
    ∃ m, ∀ q, ∃ t', insertAt c f t key vs q = .ok t' ∧
      (q ≤ m → Look c t' M ∧ tableCount t' = .ok n) ∧
      (m < q → q ≤ m + 2 → Look c t' M ∧ tableCount t' = .ok (n + 1)) ∧
      (m + 2 < q → Look c t' (fun j => if j = key then some vs else M j) ∧ tableCount t' = .ok (n + 1)) ∧
      (m + 4 ≤ q → t' = t'') := by
  obtain ⟨m, hm⟩ := insertAt_steps hg hv trivial f h e
  refine ⟨m, fun q => ?_⟩
  obtain ⟨t', tq, Rq, lq, q1, q2, q3, q4, q5, q6⟩ := hm q
  have hiq := q2.inv
  have hkq : ∀ k, KInv c tq Rq lq k (M k) := fun k => q2.kinv (hk k)
  obtain ⟨hpq, hlen⟩ := q2.pos hp
  have hn' : (live t R l).length % 2 ^ 64 = n := by
    have := countW_ok h hp
    rw [hn] at this
    exact (Res.ok.inj this).symm
  refine ⟨t', q1, fun h1 => ?_, fun h1 h2 => ?_, fun h1 => ?_, q6⟩
  · rcases q3 h1 with rfl | ⟨id, hput⟩
    · refine ⟨fun k => (hkq k).look hiq, ?_⟩
      rw [countW_ok hiq hpq, hlen, hn']
    · have hi' := hput.inv hiq (Or.inl rfl)
      obtain ⟨hp', hl'⟩ := hput.pos hiq hpq
      refine ⟨fun k => ?_, ?_⟩
      · exact ((hput.kinv hiq (key := k + 1) (fun r hr => by cases hr) (Or.inl rfl) (hkq k)).1 (by omega)).look hi'
      · rw [countW_ok hi' hp', hl', hlen]
        show Res.ok ((0 + _) % 2 ^ 64) = _
        rw [Nat.zero_add, hn']
  · obtain ⟨id, os, hput⟩ := q4 h1 h2
    have hi' := hput.inv hiq (Or.inl rfl)
    obtain ⟨hp', hl'⟩ := hput.pos hiq hpq
    refine ⟨fun k => ?_, ?_⟩
    · by_cases hkk : key = k
      · rw [← hkk, habs]
        show getByKey t' key = .throws
        obtain ⟨nd, nd', -, rfl, -, -⟩ := hput.node
        have := (hkq key).is
        rw [habs] at this
        unfold getByKey
        show (match tq.index key with | some h => _ | none => _) = _
        rw [this.2]
      · exact ((hput.kinv hiq (key := key) (fun r hr => by cases hr; exact hkey) (Or.inl rfl) (hkq k)).1 hkk).look hi'
    · rw [countW_ok hi' hp', hl', hlen]
      show Res.ok ((1 + _) % 2 ^ 64) = _
      congr 1
      omega
  · obtain ⟨id, os, hput⟩ := q5 h1
    have hix : setIx tq.index key (some (id, os)) = tq.index ∨
        ∃ r, some (vs, os) = some r ∧ setIx tq.index key (some (id, os)) = setIx tq.index key (some (id, r.2)) := Or.inr ⟨(vs, os), rfl, rfl⟩
    have hi' := hput.inv hiq (Or.inr ⟨key, (vs, os), rfl, rfl⟩)
    obtain ⟨hp', hl'⟩ := hput.pos hiq hpq
    refine ⟨fun k => ?_, ?_⟩
    · have hkk' := hput.kinv hiq (key := key) (fun r hr => by cases hr; exact hkey) hix (hkq k)
      dsimp only
      by_cases hkk : key = k
      · rw [if_pos hkk.symm]
        exact (hkk'.2 (vs, os) rfl rfl hkk (by rw [← hkk]; exact habs)).look hi'
      · rw [if_neg (fun e : k = key => hkk e.symm)]
        exact (hkk'.1 hkk).look hi'
    · rw [countW_ok hi' hp', hl', hlen]
      show Res.ok ((1 + _) % 2 ^ 64) = _
      congr 1
      omega

/-- The full statement of C110: an insert interrupted by a crash is seen as done or as not done, by `getByKey` and by `count`. -/
def C110_statement : Prop :=
  ∀ (c : Cfg), c.Good → c.sch[0]? ≠ some .str → ∀ (ops : List Op) (key : Int) (vs : List Val),
    (∀ op ∈ ops ++ [.ins key vs], ∀ vs ∈ op.recs, c.Rec vs) → (∀ op ∈ ops ++ [.ins key vs], op.Keyed c) → Legal (fun _ => none) (ops ++ [.ins key vs]) →
    ∀ (f : Nat) (t0 t t'' : Tbl) (n : Nat), init c = .ok t0 → run c f t0 ops = .ok t → insert c f t key vs = .ok t'' → tableCount t = .ok n →
    ∀ q, ∃ t', insertAt c f t key vs q = .ok t' ∧
      (Look c t' (specRun ops) ∧ tableCount t' = .ok n ∨ Look c t' (specRun (ops ++ [.ins key vs])) ∧ tableCount t' = .ok (n + 1))

theorem legal_append {op : Op} : ∀ (ops : List Op) {M : Int → Option (List Val)}, Legal M (ops ++ [op]) → Legal M ops ∧ op.Absent (ops.foldl specStep M)
  | [], _, h => ⟨trivial, h.1⟩
  | _ :: ops, _, h => by
    obtain ⟨q1, q2⟩ := legal_append ops h.2
    exact ⟨⟨h.1, q1⟩, q2⟩

/-- The number of records is less than the number of keys. -/
theorem run_count (hg : c.Good) (h0 : c.sch[0]? ≠ some .str) {ops : List Op} (hr : ∀ op ∈ ops, ∀ vs ∈ op.recs, c.Rec vs)
    (hk : ∀ op ∈ ops, op.Keyed c) (hm : Legal (fun _ => none) ops) {f : Nat} {t0 t : Tbl} (hi : init c = .ok t0) (e : run c f t0 ops = .ok t)
    {n : Nat} (hn : tableCount t = .ok n) : n ≤ 65536 := by
  obtain ⟨R, l, hinv, hl, -⟩ := run_holds hg h0 hr hk hm hi e
  have hle : ((live t R l).map (mkey c)).length ≤ 65536 := by
    refine nodup_le hl.nodup (fun k hk => ?_)
    obtain ⟨m, -, e⟩ := List.mem_map.1 hk
    rw [← e]
    unfold mkey key16
    split <;> omega
  have := countW_ok (hinv.weak hg) hl.pos
  rw [hn] at this
  have := Res.ok.inj this
  rw [List.length_map] at hle
  omega

/-- C110, with the states between: `getByKey` sees the insert as done or as not done, but `count` counts the record before `getByKey`
finds it; after two further steps it does. -/
theorem C110_insert_partial (hg : c.Good) (h0 : c.sch[0]? ≠ some .str) {ops : List Op} {key : Int} {vs : List Val}
    (hr : ∀ op ∈ ops ++ [.ins key vs], ∀ vs ∈ op.recs, c.Rec vs) (hk : ∀ op ∈ ops ++ [.ins key vs], op.Keyed c)
    (hm : Legal (fun _ => none) (ops ++ [.ins key vs])) {f : Nat} {t0 t t'' : Tbl} {n : Nat} (hi : init c = .ok t0) (e : run c f t0 ops = .ok t)
    (e' : insert c f t key vs = .ok t'') (hn : tableCount t = .ok n) :
    ∃ m, ∀ q, ∃ t', insertAt c f t key vs q = .ok t' ∧
      (q ≤ m → Look c t' (specRun ops) ∧ tableCount t' = .ok n) ∧
      (m < q → q ≤ m + 2 → Look c t' (specRun ops) ∧ tableCount t' = .ok (n + 1)) ∧
      (m + 2 < q → Look c t' (specRun (ops ++ [.ins key vs])) ∧ tableCount t' = .ok (n + 1)) ∧
      (m + 4 ≤ q → t' = t'') := by
  have hr1 : ∀ op ∈ ops, ∀ vs ∈ op.recs, c.Rec vs := fun op ho => hr op (List.mem_append_left _ ho)
  have hk1 : ∀ op ∈ ops, op.Keyed c := fun op ho => hk op (List.mem_append_left _ ho)
  obtain ⟨hm1, habs⟩ := legal_append ops hm
  obtain ⟨R, l, hinv, hl, hh⟩ := run_holds hg h0 hr1 hk1 hm1 hi e
  have hv : c.Rec vs := hr (.ins key vs) (by simp) vs (by simp [Op.recs])
  have hkey : key16 c vs = key := key16_eq (hk (.ins key vs) (by simp))
  have hle := run_count hg h0 hr1 hk1 hm1 hi e hn
  have hspec : specRun (ops ++ [.ins key vs]) = fun j => if j = key then some vs else specRun ops j := by
    unfold specRun
    rw [List.foldl_append]
    rfl
  rw [hspec]
  exact insertAt_look hg hv hkey (hinv.weak hg) hl.pos (hl.kinv hh) habs e' hn (by omega)

set_option maxRecDepth 10000 in
/-- A single insert meets the hypotheses. -/
theorem exTblCrash_ok : ∃ t0 t'', init exTable = .ok t0 ∧ run exTable 5 t0 [] = .ok t0 ∧ insert exTable 5 t0 1 [.int 1] = .ok t'' ∧ tableCount t0 = .ok 0 ∧
    (∀ op ∈ [] ++ [Op.ins 1 [.int 1]], ∀ vs ∈ op.recs, exTable.Rec vs) ∧ (∀ op ∈ [] ++ [Op.ins 1 [.int 1]], op.Keyed exTable) ∧
    Legal (fun _ => none) ([] ++ [Op.ins 1 [.int 1]]) := by
  have hcnt : (init exTable >>= fun t => insert exTable 5 t 1 [.int 1] >>= tableCount) = .ok 1 := by decide +kernel
  have hcnt0 : (init exTable >>= fun t => tableCount t) = .ok 0 := by decide +kernel
  obtain ⟨t0, h0, hc⟩ := Res.bind_eq_ok.1 hcnt
  obtain ⟨t, ht, hc⟩ := Res.bind_eq_ok.1 hc
  rw [h0] at hcnt0
  refine ⟨t0, t, h0, rfl, ht, hcnt0, ?_, ?_, ⟨rfl, trivial⟩⟩
  · intro op hop vs hvs
    simp at hop
    rw [hop] at hvs
    simp [Op.recs] at hvs
    rw [hvs]; exact exTable_rec 1
  · intro op hop
    simp at hop
    rw [hop]
    exact ⟨1, rfl, rfl, by decide, by decide⟩

theorem C110_refuted : ¬ C110_statement := by
  intro hs
  obtain ⟨t0, t'', h0, h1, h2, h3, hr, hk, hm⟩ := exTblCrash_ok
  obtain ⟨m, hq⟩ := C110_insert_partial exTable_good (by decide) hr hk hm h0 h1 h2 h3
  obtain ⟨t', e, -, hmid, -, -⟩ := hq (m + 1)
  obtain ⟨hl, hc⟩ := hmid (by omega) (by omega)
  obtain ⟨u, e', hor⟩ := hs exTable exTable_good (by decide) [] 1 [.int 1] hr hk hm 5 t0 t0 t'' 0 h0 h1 h2 h3 (m + 1)
  rw [e] at e'
  cases e'
  rcases hor with ⟨-, hc'⟩ | ⟨hl', -⟩
  · rw [hc] at hc'
    cases hc'
  · have g1 : getByKey t' 1 = .throws := hl 1
    obtain ⟨h, g2, -⟩ := hl' 1
    rw [g1] at g2
    cases g2

/-! ## C113 -/

/-- The full statement of C113: an update interrupted by a crash is seen as done or as not done. -/
def C113_statement : Prop :=
  ∀ (c : Cfg), c.Good → c.sch[0]? ≠ some .str → ∀ (ops : List Op) (key : Int) (vs : List Val),
    (∀ op ∈ ops ++ [.upd key vs], ∀ vs ∈ op.recs, c.Rec vs) → (∀ op ∈ ops ++ [.upd key vs], op.Keyed c) → Legal (fun _ => none) ops →
    ∀ (f : Nat) (t0 t t'' : Tbl), init c = .ok t0 → run c f t0 ops = .ok t → updateComplete c f t key vs = .ok t'' →
    ∀ q, ∃ t', opAt c f t (.upd key vs) q = .ok t' ∧ (Look c t' (specRun ops) ∨ Look c t' (specRun (ops ++ [.upd key vs])))

/-- C113, with the states between: after the first step the key is absent, until the record is in the index. -/
theorem C113_update_partial (hg : c.Good) (h0 : c.sch[0]? ≠ some .str) {ops : List Op} {key : Int} {vs : List Val}
    (hr : ∀ op ∈ ops ++ [.upd key vs], ∀ vs ∈ op.recs, c.Rec vs) (hk : ∀ op ∈ ops ++ [.upd key vs], op.Keyed c)
    (hm : Legal (fun _ => none) ops) {f : Nat} {t0 t t'' : Tbl} (hi : init c = .ok t0) (e : run c f t0 ops = .ok t)
    (e' : updateComplete c f t key vs = .ok t'') :
    ∃ m, 1 < m ∧ ∀ q, ∃ t', opAt c f t (.upd key vs) q = .ok t' ∧
      (q = 0 → Look c t' (specRun ops)) ∧
      (0 < q → q < m → Look c t' (specRun (ops ++ [.del key]))) ∧
      (m ≤ q → Look c t' (specRun (ops ++ [.upd key vs]))) ∧
      (m < q → t' = t'') := by
  have hr1 : ∀ op ∈ ops, ∀ vs ∈ op.recs, c.Rec vs := fun op ho => hr op (List.mem_append_left _ ho)
  have hk1 : ∀ op ∈ ops, op.Keyed c := fun op ho => hk op (List.mem_append_left _ ho)
  have hv : c.Rec vs := hr (.upd key vs) (by simp) vs (by simp [Op.recs])
  have hkey : key16 c vs = key := key16_eq (hk (.upd key vs) (by simp))
  obtain ⟨R, l, hinv, hl, hh⟩ := run_holds hg h0 hr1 hk1 hm hi e
  unfold updateComplete at e'
  obtain ⟨t1, ed, ei⟩ := Res.bind_eq_ok.1 e'
  have hr2 : ∀ op ∈ ops ++ [.del key], ∀ vs ∈ op.recs, c.Rec vs := by
    intro op ho
    rcases List.mem_append.1 ho with ho | ho
    · exact hr1 op ho
    · have : op = .del key := by simpa using ho
      rw [this]; intro v hv; cases hv
  have hne : specRun ops key ≠ none := by
    intro hc
    rw [delete_throws ((index_none hl hh key).2 hc)] at ed
    cases ed
  have hd : ∃ id os, t.index key = some (id, os) := by
    cases hx : t.index key with
    | none => exact absurd ((index_none hl hh key).1 hx) hne
    | some h => exact ⟨h.1, h.2, rfl⟩
  obtain ⟨id, os, hx⟩ := hd
  obtain ⟨nd, hnd, ed'⟩ := delete_ok hg hinv hx
  rw [ed] at ed'
  have ht1 := Res.ok.inj ed'
  obtain ⟨hl1, hh1⟩ := deleted_holds hg h0 hinv hl hh hx hnd
  have hi1 := hinv.delete key hnd (nd.deleted ++ [delPos c os])
  rw [← ht1] at hl1 hh1 hi1
  have hdel : specRun (ops ++ [.del key]) = fun j => if j = key then none else specRun ops j := by
    unfold specRun; rw [List.foldl_append]; rfl
  have hupd : specRun (ops ++ [.upd key vs]) = fun j => if j = key then some vs else if j = key then none else specRun ops j := by
    have : specRun (ops ++ [.upd key vs]) = specStep (specRun ops) (.upd key vs) := by
      unfold specRun; rw [List.foldl_append]; rfl
    rw [this]
    funext j
    simp only [specStep, hne, ne_eq, not_false_eq_true, and_true]
    split <;> rfl
  have hcnt := countW_ok (hi1.weak hg) hl1.pos
  have hle : (live t1 R l).length ≤ 65536 := by
    have : ((live t1 R l).map (mkey c)).length ≤ 65536 := by
      refine nodup_le hl1.nodup (fun k hk => ?_)
      obtain ⟨m, -, e⟩ := List.mem_map.1 hk
      rw [← e]
      unfold mkey key16
      split <;> omega
    rwa [List.length_map] at this
  obtain ⟨m, hq⟩ := insertAt_look hg hv hkey (hi1.weak hg) hl1.pos (hl1.kinv hh1) (by simp) ei hcnt (by omega)
  refine ⟨m + 4, by omega, fun q => ?_⟩
  cases q with
  | zero => exact ⟨t, rfl, fun _ k => (hl.kinv hh k).look (hinv.weak hg), fun h => by omega, fun h => by omega, fun h => by omega⟩
  | succ q =>
    obtain ⟨t', q1, q2, q3, q4, q5⟩ := hq q
    refine ⟨t', ?_, fun h => by omega, fun _ h => ?_, fun h => ?_, fun h => q5 (by omega)⟩
    · show (deleteByKey c t key >>= fun t => insertAt c f t key vs q) = _
      rw [ed, Res.ok_bind]; exact q1
    · rw [hdel]
      by_cases hc : q ≤ m
      · exact (q2 hc).1
      · exact (q3 (by omega) (by omega)).1
    · rw [hupd]
      exact (q4 (by omega)).1

set_option maxRecDepth 10000 in
/-- An insert and an update meet the hypotheses. -/
theorem exTblUpdate_ok : ∃ t0 t t'', init exTable = .ok t0 ∧ run exTable 5 t0 [.ins 1 [.int 1]] = .ok t ∧ updateComplete exTable 5 t 1 [.int 1] = .ok t'' ∧
    (∀ op ∈ [Op.ins 1 [.int 1]] ++ [Op.upd 1 [.int 1]], ∀ vs ∈ op.recs, exTable.Rec vs) ∧
    (∀ op ∈ [Op.ins 1 [.int 1]] ++ [Op.upd 1 [.int 1]], op.Keyed exTable) ∧ Legal (fun _ => none) [Op.ins 1 [.int 1]] := by
  have hcnt : (init exTable >>= fun t => run exTable 5 t [.ins 1 [.int 1]] >>= fun t => updateComplete exTable 5 t 1 [.int 1] >>= tableCount) = .ok 1 := by
    decide +kernel
  obtain ⟨t0, h0, hc⟩ := Res.bind_eq_ok.1 hcnt
  obtain ⟨t, ht, hc⟩ := Res.bind_eq_ok.1 hc
  obtain ⟨t'', ht', hc⟩ := Res.bind_eq_ok.1 hc
  refine ⟨t0, t, t'', h0, ht, ht', ?_, ?_, ⟨rfl, trivial⟩⟩
  · intro op hop vs hvs
    have : vs = [.int 1] := by
      simp at hop
      rcases hop with rfl | rfl <;> simpa [Op.recs] using hvs
    rw [this]; exact exTable_rec 1
  · intro op hop
    simp at hop
    rcases hop with rfl | rfl <;> exact ⟨1, rfl, rfl, by decide, by decide⟩

theorem C113_refuted : ¬ C113_statement := by
  intro hs
  obtain ⟨t0, t, t'', h0, h1, h2, hr, hk, hm⟩ := exTblUpdate_ok
  obtain ⟨m, hm1, hq⟩ := C113_update_partial exTable_good (by decide) hr hk hm h0 h1 h2
  obtain ⟨t', e, -, hmid, -, -⟩ := hq 1
  obtain ⟨u, e', hor⟩ := hs exTable exTable_good (by decide) _ 1 [.int 1] hr hk hm 5 t0 t t'' h0 h1 h2 1
  rw [e] at e'
  cases e'
  have g1 : getByKey t' 1 = .throws := hmid (by omega) hm1 1
  rcases hor with hl | hl
  · obtain ⟨h, g2, -⟩ := hl 1
    rw [g1] at g2
    cases g2
  · obtain ⟨h, g2, -⟩ := hl 1
    rw [g1] at g2
    cases g2

/-! ## C111 and C112 -/

/-- What an event does to the invariants. -/
theorem evStep_W (hg : c.Good) {f : Nat} {t t' : Tbl} {R : Nat → Rows} {l : List Nat} (h : TInv c S t R l) {ev : TEv}
    (hr : ∀ vs ∈ ev.op.recs, c.Rec vs ∧ S vs) (e : evStep c f t ev = .ok t') :
    ∃ R' l', TInv c S t' R' l' ∧ (ev.op.Keyed c → Keyed c t R → Keyed c t' R') ∧
      (c.sch[0]? ≠ some .str → ev.op.Keyed c → ∀ k (M : Int → Option (List Val)), KInv c t R l k (M k) →
        (ev.op.key ≠ k → KInv c t' R' l' k (M k)) ∧
        (∀ op, ev = .call op → op.key = k → op.Absent M → KInv c t' R' l' k (specStep M op k))) := by
  have hsame : t' = t → (∀ op, ev = .call op → ∀ M : Int → Option (List Val), ∀ k, op.key = k → KInv c t R l k (M k) → specStep M op k = M k) →
      ∃ R' l', TInv c S t' R' l' ∧ (ev.op.Keyed c → Keyed c t R → Keyed c t' R') ∧
      (c.sch[0]? ≠ some .str → ev.op.Keyed c → ∀ k (M : Int → Option (List Val)), KInv c t R l k (M k) →
        (ev.op.key ≠ k → KInv c t' R' l' k (M k)) ∧
        (∀ op, ev = .call op → op.key = k → op.Absent M → KInv c t' R' l' k (specStep M op k))) := by
    rintro rfl hsp
    exact ⟨R, l, h, fun _ hk => hk, fun _ _ k M hk => ⟨fun _ => hk, fun op he hok _ => by rw [hsp op he M k hok hk]; exact hk⟩⟩
  have habsent : ∀ key k (M : Int → Option (List Val)), t.index key = none → key = k → KInv c t R l k (M k) → M k = none := by
    intro key k M hx hkk hk
    have his := hk.is
    cases hM : M k with
    | none => rfl
    | some vs =>
      rw [hM] at his
      obtain ⟨m, -, -, e⟩ := his
      rw [← hkk, hx] at e
      cases e
  cases ev with
  | call op =>
    unfold evStep after at e
    cases op with
    | ins key vs =>
      obtain ⟨hv, hS⟩ := hr vs (by simp [TEv.op, Op.recs])
      have e : (match insert c f t key vs with | .throws => Res.ok t | r => r) = .ok t' := e
      rcases insertW_ok hg hv hS f h (key := key) with e0 | ⟨t1, t2, R2, l2, id, os, e0, hsp, hput⟩
      · rw [e0] at e; cases e
      rw [e0] at e
      cases e
      refine ⟨_, l2, hput.inv hsp.inv (Or.inr ⟨key, (vs, os), rfl, rfl⟩), fun hky hk => ?_, fun h0 hky k M hk => ?_⟩
      · exact hput.keyed (key := key) (fun r hr => by cases hr; exact key16_eq hky) (Or.inr ⟨_, rfl, rfl⟩) (hsp.keyed hk)
      · obtain ⟨a1, a2⟩ := hput.kinv hsp.inv (key := key) (fun r hr => by cases hr; exact key16_eq hky) (Or.inr ⟨_, rfl, rfl⟩) (hsp.kinv hk)
        refine ⟨a1, fun op he hok habs => ?_⟩
        cases he
        have hok : key = k := hok
        have habs : M key = none := habs
        have e5 : specStep M (.ins key vs) k = some vs := by
          unfold specStep
          exact if_pos hok.symm
        rw [e5]
        exact a2 (vs, os) rfl rfl hok (by rw [← hok]; exact habs)
    | del key =>
      have e : (match deleteByKey c t key with | .throws => Res.ok t | r => r) = .ok t' := e
      cases hx : t.index key with
      | none =>
        rw [delete_throws hx] at e
        refine hsame (Res.ok.inj e).symm (fun op he M k hok hk => ?_)
        cases he
        have := habsent key k M hx hok hk
        unfold specStep
        dsimp only
        split
        · exact this.symm
        · rfl
      | some hd =>
        obtain ⟨nd, hnd, ed⟩ := delete_okW hg h (id := hd.1) (os := hd.2) hx
        rw [ed] at e
        cases e
        refine ⟨R, l, h.delete key hnd _, fun _ hk => hk.delete key _ _, fun h0 hky k M hk => ?_⟩
        have := KInv.delete hg h0 h hk (id := hd.1) (os := hd.2) hx hnd
        refine ⟨fun hne => ?_, fun op he hok _ => ?_⟩
        · rw [if_neg (fun e : k = key => hne e.symm)] at this
          exact this
        · cases he
          exact this
    | upd key vs =>
      obtain ⟨hv, hS⟩ := hr vs (by simp [TEv.op, Op.recs])
      have e : (match (deleteByKey c t key >>= fun t => insert c f t key vs) with | .throws => Res.ok t | r => r) = .ok t' := e
      cases hx : t.index key with
      | none =>
        rw [delete_throws hx] at e
        refine hsame (Res.ok.inj e).symm (fun op he M k hok hk => ?_)
        cases he
        have hok : key = k := hok
        have := habsent key k M hx hok hk
        unfold specStep
        dsimp only
        rw [if_neg (fun e => e.2 (by rw [hok]; exact this))]
      | some hd =>
        obtain ⟨nd, hnd, ed⟩ := delete_okW hg h (id := hd.1) (os := hd.2) hx
        rw [ed, Res.ok_bind] at e
        have hd1 := h.delete key hnd (nd.deleted ++ [delPos c hd.2])
        rcases insertW_ok hg hv hS f hd1 (key := key) with e0 | ⟨t1, t2, R2, l2, id, os, e0, hsp, hput⟩
        · rw [e0] at e; cases e
        rw [e0] at e
        cases e
        refine ⟨_, l2, hput.inv hsp.inv (Or.inr ⟨key, (vs, os), rfl, rfl⟩), fun hky hk => ?_, fun h0 hky k M hk => ?_⟩
        · exact hput.keyed (key := key) (fun r hr => by cases hr; exact key16_eq hky) (Or.inr ⟨_, rfl, rfl⟩) (hsp.keyed (hk.delete key _ _))
        · have hkd := KInv.delete hg h0 h hk (id := hd.1) (os := hd.2) hx hnd
          obtain ⟨a1, a2⟩ := hput.kinv hsp.inv (key := key) (fun r hr => by cases hr; exact key16_eq hky) (Or.inr ⟨_, rfl, rfl⟩) (hsp.kinv hkd)
          refine ⟨fun hne => ?_, fun op he hok habs => ?_⟩
          · have := a1 hne
            rw [if_neg (fun e : k = key => hne e.symm)] at this
            exact this
          · cases he
            have hok : key = k := hok
            have hMk : M key ≠ none := by
              intro hc
              have := hk.is
              rw [← hok, hc] at this
              rw [hx] at this
              cases this.2
            have e5 : specStep M (.upd key vs) k = some vs := by
              unfold specStep
              exact if_pos ⟨hok.symm, hMk⟩
            rw [e5]
            exact a2 (vs, os) rfl rfl hok (by rw [if_pos hok.symm])
  | crash op q =>
    unfold evStep at e
    have hno : ∀ op' (_ : TEv.crash op q = .call op') (P : Prop), P := fun op' he => by cases he
    cases op with
    | ins key vs =>
      obtain ⟨hv, hS⟩ := hr vs (by simp [TEv.op, Op.recs])
      have e : (match insertAt c f t key vs q with | .throws => Res.ok t | r => r) = .ok t' := e
      rcases insertAtW_ok hg hv hS f q h (key := key) with e0 | ⟨t1, t2, R2, l2, e0, hsp, hput⟩
      · rw [e0] at e; cases e
      rw [e0] at e
      cases e
      rcases hput with rfl | ⟨id, ro, ix, hput, hro, hix⟩
      · exact ⟨R2, l2, hsp.inv, fun _ hk => hsp.keyed hk, fun _ _ k M hk => ⟨fun _ => hsp.kinv hk, fun op' he => hno op' he _⟩⟩
      · refine ⟨_, l2, hput.inv hsp.inv (hix.imp_right (fun ⟨r, a, b⟩ => ⟨key, r, a, b⟩)), fun hky hk => ?_, fun h0 hky k M hk => ⟨fun hne => ?_, fun op' he => hno op' he _⟩⟩
        · exact hput.keyed (key := key) (fun r hr => by rw [hro r hr]; exact key16_eq hky) hix (hsp.keyed hk)
        · exact (hput.kinv hsp.inv (key := key) (fun r hr => by rw [hro r hr]; exact key16_eq hky) hix (hsp.kinv hk)).1 hne
    | del key =>
      cases q with
      | zero =>
        cases e
        exact hsame rfl (fun op' he => by cases he)
      | succ q =>
        have e : (match deleteByKey c t key with | .throws => Res.ok t | r => r) = .ok t' := e
        cases hx : t.index key with
        | none =>
          rw [delete_throws hx] at e
          exact hsame (Res.ok.inj e).symm (fun op' he => by cases he)
        | some hd =>
          obtain ⟨nd, hnd, ed⟩ := delete_okW hg h (id := hd.1) (os := hd.2) hx
          rw [ed] at e
          cases e
          refine ⟨R, l, h.delete key hnd _, fun _ hk => hk.delete key _ _, fun h0 hky k M hk => ⟨fun hne => ?_, fun op' he => hno op' he _⟩⟩
          have := KInv.delete hg h0 h hk (id := hd.1) (os := hd.2) hx hnd
          rw [if_neg (fun e : k = key => hne e.symm)] at this
          exact this
    | upd key vs =>
      cases q with
      | zero =>
        cases e
        exact hsame rfl (fun op' he => by cases he)
      | succ q =>
        obtain ⟨hv, hS⟩ := hr vs (by simp [TEv.op, Op.recs])
        have e : (match (deleteByKey c t key >>= fun t => insertAt c f t key vs q) with | .throws => Res.ok t | r => r) = .ok t' := e
        cases hx : t.index key with
        | none =>
          rw [delete_throws hx] at e
          exact hsame (Res.ok.inj e).symm (fun op' he => by cases he)
        | some hd =>
          obtain ⟨nd, hnd, ed⟩ := delete_okW hg h (id := hd.1) (os := hd.2) hx
          rw [ed, Res.ok_bind] at e
          have hd1 := h.delete key hnd (nd.deleted ++ [delPos c hd.2])
          have hkd : ∀ (_ : c.sch[0]? ≠ some .str) k (M : Int → Option (List Val)), key ≠ k → KInv c t R l k (M k) →
              KInv c { t.put hd.1 { nd with deleted := nd.deleted ++ [delPos c hd.2] } with index := setIx t.index key none } R l k (M k) := by
            intro h0 k M hne hk
            have := KInv.delete hg h0 h hk (id := hd.1) (os := hd.2) hx hnd
            rw [if_neg (fun e : k = key => hne e.symm)] at this
            exact this
          rcases insertAtW_ok hg hv hS f q hd1 (key := key) with e0 | ⟨t1, t2, R2, l2, e0, hsp, hput⟩
          · rw [e0] at e; cases e
          rw [e0] at e
          cases e
          rcases hput with rfl | ⟨id, ro, ix, hput, hro, hix⟩
          · exact ⟨R2, l2, hsp.inv, fun _ hk => hsp.keyed (hk.delete key _ _),
              fun h0 _ k M hk => ⟨fun hne => hsp.kinv (hkd h0 k M hne hk), fun op' he => hno op' he _⟩⟩
          · refine ⟨_, l2, hput.inv hsp.inv (hix.imp_right (fun ⟨r, a, b⟩ => ⟨key, r, a, b⟩)), fun hky hk => ?_, fun h0 hky k M hk => ⟨fun hne => ?_, fun op' he => hno op' he _⟩⟩
            · exact hput.keyed (key := key) (fun r hr => by rw [hro r hr]; exact key16_eq hky) hix (hsp.keyed (hk.delete key _ _))
            · exact (hput.kinv hsp.inv (key := key) (fun r hr => by rw [hro r hr]; exact key16_eq hky) hix (hsp.kinv (hkd h0 k M hne hk))).1 hne

theorem thist_W (hg : c.Good) {f : Nat} : ∀ (evs : List TEv) {t t' : Tbl} {R : Nat → Rows} {l : List Nat}, TInv c S t R l →
    (∀ ev ∈ evs, ∀ vs ∈ ev.op.recs, c.Rec vs ∧ S vs) → thist c f t evs = .ok t' →
    ∃ R' l', TInv c S t' R' l' ∧ ((∀ ev ∈ evs, ev.op.Keyed c) → Keyed c t R → Keyed c t' R') ∧
      (c.sch[0]? ≠ some .str → (∀ ev ∈ evs, ev.op.Keyed c) → ∀ k (M : Int → Option (List Val)), KInv c t R l k (M k) →
        (∀ op q, TEv.crash op q ∈ evs → op.key ≠ k) → Legal M (callsOf k evs) → KInv c t' R' l' k ((callsOf k evs).foldl specStep M k))
  | [], t, t', R, l, h, _, e => by
    cases e
    exact ⟨R, l, h, fun _ hk => hk, fun _ _ k M hk _ _ => hk⟩
  | ev :: evs, t, t', R, l, h, hr, e => by
    rw [thist] at e
    obtain ⟨t1, e1, e2⟩ := Res.bind_eq_ok.1 e
    obtain ⟨R1, l1, h1, hk1, hi1⟩ := evStep_W hg h (hr ev (List.mem_cons_self ..)) e1
    obtain ⟨R', l', h2, hk2, hi2⟩ := thist_W hg evs h1 (fun ev he => hr ev (List.mem_cons_of_mem _ he)) e2
    refine ⟨R', l', h2, fun hky hk => hk2 (fun ev he => hky ev (List.mem_cons_of_mem _ he)) (hk1 (hky ev (List.mem_cons_self ..)) hk),
      fun h0 hky k M hk hc hlg => ?_⟩
    obtain ⟨a1, a2⟩ := hi1 h0 (hky ev (List.mem_cons_self ..)) k M hk
    have hrest := fun M' hk' hl' => hi2 h0 (fun ev he => hky ev (List.mem_cons_of_mem _ he)) k M' hk'
      (fun op q hm => hc op q (List.mem_cons_of_mem _ hm)) hl'
    cases ev with
    | crash op q => exact hrest M (a1 (hc op q (List.mem_cons_self ..))) hlg
    | call op =>
      rw [callsOf] at hlg ⊢
      by_cases hok : op.key = k
      · rw [if_pos hok] at hlg ⊢
        exact hrest _ (a2 op rfl hok hlg.1) hlg.2
      · rw [if_neg hok] at hlg ⊢
        exact hrest M (a1 hok) hlg

/-- The full statement of C111: after calls and crashes, `getByKey` follows the history in which every interrupted call is done or not done. -/
def C111_statement : Prop :=
  ∀ (c : Cfg), c.Good → c.sch[0]? ≠ some .str → ∀ (evs : List TEv), (∀ ev ∈ evs, ∀ vs ∈ ev.op.recs, c.Rec vs) → (∀ ev ∈ evs, ev.op.Keyed c) →
    (∀ ops, Resolved evs ops → Legal (fun _ => none) ops) → ∀ (f : Nat) (t0 t : Tbl), init c = .ok t0 → thist c f t0 evs = .ok t →
    ∃ ops, Resolved evs ops ∧ Look c t (specRun ops)

/-- C111, restricted to keys that no interrupted call names: `getByKey` follows the calls that name the key.  Missing: keys of interrupted calls;
see `C111_refuted`. -/
theorem C111_other_keys_partial (hg : c.Good) (h0 : c.sch[0]? ≠ some .str) {evs : List TEv} (hr : ∀ ev ∈ evs, ∀ vs ∈ ev.op.recs, c.Rec vs)
    (hk : ∀ ev ∈ evs, ev.op.Keyed c) {f : Nat} {t0 t : Tbl} (hi : init c = .ok t0) (e : thist c f t0 evs = .ok t) {k : Int}
    (hc : ∀ op q, TEv.crash op q ∈ evs → op.key ≠ k) (hl : Legal (fun _ => none) (callsOf k evs)) :
    LookAt c t k (specRun (callsOf k evs) k) := by
  obtain ⟨t0', h0', hinv, hnone, hdel⟩ := inv_init hg
  rw [hi] at h0'
  cases h0'
  obtain ⟨R, l, h, -, hK⟩ := thist_W hg evs (hinv.weak hg) (fun ev he vs hv => ⟨hr ev he vs hv, trivial⟩) e
  refine (hK h0 hk k (fun _ => none) ⟨?_, ?_, ?_, hnone k⟩ hc hl).look h
  · intro id hid p hp
    have hd : delsAt t0 id = [] := by
      unfold delsAt
      split
      · rename_i nd hn; exact hdel id nd hn
      · rfl
    rw [hd] at hp
    cases hp
  · intro j id os hj
    rw [hnone] at hj
    cases hj
  · simp [keyRows, live, liveAt, liveFrom]

/-- C112: after any calls and crashes, `getByKey` finds only records that were passed to a call. -/
theorem C112_records (hg : c.Good) {evs : List TEv} (hr : ∀ ev ∈ evs, ∀ vs ∈ ev.op.recs, c.Rec vs) {f : Nat} {t0 t : Tbl} (hi : init c = .ok t0)
    (e : thist c f t0 evs = .ok t) {k : Int} {h : Handle} (hg' : getByKey t k = .ok h) :
    ∃ ev ∈ evs, ∃ vs ∈ ev.op.recs, readHandle c t h = .ok vs := by
  obtain ⟨t0', h0', hinv, hnone, hdel⟩ := inv_init hg
  rw [hi] at h0'
  cases h0'
  obtain ⟨R, l, ht, -, -⟩ := thist_W (S := fun vs => ∃ ev ∈ evs, vs ∈ ev.op.recs) hg evs
    (hinv.weakS hg (by simp))
    (fun ev he vs hv => ⟨hr ev he vs hv, ev, he, hv⟩) e
  unfold getByKey at hg'
  cases hx : t.index k with
  | none => rw [hx] at hg'; cases hg'
  | some h' =>
    rw [hx] at hg'
    cases hg'
    obtain ⟨nd, vs, hnd, hm⟩ := ht.idx k h.1 h.2 hx
    obtain ⟨-, ev, he, hv⟩ := (ht.ok h.1 nd hnd).recs _ hm
    exact ⟨ev, he, vs, hv, ht.readW hnd hm⟩

/-- C112: and if the keys are the key attributes of their records, of a call that names this key. -/
theorem C112_records_keyed (hg : c.Good) {evs : List TEv} (hr : ∀ ev ∈ evs, ∀ vs ∈ ev.op.recs, c.Rec vs) (hk : ∀ ev ∈ evs, ev.op.Keyed c)
    {f : Nat} {t0 t : Tbl} (hi : init c = .ok t0) (e : thist c f t0 evs = .ok t) {k : Int} {h : Handle} (hg' : getByKey t k = .ok h) :
    ∃ ev ∈ evs, ev.op.key = k ∧ ∃ vs ∈ ev.op.recs, readHandle c t h = .ok vs := by
  obtain ⟨t0', h0', hinv, hnone, hdel⟩ := inv_init hg
  rw [hi] at h0'
  cases h0'
  obtain ⟨R, l, ht, hK, -⟩ := thist_W (S := fun vs => ∃ ev ∈ evs, vs ∈ ev.op.recs) hg evs
    (hinv.weakS hg (by simp))
    (fun ev he vs hv => ⟨hr ev he vs hv, ev, he, hv⟩) e
  have hK := hK hk (fun j id os hj => by rw [hnone] at hj; cases hj)
  unfold getByKey at hg'
  cases hx : t.index k with
  | none => rw [hx] at hg'; cases hg'
  | some h' =>
    rw [hx] at hg'
    cases hg'
    obtain ⟨vs, hm, hky⟩ := hK k h.1 h.2 hx
    obtain ⟨nd, -, hnd, -⟩ := ht.idx k h.1 h.2 hx
    obtain ⟨-, ev, he, hv⟩ := (ht.ok h.1 nd hnd).recs _ hm
    refine ⟨ev, he, ?_, vs, hv, ht.readW hnd hm⟩
    have hkev := hk ev he
    have : ∀ op : Op, op.Keyed c → vs ∈ op.recs → op.key = key16 c vs := by
      intro op ho hvs
      cases op with
      | ins key v =>
        have : vs = v := by simpa [Op.recs] using hvs
        rw [this]; exact (key16_eq ho).symm
      | del key => simp [Op.recs] at hvs
      | upd key v =>
        have : vs = v := by simpa [Op.recs] using hvs
        rw [this]; exact (key16_eq ho).symm
    exact (this ev.op hkev hv).trans hky

/-! ## An interrupted insert that comes back -/

/-- All stores into the block done, index and BDCC sum missing; the BDCC value is 0. -/
theorem insertTupleAt_ghost (hg : c.Good) {t t'' : Tbl} {id : Nat} {nd : Node} {rows : Rows} (hnd : t.nodes id = some nd) (h : NodeW c S nd rows)
    {vs : List Val} (hv : c.Rec vs) (hf : Fits c.sch nd.blk rows vs) (hx : c.xtr vs = 0) {key : Int} (e : insertTuple c t key vs id = .ok t'') :
    ∃ L, insertTupleAt c t key vs id L = .ok { t'' with index := t.index } := by
  obtain ⟨ws, b', os, e1, e2, f, hlen, hq⟩ := insertBlkW_ok hg.ne h.rep hv.typed hv.plain hf
  refine ⟨ws.length, ?_⟩
  unfold insertTuple at e
  rw [Tbl.get_ok hnd, Res.ok_bind, e2, Res.ok_bind] at e
  have e := Res.ok.inj e
  unfold insertTupleAt
  rw [Tbl.get_ok hnd, Res.ok_bind, e1, Res.ok_bind]
  dsimp only
  rw [stores_all f (Nat.le_refl _), Res.ok_bind, if_neg (by omega), if_neg (by omega), ← e, hx]
  rfl

/-- The insert of key 16 stops before the index; the key is not found, and its erase throws; an insert of another key splits the block. -/
def exGhost (q : Nat) : List TEv := [.crash (.ins 16 (exRow 16 14000)) q, .call (.del 16), .call (.ins 5 (exRow 5 14000))]

theorem exGhost_run : ∃ q f t0 t, init exText = .ok t0 ∧ thist exText f t0 (exGhost q) = .ok t ∧ t.index 16 ≠ none := by
  have hrec : ∀ op ∈ [Op.ins 16 (exRow 16 14000)], ∀ vs ∈ op.recs, exText.Rec vs ∧ exText.Accepted vs := by
    intro op hop vs hvs
    have hop : op = Op.ins 16 (exRow 16 14000) := by simpa using hop
    have hvs : vs = exRow 16 14000 := by rw [hop] at hvs; simpa [Op.recs] using hvs
    rw [hvs]; exact ⟨exRow_rec _ _, exRow_accepted _ (by omega)⟩
  have hrec2 : ∀ op ∈ [Op.ins 5 (exRow 5 14000)], ∀ vs ∈ op.recs, exText.Rec vs ∧ exText.Accepted vs := by
    intro op hop vs hvs
    have hop : op = Op.ins 5 (exRow 5 14000) := by simpa using hop
    have hvs : vs = exRow 5 14000 := by rw [hop] at hvs; simpa [Op.recs] using hvs
    rw [hvs]; exact ⟨exRow_rec _ _, exRow_accepted _ (by omega)⟩
  obtain ⟨t0, h0, hinv, hnone, hdel⟩ := inv_init exText_good
  obtain ⟨t1, N1, hrun1⟩ := run_ok exText_good _ hinv hrec
  have hrun1' := hrun1 (N1 + 1) (by omega)
  have hins : insert exText (N1 + 1) t0 16 (exRow 16 14000) = .ok t1 := by
    rw [run_cons] at hrun1'
    obtain ⟨u, e1, e2⟩ := Res.bind_eq_ok.1 hrun1'
    cases e2
    have e1 : (match insert exText (N1 + 1) t0 16 (exRow 16 14000) with | .throws => Res.ok t0 | r => r) = .ok t1 := e1
    have hnt := insert_not_throws exText_good (exRow_rec 16 14000) (key := 16) (N1 + 1) hinv
    cases hr : insert exText (N1 + 1) t0 16 (exRow 16 14000) with
    | throws => exact absurd hr hnt
    | ok u => rw [hr] at e1; exact e1
    | ub => rw [hr] at e1; cases e1
    | assertFail => rw [hr] at e1; cases e1
  obtain ⟨R, l, hh, -⟩ := run_sound exText_good _ hinv (fun op ho vs hv => (hrec op ho vs hv).1) hrun1'
  obtain ⟨os, ha1, hlR⟩ : ∃ os, Added exText t0 (fun _ => []) [0] 16 (exRow 16 14000) 0 os t1 ∧ True := by
    cases hh with
    | cons _ he hh =>
      cases he with
      | @ins _ _ t2 R2 l2 id os t' hs1 ha1 =>
        obtain ⟨rfl, rfl, rfl⟩ := hs1.empty (fun _ => rfl)
        have hid : id = 0 := by simpa using ha1.mem
        subst hid
        cases hh with
        | nil => exact ⟨os, ha1, trivial⟩
  -- the crash
  obtain ⟨q, hq⟩ : ∃ q, ∀ f, insertAt exText (f + 1) t0 16 (exRow 16 14000) q = .ok { t1 with index := t0.index } := by
    rcases choiceW (hinv.weak exText_good) (exRow_rec 16 14000).typed with e | ⟨i, id, ns, e1, e2, hid, nd, hnd, hns⟩
    · rw [insert, e] at hins; cases hins
    have hid : id = 0 := by simpa using hid
    subst hid
    rw [insert, e1, Res.ok_bind] at hins
    dsimp only at hins
    rw [e2, Res.ok_bind] at hins
    cases ns with
    | true =>
      rw [if_pos rfl] at hins
      have hcnt := (hinv.ok 0 nd hnd).rep.count
      have : splitBlock exText t0 0 = .ub := by
        unfold splitBlock
        rw [Tbl.get_ok hnd, Res.ok_bind, range_ok, Res.ok_bind, hcnt, Res.ok_bind]
        rfl
      rw [this] at hins
      cases hins
    | false =>
      rw [if_neg (by simp)] at hins
      obtain ⟨L, hL⟩ := insertTupleAt_ghost exText_good hnd ((hinv.weak exText_good).ok 0 nd hnd) (exRow_rec 16 14000) (hns rfl) rfl hins
      refine ⟨L, fun f => ?_⟩
      rw [insertAt, e1, Res.ok_bind]
      dsimp only
      rw [e2, Res.ok_bind, if_neg (by simp)]
      exact hL
  have hi1 := ha1.inv'
  have hig : Inv exText { t1 with index := t0.index } (addRow (fun _ => []) 0 (exRow 16 14000, os)) [0] :=
    ⟨hi1.chain, hi1.nodup, hi1.lt, hi1.ok, hi1.gap, fun k id os' hk => by
      have hk : t0.index k = some (id, os') := hk
      rw [hnone] at hk
      cases hk⟩
  have hnodes : ∀ nd, t1.nodes 0 = some nd → nd.deleted = [] := by
    intro nd hn
    obtain ⟨nda, ndb, q1, q2, -, q4⟩ := ha1.node
    rw [q2] at hn
    have hn : (if (0 : Nat) = 0 then some ndb else t0.nodes 0) = some nd := hn
    rw [if_pos rfl] at hn
    cases hn
    rw [q4.2.1]
    exact hdel 0 nda q1
  obtain ⟨t, N, hrun⟩ := run_ok exText_good _ hig hrec2
  have hrun := hrun (N + 1) (by omega)
  have hth : thist exText (N + 1) t0 (exGhost q) = .ok t := by
    have hdel : deleteByKey exText { t1 with index := t0.index } 16 = .throws := delete_throws (hnone 16)
    have s1 : evStep exText (N + 1) t0 (.crash (.ins 16 (exRow 16 14000)) q) = .ok { t1 with index := t0.index } := by
      show (match insertAt exText (N + 1) t0 16 (exRow 16 14000) q with | .throws => Res.ok t0 | r => r) = _
      rw [hq N]
    have s2 : evStep exText (N + 1) { t1 with index := t0.index } (.call (.del 16)) = .ok { t1 with index := t0.index } := by
      show (match deleteByKey exText { t1 with index := t0.index } 16 with | .throws => Res.ok { t1 with index := t0.index } | r => r) = _
      rw [hdel]
    rw [run_cons] at hrun
    obtain ⟨u, s3, e⟩ := Res.bind_eq_ok.1 hrun
    cases e
    unfold exGhost
    rw [thist, s1, Res.ok_bind, thist, s2, Res.ok_bind, thist]
    show (after exText (N + 1) { t1 with index := t0.index } (.ins 5 (exRow 5 14000)) >>= _) = _
    rw [s3, Res.ok_bind]
    rfl
  refine ⟨q, N + 1, t0, t, h0, hth, ?_⟩
  obtain ⟨R', l', hh, -⟩ := run_sound exText_good _ hig (fun op ho vs hv => (hrec2 op ho vs hv).1) hrun
  generalize hgdef : ({ t1 with index := t0.index } : Tbl) = g at *
  have hgn : ∀ nd, g.nodes 0 = some nd → nd.deleted = [] := by
    intro nd hn
    rw [← hgdef] at hn
    exact hnodes nd hn
  cases hh with
  | cons _ he hh =>
    cases he with
    | @ins _ _ t2 R2 l2 id2 os2 t'' hs2 ha2 =>
      cases hh with
      | nil =>
        have hR0 : addRow (fun _ => []) 0 (exRow 16 14000, os) 0 = [(exRow 16 14000, os)] := by
          unfold addRow; rw [if_pos rfl]
        have hfinal : t2.index 16 ≠ none → t.index 16 ≠ none := by
          obtain ⟨nd, nd', -, rfl, -, -⟩ := ha2.node
          intro h
          show (if (16 : Int) = 5 then some (id2, os2) else t2.index 16) ≠ none
          rw [if_neg (by decide)]; exact h
        refine hfinal ?_
        generalize hl0 : [0] = l0 at hs2
        cases hs2 with
        | refl =>
          subst hl0
          have hid2 : id2 = 0 := by simpa using ha2.mem
          subst hid2
          obtain ⟨nd, nd', -, -, hok, -⟩ := ha2.node
          rw [hR0] at hok
          have := hok.rep.use_le hok.std (show 1 < exText.sch.length by decide)
          rw [List.map_cons, List.map_cons, use_cons, use_cons, exRow_use, exRow_use] at this
          have h1 : dataOf exText.sch 1 = 6575 := by decide
          have h2 : endOf exText.sch 1 = 32768 := by decide
          omega
        | @step _ _ pre j post nd ts sv mv nd1 nd2 _ _ _ hinvs hnds hnes hsp _ hrest =>
          refine hrest.index_ne ?_
          have hj : j = 0 := by
            have : j ∈ [0] := by rw [hl0]; simp
            simpa using this
          subst hj
          have hdels : nd.deleted = [] := hgn nd hnds
          have hmv := hsp.moved
          rw [hR0, hdels] at hmv
          obtain ⟨m, rfl⟩ : ∃ m, mv = [m] := by
            have := congrArg List.length hmv
            rw [List.length_map, List.length_map] at this
            exact List.length_eq_one_iff.1 this
          have hm : m.2.1 = exRow 16 14000 := by
            have := congrArg (List.map Prod.snd) hmv
            exact (List.cons.inj this).1
          rw [hsp.index]
          show setIx _ (key16 exText m.2.1) _ 16 ≠ none
          rw [hm]
          have : key16 exText (exRow 16 14000) = 16 := rfl
          rw [this]
          unfold setIx
          rw [if_pos rfl]
          simp

/-- The events meet the hypotheses of C111 and C112, and key 5 those of the partial theorem. -/
theorem exGhost_ok (q : Nat) : (∀ ev ∈ exGhost q, ∀ vs ∈ ev.op.recs, exText.Rec vs) ∧ (∀ ev ∈ exGhost q, ev.op.Keyed exText) ∧
    (∀ ops, Resolved (exGhost q) ops → ops = [.ins 16 (exRow 16 14000), .del 16, .ins 5 (exRow 5 14000)] ∨ ops = [.del 16, .ins 5 (exRow 5 14000)]) ∧
    (∀ op q', TEv.crash op q' ∈ exGhost q → op.key ≠ 5) ∧ callsOf 5 (exGhost q) = [.ins 5 (exRow 5 14000)] := by
  refine ⟨fun ev hev vs hvs => ?_, fun ev hev => ?_, fun ops ho => ?_, fun op q' hm => ?_, rfl⟩
  · simp only [exGhost, List.mem_cons, List.not_mem_nil, or_false] at hev
    rcases hev with rfl | rfl | rfl
    · have : vs = exRow 16 14000 := by simpa [TEv.op, Op.recs] using hvs
      rw [this]; exact exRow_rec _ _
    · simp [TEv.op, Op.recs] at hvs
    · have : vs = exRow 5 14000 := by simpa [TEv.op, Op.recs] using hvs
      rw [this]; exact exRow_rec _ _
  · simp only [exGhost, List.mem_cons, List.not_mem_nil, or_false] at hev
    rcases hev with rfl | rfl | rfl
    · exact ⟨16, rfl, by decide, by decide, by decide⟩
    · trivial
    · exact ⟨5, rfl, by decide, by decide, by decide⟩
  · unfold exGhost at ho
    cases ho with
    | done h =>
      cases h with
      | call h =>
        cases h with
        | call h => cases h; exact Or.inl rfl
    | undone h =>
      cases h with
      | call h =>
        cases h with
        | call h => cases h; exact Or.inr rfl
  · simp only [exGhost, List.mem_cons, List.not_mem_nil, or_false, TEv.crash.injEq, reduceCtorEq] at hm
    rw [hm.1]
    decide

/-- C111 is false: the interrupted insert of a key, whose erase throws since it is not found, is done by a later split. -/
theorem C111_refuted : ¬ C111_statement := by
  intro hs
  obtain ⟨q, f, t0, t, h0, ht, hx⟩ := exGhost_run
  obtain ⟨hr, hk, hres, -, -⟩ := exGhost_ok q
  obtain ⟨ops, ho, hl⟩ := hs exText exText_good (by decide) (exGhost q) hr hk (fun ops ho => by
    rcases hres ops ho with rfl | rfl
    · exact ⟨rfl, trivial, rfl, trivial⟩
    · exact ⟨trivial, rfl, trivial⟩) f t0 t h0 ht
  have hn : getByKey t 16 = .throws := by
    have := hl 16
    rcases hres ops ho with rfl | rfl <;> exact this
  unfold getByKey at hn
  cases he : t.index 16 with
  | none => exact hx he
  | some h => rw [he] at hn; cases hn

/-- In the same history key 5 is found. -/
theorem exGhost_other : ∃ q f t0 t, init exText = .ok t0 ∧ thist exText f t0 (exGhost q) = .ok t ∧ LookAt exText t 5 (some (exRow 5 14000)) := by
  obtain ⟨q, f, t0, t, h0, ht, -⟩ := exGhost_run
  obtain ⟨hr, hk, -, hc, hcalls⟩ := exGhost_ok q
  refine ⟨q, f, t0, t, h0, ht, ?_⟩
  have := C111_other_keys_partial exText_good (by decide) hr hk h0 ht hc (by rw [hcalls]; exact ⟨rfl, trivial⟩)
  rw [hcalls] at this
  exact this

end Verif.PTable
