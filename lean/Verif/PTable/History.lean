import Verif.PTable.Insert

/-!
# Histories of table operations
-/

namespace Verif.PTable

variable {c : Cfg}

/-- A call of a table operation. -/
inductive Op
  | ins (key : Int) (vs : List Val)
  | del (key : Int)
  | upd (key : Int) (vs : List Val)

/-- The record passed to the call. -/
def Op.recs : Op → List (List Val)
  | .ins _ vs => [vs]
  | .del _ => []
  | .upd _ vs => [vs]

def step (c : Cfg) (f : Nat) (t : Tbl) : Op → Res Tbl
  | .ins k vs => insert c f t k vs
  | .del k => deleteByKey c t k
  | .upd k vs => updateComplete c f t k vs

/-- Calls one after the other; a call that throws (`getByKey` of an absent key, before any change) leaves the table as it is. -/
def run (c : Cfg) (f : Nat) : Tbl → List Op → Res Tbl
  | t, [] => .ok t
  | t, op :: ops =>
    match step c f t op with
    | .ok t' => run c f t' ops
    | .throws => run c f t ops
    | .ub => .ub
    | .assertFail => .assertFail

theorem inv_init (hg : c.Good) : ∃ t, init c = .ok t ∧ Inv c t (fun _ => []) [0] ∧ (∀ k, t.index k = none) ∧
    ∀ j nd, t.nodes j = some nd → nd.deleted = [] := by
  have hb := hg.bins
  have h1 : 1 ≤ 2 ^ c.bins := Nat.one_le_two_pow
  have h2 : 2 ^ c.bins ≤ 2 ^ 32 := Nat.pow_le_pow_right (by omega) hb
  obtain ⟨b, e, e1, e2, hok⟩ := nodeOK_new hg (Nat.zero_le (2 ^ c.bins - 1)) (by omega)
  refine ⟨⟨fun j => if j = 0 then some ⟨b, none, [], 0⟩ else none, 1, 0, fun _ => none⟩, ?_, ⟨⟨rfl, _, rfl, rfl⟩, by simp, ?_, ?_, ?_, ?_⟩, fun _ => rfl, ?_⟩
  · unfold init
    rw [e, Res.ok_bind]; rfl
  · intro j nd hj
    dsimp only at hj ⊢
    split at hj
    · omega
    · cases hj
  · intro j nd hj
    dsimp only at hj
    split at hj
    · cases hj; exact hok _
    · cases hj
  · show Gapless 0 [(loOf b, hiOf b)] _
    rw [e1, e2]
    exact ⟨Or.inl rfl, by omega, rfl⟩
  · intro k id os hk
    cases hk
  · intro j nd hj
    dsimp only at hj
    split at hj
    · cases hj; rfl
    · cases hj

/-- Position that `deleteByKey` marks. -/
def delPos (c : Cfg) (os : List Nat) : Nat := ((sub64 (os.getD 0 0) (dataOf c.sch 0)) / ((c.sch[0]?).map Ty.dataSize).getD 1) % 65536

theorem delete_ok (hg : c.Good) {t : Tbl} {R : Nat → Rows} {l : List Nat} (h : Inv c t R l) {key : Int} {id : Nat} {os : List Nat}
    (hk : t.index key = some (id, os)) : ∃ nd, t.nodes id = some nd ∧
      deleteByKey c t key = .ok { t.put id { nd with deleted := nd.deleted ++ [delPos c os] } with index := setIx t.index key none } := by
  obtain ⟨nd, vs, hnd, hm⟩ := h.idx key id os hk
  have ok := h.ok id nd hnd
  have hpos : 0 < c.sch.length := List.length_pos_iff.2 hg.ne
  have hos : os.length = c.sch.length := (ok.rep.typed _ hm).2
  refine ⟨nd, hnd, ?_⟩
  have hg1 : getByKey t key = .ok (id, os) := by unfold getByKey; rw [hk]
  have e1 : os[0]? = some (os.getD 0 0) := by
    rw [List.getD_eq_getElem?_getD, List.getElem?_eq_getElem (by omega : 0 < os.length)]; rfl
  have e2 : c.sch[0]? = some c.sch[0] := List.getElem?_eq_getElem hpos
  unfold deleteByKey
  rw [hg1, Res.ok_bind]
  dsimp only
  rw [Tbl.get_ok hnd, Res.ok_bind, ok.rep.lay.dataPos hpos, Res.ok_bind, e1, Res.ofOption_some, Res.ok_bind, e2, Res.ofOption_some, Res.ok_bind,
    (ok.std 0 hpos).2]
  unfold delPos
  rw [e2]
  rfl

theorem Inv.delete {t : Tbl} {R : Nat → Rows} {l : List Nat} (h : Inv c t R l) (key : Int) {id : Nat} {nd : Node} (hnd : t.nodes id = some nd) (d : List Nat) :
    Inv c { t.put id { nd with deleted := d } with index := setIx t.index key none } R l := by
  have hn : ∀ j n, t.nodes j = some n → ∃ n', (if j = id then some { nd with deleted := d } else t.nodes j) = some n' ∧ n'.next = n.next := by
    intro j n hj
    by_cases hjd : j = id
    · rw [if_pos hjd]
      rw [hjd, hnd] at hj
      cases hj
      exact ⟨_, rfl, rfl⟩
    · rw [if_neg hjd]; exact ⟨n, hj, rfl⟩
  have hr : ∀ j, rangeAt { t.put id { nd with deleted := d } with index := setIx t.index key none } j = rangeAt t j := by
    intro j
    unfold rangeAt
    show (match (if j = id then some { nd with deleted := d } else t.nodes j) with | some nd => _ | none => _) = _
    by_cases hj : j = id
    · rw [if_pos hj, hj, hnd]
    · rw [if_neg hj]; rfl
  refine ⟨h.chain.frame (fun j _ n hj => hn j n hj), h.nodup, ?_, ?_, ?_, ?_⟩
  · intro j n hj
    have hj : (if j = id then some { nd with deleted := d } else t.nodes j) = some n := hj
    by_cases hjd : j = id
    · rw [hjd]; exact h.lt id nd hnd
    · rw [if_neg hjd] at hj; exact h.lt j n hj
  · intro j n hj
    have hj : (if j = id then some { nd with deleted := d } else t.nodes j) = some n := hj
    by_cases hjd : j = id
    · rw [if_pos hjd] at hj
      cases hj
      rw [hjd]
      exact (h.ok id nd hnd).congr rfl rfl
    · rw [if_neg hjd] at hj; exact h.ok j n hj
  · rw [List.map_congr_left (fun j _ => hr j)]; exact h.gap
  · intro k j os hk
    have hk : (if k = key then none else t.index k) = some (j, os) := hk
    by_cases hkk : k = key
    · rw [if_pos hkk] at hk; cases hk
    · rw [if_neg hkk] at hk
      obtain ⟨n, vs', q1, q2⟩ := h.idx k j os hk
      obtain ⟨n', q3, -⟩ := hn j n q1
      exact ⟨n', vs', q3, q2⟩

theorem delete_throws {t : Tbl} {key : Int} (hk : t.index key = none) : deleteByKey c t key = .throws := by
  have hg1 : getByKey t key = .throws := by unfold getByKey; rw [hk]
  unfold deleteByKey
  rw [hg1]; rfl

/-- What a call does. -/
inductive Effect (c : Cfg) (t : Tbl) (R : Nat → Rows) (l : List Nat) : Op → Tbl → (Nat → Rows) → List Nat → Prop
  | ins {key vs t1 R1 l1 id os t'} : Splits c t R l t1 R1 l1 → Added c t1 R1 l1 key vs id os t' → Effect c t R l (.ins key vs) t' (addRow R1 id (vs, os)) l1
  | del {key id os nd} : t.index key = some (id, os) → t.nodes id = some nd →
    Effect c t R l (.del key) { t.put id { nd with deleted := nd.deleted ++ [delPos c os] } with index := setIx t.index key none } R l
  | upd {key vs id os nd t1 R1 l1 id' os' t'} : t.index key = some (id, os) → t.nodes id = some nd →
    Splits c { t.put id { nd with deleted := nd.deleted ++ [delPos c os] } with index := setIx t.index key none } R l t1 R1 l1 →
    Added c t1 R1 l1 key vs id' os' t' → Effect c t R l (.upd key vs) t' (addRow R1 id' (vs, os')) l1
  | delAbsent {key} : t.index key = none → Effect c t R l (.del key) t R l
  | updAbsent {key vs} : t.index key = none → Effect c t R l (.upd key vs) t R l

theorem Effect.inv {t t' : Tbl} {R R' : Nat → Rows} {l l' : List Nat} {op : Op} (h : Inv c t R l) (e : Effect c t R l op t' R' l') : Inv c t' R' l' := by
  cases e with
  | ins _ ha => exact ha.inv'
  | del _ hn => exact h.delete _ hn _
  | upd _ _ _ ha => exact ha.inv'
  | delAbsent _ => exact h
  | updAbsent _ => exact h

/-- The table after a call: the result, or the old table if it throws. -/
def after (c : Cfg) (f : Nat) (t : Tbl) (op : Op) : Res Tbl :=
  match step c f t op with
  | .throws => .ok t
  | r => r

theorem run_cons (f : Nat) (t : Tbl) (op : Op) (ops : List Op) : run c f t (op :: ops) = (after c f t op >>= fun t => run c f t ops) := by
  rw [run]
  unfold after
  cases step c f t op <;> rfl

theorem insert_not_throws (hg : c.Good) {vs : List Val} (hv : c.Rec vs) {key : Int} : ∀ (f : Nat) {t : Tbl} {R : Nat → Rows} {l : List Nat},
    Inv c t R l → insert c f t key vs ≠ .throws := by
  intro f
  induction f with
  | zero => intro t R l h hc; cases hc
  | succ f ih =>
    intro t R l h hc
    obtain ⟨id, nd, ns, hp, hid, hnd, hlo, hhi, hns⟩ := h.pick vs (hg.xtr vs)
    have heq := fun f => insert_eq h hv.typed (f := f) (key := key) hp
    rw [entOf_id] at heq
    cases ns with
    | false =>
      obtain ⟨os, t'', had, he⟩ := insert_land hg hv h hid hnd hlo hhi (hns rfl) heq
      rw [he f] at hc
      cases hc
    | true =>
      rw [heq f, if_pos rfl] at hc
      by_cases hne : R id = []
      · have hcnt := (h.ok id nd hnd).rep.count
        rw [hne] at hcnt
        have : splitBlock c t id = .ub := by
          unfold splitBlock
          rw [Tbl.get_ok hnd, Res.ok_bind, range_ok, Res.ok_bind, hcnt, Res.ok_bind]
          rfl
        rw [this] at hc
        cases hc
      · obtain ⟨pre, post, rfl⟩ := List.append_of_mem hid
        obtain ⟨t1, sv, mv, nd1, nd2, es, hs, hi1⟩ := splitBlock_ok hg h hnd hne
        rw [es, Res.ok_bind] at hc
        exact ih hi1 hc

theorem after_sound (hg : c.Good) {t : Tbl} {R : Nat → Rows} {l : List Nat} (h : Inv c t R l) {op : Op} (hr : ∀ vs ∈ op.recs, c.Rec vs) {f : Nat} {t' : Tbl}
    (e : after c f t op = .ok t') : ∃ R' l', Effect c t R l op t' R' l' := by
  unfold after at e
  cases op with
  | ins key vs =>
    have hv := hr vs (by simp [Op.recs])
    simp only [step] at e
    cases hi : insert c f t key vs with
    | ok t'' =>
      rw [hi] at e
      cases e
      obtain ⟨t1, R1, l1, id, os, hs, ha⟩ := insert_sound hg hv f h hi
      exact ⟨_, _, .ins hs ha⟩
    | ub => rw [hi] at e; cases e
    | assertFail => rw [hi] at e; cases e
    | throws =>
      exact absurd hi (insert_not_throws hg hv f h)
  | del key =>
    simp only [step] at e
    cases hk : t.index key with
    | none =>
      rw [delete_throws hk] at e
      cases e
      exact ⟨R, l, .delAbsent hk⟩
    | some hd =>
      obtain ⟨id, os⟩ := hd
      obtain ⟨nd, hnd, hd⟩ := delete_ok hg h hk
      rw [hd] at e
      cases e
      exact ⟨R, l, .del hk hnd⟩
  | upd key vs =>
    have hv := hr vs (by simp [Op.recs])
    simp only [step, updateComplete] at e
    cases hk : t.index key with
    | none =>
      rw [delete_throws hk] at e
      cases e
      exact ⟨R, l, .updAbsent hk⟩
    | some hd =>
      obtain ⟨id, os⟩ := hd
      obtain ⟨nd, hnd, hd⟩ := delete_ok hg h hk
      rw [hd, Res.ok_bind] at e
      have h' := h.delete key hnd (nd.deleted ++ [delPos c os])
      cases hi : insert c f { t.put id { nd with deleted := nd.deleted ++ [delPos c os] } with index := setIx t.index key none } key vs with
      | ok t'' =>
        rw [hi] at e
        cases e
        obtain ⟨t1, R1, l1, id', os', hs, ha⟩ := insert_sound hg hv f h' hi
        exact ⟨_, _, .upd hk hnd hs ha⟩
      | ub => rw [hi] at e; cases e
      | assertFail => rw [hi] at e; cases e
      | throws => exact absurd hi (insert_not_throws hg hv f h')

theorem after_ok (hg : c.Good) {t : Tbl} {R : Nat → Rows} {l : List Nat} (h : Inv c t R l) {op : Op} (hr : ∀ vs ∈ op.recs, c.Rec vs ∧ c.Accepted vs) :
    ∃ t' R' l' N, Effect c t R l op t' R' l' ∧ ∀ f, N ≤ f → after c f t op = .ok t' := by
  cases op with
  | ins key vs =>
    obtain ⟨hv, ha⟩ := hr vs (by simp [Op.recs])
    obtain ⟨t1, R1, l1, id, os, t', hs, had, he⟩ := insert_ok hg hv ha key _ h (Nat.le_refl _)
    refine ⟨t', _, _, mu c t R (c.xtr vs) l + 2, .ins hs had, fun f hf => ?_⟩
    unfold after
    rw [step, he f hf]
  | del key =>
    cases hk : t.index key with
    | none =>
      refine ⟨t, R, l, 0, .delAbsent hk, fun f _ => ?_⟩
      unfold after
      rw [step, delete_throws hk]
    | some hd =>
      obtain ⟨id, os⟩ := hd
      obtain ⟨nd, hnd, hd⟩ := delete_ok hg h hk
      refine ⟨_, R, l, 0, .del hk hnd, fun f _ => ?_⟩
      unfold after
      rw [step, hd]
  | upd key vs =>
    obtain ⟨hv, ha⟩ := hr vs (by simp [Op.recs])
    cases hk : t.index key with
    | none =>
      refine ⟨t, R, l, 0, .updAbsent hk, fun f _ => ?_⟩
      unfold after
      rw [step, updateComplete, delete_throws hk]; rfl
    | some hd =>
      obtain ⟨id, os⟩ := hd
      obtain ⟨nd, hnd, hd⟩ := delete_ok hg h hk
      have h' := h.delete key hnd (nd.deleted ++ [delPos c os])
      obtain ⟨m, hm⟩ : ∃ m, mu c { t.put id { nd with deleted := nd.deleted ++ [delPos c os] } with index := setIx t.index key none } R (c.xtr vs) l ≤ m := ⟨_, Nat.le_refl _⟩
      obtain ⟨t1, R1, l1, id', os', t', hs, had, he⟩ := insert_ok hg hv ha key m h' hm
      refine ⟨t', _, _, m + 2, .upd hk hnd hs had, fun f hf => ?_⟩
      unfold after
      rw [step, updateComplete, hd, Res.ok_bind, he f hf]

/-- The effects of a history. -/
inductive Hist (c : Cfg) : Tbl → (Nat → Rows) → List Nat → List Op → Tbl → (Nat → Rows) → List Nat → Prop
  | nil (t R l) : Hist c t R l [] t R l
  | cons {t R l op ops t1 R1 l1 t2 R2 l2} : Inv c t R l → Effect c t R l op t1 R1 l1 → Hist c t1 R1 l1 ops t2 R2 l2 → Hist c t R l (op :: ops) t2 R2 l2

theorem run_sound (hg : c.Good) {f : Nat} {t' : Tbl} : ∀ (ops : List Op) {t : Tbl} {R : Nat → Rows} {l : List Nat}, Inv c t R l →
    (∀ op ∈ ops, ∀ vs ∈ op.recs, c.Rec vs) → run c f t ops = .ok t' → ∃ R' l', Hist c t R l ops t' R' l' ∧ Inv c t' R' l'
  | [], t, R, l, h, _, e => by cases e; exact ⟨R, l, .nil _ _ _, h⟩
  | op :: ops, t, R, l, h, hr, e => by
    rw [run_cons] at e
    obtain ⟨t1, e1, e2⟩ := Res.bind_eq_ok.1 e
    obtain ⟨R1, l1, hf⟩ := after_sound hg h (hr op (List.mem_cons_self ..)) e1
    obtain ⟨R', l', hh, hi⟩ := run_sound hg ops (hf.inv h) (fun o ho => hr o (List.mem_cons_of_mem _ ho)) e2
    exact ⟨R', l', .cons h hf hh, hi⟩

theorem run_ok (hg : c.Good) : ∀ (ops : List Op) {t : Tbl} {R : Nat → Rows} {l : List Nat}, Inv c t R l →
    (∀ op ∈ ops, ∀ vs ∈ op.recs, c.Rec vs ∧ c.Accepted vs) → ∃ t' N, ∀ f, N ≤ f → run c f t ops = .ok t'
  | [], t, R, l, h, _ => ⟨t, 0, fun _ _ => rfl⟩
  | op :: ops, t, R, l, h, hr => by
    obtain ⟨t1, R1, l1, N, hf, h1⟩ := after_ok hg h (hr op (List.mem_cons_self ..))
    obtain ⟨t', N', h2⟩ := run_ok hg ops (hf.inv h) (fun o ho => hr o (List.mem_cons_of_mem _ ho))
    refine ⟨t', max N N', fun f hf => ?_⟩
    rw [run_cons, h1 f (by omega), Res.ok_bind, h2 f (by omega)]

end Verif.PTable
