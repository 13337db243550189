import Verif.PTable.Target
import Mathlib.Data.List.Perm.Subperm

/-!
# The invariant of a table, and the choice of the block for an insert
-/

namespace Verif.PTable

abbrev Rows := List (List Val × List Nat)

/-- Bounds stored in a block. -/
def loOf (b : Blk) : Nat := dec (bytes b 0 4)
def hiOf (b : Blk) : Nat := dec (bytes b 4 4)

/-- Assumptions about a table: columns, large enough minipages, an integer key column, at most 32 bins, BDCC values below
`2^bins`. -/
structure Cfg.Good (c : Cfg) : Prop where
  ne : c.sch ≠ []
  pages : PagesBigEnough c.sch
  key : c.sch[c.kc]? = some .int
  bins : c.bins ≤ 32
  xtr : ∀ vs, c.xtr vs < 2 ^ c.bins

/-- A record of the table: well typed, no NUL characters. -/
structure Cfg.Rec (c : Cfg) (vs : List Val) : Prop where
  typed : vs.map Val.ty = c.sch
  plain : ∀ v ∈ vs, v.plain

/-- An empty block has space for the record. -/
def Cfg.Accepted (c : Cfg) (vs : List Val) : Prop :=
  ∀ lo hi b, lo < 2 ^ 32 → hi < 2 ^ 32 → initBlock c.sch lo hi = .ok b → hasEnoughSpace c.sch.length vs b = .ok true

/-- Sum of the BDCC values of records. -/
def xsum (c : Cfg) (rows : Rows) : Nat := (rows.map fun r => c.xtr r.1).sum

/-- A node stores the records `rows` (newest first). -/
structure NodeOK (c : Cfg) (nd : Node) (rows : Rows) : Prop where
  rep : Rep c.sch nd.blk rows
  std : Std c.sch nd.blk
  recs : ∀ r ∈ rows, c.Rec r.1
  ord : loOf nd.blk ≤ hiOf nd.blk
  rng : ∀ r ∈ rows, loOf nd.blk ≤ c.xtr r.1 ∧ c.xtr r.1 ≤ hiOf nd.blk
  sum : nd.sum = xsum c rows
  empty : rows = [] → ∃ lo hi, lo < 2 ^ 32 ∧ hi < 2 ^ 32 ∧ initBlock c.sch lo hi = .ok nd.blk

/-- The nodes `l`, linked from pointer `p`. -/
def Chain (nodes : Nat → Option Node) : Option Nat → List Nat → Prop
  | p, [] => p = none
  | p, id :: l => p = some id ∧ ∃ nd, nodes id = some nd ∧ Chain nodes nd.next l

/-- Range of a node. -/
def rangeAt (t : Tbl) (id : Nat) : Nat × Nat :=
  match t.nodes id with
  | some nd => (loOf nd.blk, hiOf nd.blk)
  | none => (0, 0)

structure Inv (c : Cfg) (t : Tbl) (R : Nat → Rows) (l : List Nat) : Prop where
  chain : Chain t.nodes (some t.head) l
  nodup : l.Nodup
  lt : ∀ id nd, t.nodes id = some nd → id < t.fresh
  ok : ∀ id nd, t.nodes id = some nd → NodeOK c nd (R id)
  gap : Gapless 0 (l.map (rangeAt t)) (2 ^ c.bins - 1)
  idx : ∀ k id os, t.index k = some (id, os) → ∃ nd vs, t.nodes id = some nd ∧ (vs, os) ∈ R id

theorem Chain.mem {nodes : Nat → Option Node} : ∀ {l : List Nat} {p : Option Nat}, Chain nodes p l → ∀ id ∈ l, ∃ nd, nodes id = some nd
  | _ :: _, _, ⟨_, nd, h2, h3⟩, id, h => by
    rcases List.mem_cons.1 h with rfl | h
    · exact ⟨nd, h2⟩
    · exact h3.mem id h

/-- Nodes outside the list may change, and contents of nodes, if the links stay. -/
theorem Chain.frame {nodes nodes' : Nat → Option Node} : ∀ {l : List Nat} {p : Option Nat}, Chain nodes p l →
    (∀ id ∈ l, ∀ nd, nodes id = some nd → ∃ nd', nodes' id = some nd' ∧ nd'.next = nd.next) → Chain nodes' p l
  | [], _, h, _ => h
  | id :: l, _, ⟨h1, nd, h2, h3⟩, hf => by
    obtain ⟨nd', e1, e2⟩ := hf id (List.mem_cons_self ..) nd h2
    refine ⟨h1, nd', e1, ?_⟩
    rw [e2]
    exact h3.frame (fun j hj => hf j (List.mem_cons_of_mem _ hj))

theorem Inv.len {c : Cfg} {t : Tbl} {R : Nat → Rows} {l : List Nat} (h : Inv c t R l) : l.length ≤ t.fresh := by
  have hs : l ⊆ List.range t.fresh := by
    intro id hid
    obtain ⟨nd, hnd⟩ := h.chain.mem id hid
    exact List.mem_range.2 (h.lt id nd hnd)
  have := (List.Nodup.subperm h.nodup hs).length_le
  simpa using this

theorem range_ok (b : Blk) : range b = .ok (loOf b, hiOf b) := by
  have hbs : blockSize = 32768 := rfl
  unfold range
  rw [rd_ok (by omega), Res.ok_bind, rd_ok (by omega), Res.ok_bind]
  rfl

theorem dec_lt : ∀ (l : List UInt8), dec l < 256 ^ l.length
  | [] => by simp [dec]
  | b :: l => by
    have := dec_lt l
    have := b.toNat_lt
    rw [dec, List.length_cons, Nat.pow_succ]
    omega

theorem hiOf_lt (b : Blk) : hiOf b < 2 ^ 32 := by
  have := dec_lt (bytes b 4 4)
  rw [bytes_length] at this
  exact this

theorem Tbl.get_ok {t : Tbl} {id : Nat} {nd : Node} (h : t.nodes id = some nd) : t.get id = .ok nd := by
  unfold Tbl.get; rw [h]; rfl

/-- Is there no space for the record in the node? -/
def fullOf (c : Cfg) (vs : List Val) (nd : Node) : Bool :=
  match hasEnoughSpace c.sch.length vs nd.blk with
  | .ok e => !e
  | _ => true

def entOf (c : Cfg) (t : Tbl) (vs : List Val) (id : Nat) : Ent :=
  match t.nodes id with
  | some nd => ⟨id, loOf nd.blk, hiOf nd.blk, fullOf c vs nd⟩
  | none => ⟨id, 0, 0, true⟩

theorem entOf_some {c : Cfg} {t : Tbl} {vs : List Val} {id : Nat} {nd : Node} (h : t.nodes id = some nd) :
    entOf c t vs id = ⟨id, loOf nd.blk, hiOf nd.blk, fullOf c vs nd⟩ := by unfold entOf; rw [h]

theorem entOf_id (c : Cfg) (t : Tbl) (vs : List Val) (id : Nat) : (entOf c t vs id).id = id := by
  unfold entOf; split <;> rfl

theorem entOf_rng (c : Cfg) (t : Tbl) (vs : List Val) (id : Nat) : (entOf c t vs id).rng = rangeAt t id := by
  unfold entOf rangeAt; split <;> rfl

theorem NodeOK.space {c : Cfg} {nd : Node} {rows : Rows} (h : NodeOK c nd rows) {vs : List Val} (hv : vs.map Val.ty = c.sch) :
    hasEnoughSpace c.sch.length vs nd.blk = .ok (!fullOf c vs nd) ∧ (fullOf c vs nd = false → Fits c.sch nd.blk rows vs) := by
  obtain ⟨e, he, hf⟩ := hasEnoughSpace_ok h.rep hv
  unfold fullOf
  rw [he]
  exact ⟨by simp, fun h => hf (by simpa using h)⟩

theorem findTarget_ok {c : Cfg} {t : Tbl} {vs : List Val} {x : Nat} : ∀ (l : List Nat) (p : Option Nat) (f : Nat), Chain t.nodes p l → l.length ≤ f →
    findTarget t x f p = .ok ((l.find? fun id => decide ((entOf c t vs id).lo ≤ x ∧ x ≤ (entOf c t vs id).hi)))
  | [], p, f, h, _ => by
    have h : p = none := h
    subst h
    cases f <;> rfl
  | id :: l, p, f, ⟨h1, nd, h2, h3⟩, hf => by
    subst h1
    cases f with
    | zero => simp at hf
    | succ f =>
      rw [findTarget, Tbl.get_ok h2, Res.ok_bind, range_ok, Res.ok_bind, List.find?_cons, entOf_some h2]
      dsimp only
      by_cases hc : loOf nd.blk ≤ x ∧ x ≤ hiOf nd.blk
      · rw [if_pos hc]; simp [hc]
      · rw [if_neg hc, findTarget_ok (c := c) (vs := vs) l nd.next f h3 (by simpa using hf)]; simp [hc]

theorem walkSame_ok {c : Cfg} {t : Tbl} {R : Nat → Rows} {vs : List Val} (hv : vs.map Val.ty = c.sch)
    (hok : ∀ id nd, t.nodes id = some nd → NodeOK c nd (R id)) : ∀ (l : List Nat) (id : Nat) (nd : Node) (f : Nat), t.nodes id = some nd →
    Chain t.nodes nd.next l → l.length < f →
    walkSame c t vs f id nd = .ok ((walkE (entOf c t vs id) (l.map (entOf c t vs))).id, (walkE (entOf c t vs id) (l.map (entOf c t vs))).lo,
      (walkE (entOf c t vs id) (l.map (entOf c t vs))).full)
  | [], id, nd, f, hnd, h, hf => by
    cases f with
    | zero => simp at hf
    | succ f =>
      have h : nd.next = none := h
      rw [walkSame, range_ok, Res.ok_bind, ((hok id nd hnd).space hv).1, Res.ok_bind, h]
      simp only [List.map_nil, walkE, entOf_some hnd, Bool.not_not, Res.pure_eq]
  | id' :: l, id, nd, f, hnd, ⟨h1, nd', h2, h3⟩, hf => by
    cases f with
    | zero => simp at hf
    | succ f =>
      rw [walkSame, range_ok, Res.ok_bind, ((hok id nd hnd).space hv).1, Res.ok_bind, h1]
      dsimp only
      rw [List.map_cons, walkE]
      by_cases hc : loOf nd.blk = hiOf nd.blk ∧ fullOf c vs nd = true
      · rw [if_pos ⟨hc.1, by simp [hc.2]⟩, Tbl.get_ok h2, Res.ok_bind, walkSame_ok hv hok l id' nd' f h2 h3 (by simpa using hf),
          if_pos (by rw [entOf_some hnd]; exact hc)]
      · rw [if_neg (fun h => hc ⟨h.1, by simpa using h.2⟩), if_neg (by rw [entOf_some hnd]; exact hc), entOf_some hnd]
        simp only [Bool.not_not, Res.pure_eq]

/-- The choice of the model is the one on the list of nodes. -/
theorem insert_choice {c : Cfg} {t : Tbl} {R : Nat → Rows} {l : List Nat} (h : Inv c t R l) {vs : List Val} (hv : vs.map Val.ty = c.sch)
    {e : Ent} {ns : Bool} (hp : pick (c.xtr vs) (l.map (entOf c t vs)) = some (e, ns)) :
    ∃ id, findTarget t (c.xtr vs) t.fresh (some t.head) = .ok (some id) ∧ findInsertNodeOrSplit c t vs id = .ok (e.id, ns) := by
  have main : ∀ (l : List Nat) (p : Option Nat), Chain t.nodes p l → l.length ≤ t.fresh →
      pick (c.xtr vs) (l.map (entOf c t vs)) = some (e, ns) →
      ∃ id, l.find? (fun id => decide ((entOf c t vs id).lo ≤ c.xtr vs ∧ c.xtr vs ≤ (entOf c t vs id).hi)) = some id ∧
        findInsertNodeOrSplit c t vs id = .ok (e.id, ns) := by
    intro l
    induction l with
    | nil => intro p _ _ hp; simp [pick] at hp
    | cons id l ih =>
      intro p ⟨h1, nd, h2, h3⟩ hlen hp
      rw [List.map_cons, pick] at hp
      rw [List.find?_cons]
      by_cases hc : (entOf c t vs id).lo ≤ c.xtr vs ∧ c.xtr vs ≤ (entOf c t vs id).hi
      · rw [if_pos hc] at hp
        refine ⟨id, by simp [hc], ?_⟩
        unfold findInsertNodeOrSplit
        rw [Tbl.get_ok h2, Res.ok_bind, walkSame_ok hv h.ok l id nd t.fresh h2 h3 (by simp at hlen; omega), Res.ok_bind]
        dsimp only
        split at hp
        · rename_i hlt
          cases hp
          rw [if_pos hlt, entOf_id]; rfl
        · rename_i hlt
          cases hp
          rw [if_neg hlt]; rfl
      · rw [if_neg hc] at hp
        obtain ⟨id', e1, e2⟩ := ih nd.next h3 (by simp at hlen; omega) hp
        refine ⟨id', ?_, e2⟩
        rw [decide_eq_false hc]
        exact e1
  obtain ⟨id, e1, e2⟩ := main l _ h.chain h.len hp
  refine ⟨id, ?_, e2⟩
  rw [findTarget_ok (c := c) (vs := vs) l _ _ h.chain h.len, e1]

theorem insert_eq {c : Cfg} {t : Tbl} {R : Nat → Rows} {l : List Nat} (h : Inv c t R l) {vs : List Val} (hv : vs.map Val.ty = c.sch)
    {f : Nat} {key : Int} {e : Ent} {ns : Bool} (hp : pick (c.xtr vs) (l.map (entOf c t vs)) = some (e, ns)) :
    insert c (f + 1) t key vs = if ns then (splitBlock c t e.id >>= fun t => insert c f t key vs) else insertTuple c t key vs e.id := by
  obtain ⟨id, e1, e2⟩ := insert_choice h hv hp
  rw [insert, e1, Res.ok_bind]
  dsimp only
  rw [e2, Res.ok_bind]

/-- The invariant gives a node for every record. -/
theorem Inv.pick {c : Cfg} {t : Tbl} {R : Nat → Rows} {l : List Nat} (h : Inv c t R l) (vs : List Val) {x : Nat} (hx : x < 2 ^ c.bins) :
    ∃ id nd ns, pick x (l.map (entOf c t vs)) = some (entOf c t vs id, ns) ∧ id ∈ l ∧ t.nodes id = some nd ∧
      loOf nd.blk ≤ x ∧ x ≤ hiOf nd.blk ∧ (ns = false → fullOf c vs nd = false) := by
  have hg : Gapless 0 ((l.map (entOf c t vs)).map Ent.rng) (2 ^ c.bins - 1) := by
    rw [List.map_map]
    have : (Ent.rng ∘ entOf c t vs) = rangeAt t := funext (entOf_rng c t vs)
    rw [this]; exact h.gap
  obtain ⟨e, ns, p1, p2, p3, p4, p5⟩ := pick_ok hg (Nat.zero_le x) (by omega)
  obtain ⟨id, hid, rfl⟩ := List.mem_map.1 p2
  obtain ⟨nd, hnd⟩ := h.chain.mem id hid
  rw [entOf_some hnd] at p3 p4 p5
  exact ⟨id, nd, ns, p1, hid, hnd, p3, p4, p5⟩

end Verif.PTable
