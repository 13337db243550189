import Verif.Patricia.Props

/-!
# Crashes during Patricia trie operations

`insert` changes the trie in one transaction (Patricia.hpp:143-160).  `remove` changes the nodes in one transaction
(`deleteNode`, 323-349; the recursive calls are nested in it) and then assigns to `dataCount` outside any transaction
(301).  With all-or-nothing transactions (`Verif.Tx.Props`) a crash leaves one of the states below; the assignment
to `dataCount` is a store of four aligned bytes, which is lost or not.
-/

namespace Verif.Patricia

open Verif MapSpec

variable {V : Type} {c : Cfg V}

/-- One event of a history: an operation that completes, or one that is interrupted by a crash after `n` of its steps have
become permanent, followed by a restart. -/
inductive Ev (V : Type) where
  | done (op : Op (List UInt8) V) (pad : List UInt8)
  | cut (op : Op (List UInt8) V) (pad : List UInt8) (n : Nat)

/-- Patricia.hpp:109-162, 270-305: the trie found after a crash.  The steps of `insert` are its transaction; those of `remove` are
the transaction of `deleteNode` and the assignment to `dataCount`. -/
def interrupted (c : Cfg V) (op : Op (List UInt8) V) (pad : List UInt8) (t : Tree V) : Nat → Res (Tree V)
  | 0 => .ok t
  | n + 1 => do
    let (t', _) ← exec c pad op t
    match op, n with
    | .erase _, 0 => .ok { t' with count := t.count }
    | _, _ => .ok t'

/-- A history with crashes. -/
def runC (c : Cfg V) : List (Ev V) → Tree V → Res (Tree V)
  | [], t => .ok t
  | .done op pad :: es, t => do
    let (t', _) ← exec c pad op t
    runC c es t'
  | .cut op pad n :: es, t => do
    let t' ← interrupted c op pad t n
    runC c es t'

/-- The operation of an event. -/
def Ev.op : Ev V → Op (List UInt8) V
  | .done op _ => op
  | .cut op _ _ => op

/-- The bytes behind the key in the caller's buffer. -/
def Ev.pad : Ev V → List UInt8
  | .done _ p => p
  | .cut _ p _ => p

/-- Whether the event takes effect on the map. -/
def Ev.kept : Ev V → Bool
  | .done _ _ => true
  | .cut _ _ n => n != 0

/-- The event is a `remove` interrupted between its two steps. -/
def Ev.torn : Ev V → Bool
  | .cut (.erase _) _ 1 => true
  | _ => false

/-- The operations of a history that took effect. -/
def kept (es : List (Ev V)) : List (Op (List UInt8) V) := (es.filter Ev.kept).map Ev.op

/-- C67: an operation interrupted by a crash takes effect completely or not at all.  For every history of inserts and removes with
crashes, lookups and count are those of a map to which the operations were applied, with each interrupted operation
either applied or not. -/
def C67_statement (c : Cfg V) : Prop :=
  ∀ es : List (Ev V), (∀ e ∈ es, opKey e.op ≠ []) → ∃ t m, runC c es (Tree.empty c) = .ok t ∧
    (∃ ops, ops.Sublist (es.map Ev.op) ∧ m = MapSpec.run MapSpec.empty ops ∧ ((es.filter (fun e => match e with | .done _ _ => true | _ => false)).map Ev.op).Sublist ops) ∧
    (∀ k pad, k ≠ [] → t.lookup (k ++ pad) k.length = .ok (m k)) ∧ ∃ n, Card m n ∧ t.count = BitVec.ofNat 32 n

/-- C67 restricted to what the other defects leave intact: keys of a prefix-free set, large enough buffers, values that convert to `true`. -/
def C67_restricted (c : Cfg V) (W : Nat) (U : List UInt8 → Prop) : Prop :=
  ∀ es : List (Ev V), (∀ e ∈ es, opKey e.op ≠ [] ∧ (opKey e.op).length ≤ W ∧ W ≤ (opKey e.op ++ e.pad).length) →
    (∀ e ∈ es, U (opKey e.op)) → (∀ e ∈ es, ∀ k v, e.op = .insert k v → c.truthy v = true) →
    ∃ t m n, runC c es (Tree.empty c) = .ok t ∧ (∀ k pad, U k → k ≠ [] → t.lookup (k ++ pad) k.length = .ok (m k)) ∧ Card m n ∧
      (∀ k, ¬ U k → m k = none) ∧ t.count = BitVec.ofNat 32 n

/-- The state of a trie used with keys of `U` that holds the map `m`. -/
structure Inv (c : Cfg V) (W : Nat) (U : List UInt8 → Prop) (m : List UInt8 → Option V) (t : Tree V) : Prop where
  base : Base W t
  rep : Rep c m t
  inU : ∀ k, m k ≠ none → U k
  vals : ∀ k v, m k = some v → c.truthy v = true

theorem Inv.lookup {W : Nat} {U : List UInt8 → Prop} (hU : PrefixFree U) {m : List UInt8 → Option V} {t : Tree V} (h : Inv c W U m t)
    (k pad : List UInt8) (hUk : U k) (hk : k ≠ []) : t.lookup (k ++ pad) k.length = .ok (m k) := by
  obtain ⟨r, e, hr⟩ := lookup_rep h.base h.rep hk pad
  rw [e]
  congr 1
  apply Option.ext
  intro v
  rw [hr]
  constructor
  · rintro (h | ⟨_, _, ⟨x, s, _, hx⟩, _⟩)
    · exact h
    · have := hU k (k ++ x :: s) hUk (h.inU _ hx) (List.prefix_append _ _)
      simp at this
  · exact .inl

/-- The change of the number of keys. -/
def after (m : List UInt8 → Option V) (n : Nat) : Op (List UInt8) V → Nat
  | .insert k _ => if m k = none then n + 1 else n
  | .erase k => if m k = none then n else n - 1

theorem after_card {m : List UInt8 → Option V} {n : Nat} (h : Card m n) (op : Op (List UInt8) V) : Card (step m op) (after m n op) := by
  cases op with
  | insert k v => exact card_step h k v
  | erase k => exact card_erase h k

theorem exec_inv {W : Nat} (hc : c.bytes = true) (hj : c.truthy c.junk = false) {U : List UInt8 → Prop} (hU : PrefixFree U)
    {m : List UInt8 → Option V} {t : Tree V} (h : Inv c W U m t) (op : Op (List UInt8) V) (pad : List UInt8)
    (hf : opKey op ≠ [] ∧ (opKey op).length ≤ W ∧ W ≤ (opKey op ++ pad).length) (hk : U (opKey op))
    (hv : ∀ k v, op = .insert k v → c.truthy v = true) :
    ∃ t', exec c pad op t = .ok (t', TrieSpec.result m op) ∧ Inv c W U (step m op) t' ∧
      ∀ n d, Card m n → t.count = BitVec.ofNat 32 (n + d) → t'.count = BitVec.ofNat 32 (after m n op + d) := by
  cases op with
  | insert k v =>
    obtain ⟨h1, h2, h3⟩ : k ≠ [] ∧ k.length ≤ W ∧ W ≤ (k ++ pad).length := hf
    have hUk : U k := hk
    obtain ⟨t1, w, e1, hb1, hp, hc1⟩ := insert_base hc h.base h1 h2 h3 v
    have hw := insert_res h.base h.rep h1 hj h.vals hp
    refine ⟨t1, by simp [exec, e1, TrieSpec.result, hw], ⟨hb1, insert_rep h1 h.rep hp, fun k' h' => ?_, fun k' v' hk' => ?_⟩, fun n d _ hn => ?_⟩
    · by_cases e : k' = k
      · exact e ▸ hUk
      · exact h.inU k' (by simpa [step, e] using h')
    · by_cases e : k' = k
      · simp [step, e] at hk'
        exact hk' ▸ hv k v rfl
      · exact h.vals k' v' (by simpa [step, e] using hk')
    · rw [hc1, hw, hn, after]
      cases m k
      · simp only [Option.isNone_none, if_true]
        apply BitVec.eq_of_toNat_eq
        simp
        omega
      · simp
  | erase k =>
    obtain ⟨h1, _, _⟩ : k ≠ [] ∧ k.length ≤ W ∧ W ≤ (k ++ pad).length := hf
    have hUk : U k := hk
    obtain ⟨t1, w, e1, hb1, g1, g2⟩ := remove_base h.base h1 pad
    obtain ⟨hw, hr1⟩ := remove_rep hU h.inU h.base h.rep h1 hUk g1 g2
    refine ⟨t1, by simp [exec, e1, TrieSpec.result, hw], ⟨hb1, hr1, fun k' h' => ?_, fun k' v' hk' => ?_⟩, fun n d hn hcount => ?_⟩
    · by_cases e : k' = k
      · exact e ▸ hUk
      · exact h.inU k' (by simpa [step, e] using h')
    · by_cases e : k' = k
      · simp [step, e] at hk'
      · exact h.vals k' v' (by simpa [step, e] using hk')
    · rw [after]
      cases hmk : m k with
      | none =>
        rw [hmk] at hw
        rw [(g1 hw).1, hcount]
        simp
      | some v =>
        rw [hmk] at hw
        rw [(g2 hw).2, hcount]
        obtain ⟨ks, _, q2, q3⟩ := hn
        have : 0 < n := by rw [← q3]; exact List.length_pos_of_mem ((q2 k).2 (by simp [hmk]))
        simp only [reduceCtorEq, if_false]
        apply BitVec.eq_of_toNat_eq
        simp [BitVec.toNat_sub]
        omega

theorem inv_count {W : Nat} {U : List UInt8 → Prop} {m : List UInt8 → Option V} {t : Tree V} (h : Inv c W U m t) (x : BitVec 32) :
    Inv c W U m { t with count := x } :=
  ⟨⟨h.base.wf, h.base.root, h.base.short⟩, ⟨h.rep.nil, h.rep.full, h.rep.only⟩, h.inU, h.vals⟩

theorem runC_law {W : Nat} (hc : c.bytes = true) (hj : c.truthy c.junk = false) {U : List UInt8 → Prop} (hU : PrefixFree U) :
    ∀ (es : List (Ev V)) (m : List UInt8 → Option V) (t : Tree V) (n d : Nat), Inv c W U m t → Card m n → t.count = BitVec.ofNat 32 (n + d) →
    (∀ e ∈ es, opKey e.op ≠ [] ∧ (opKey e.op).length ≤ W ∧ W ≤ (opKey e.op ++ e.pad).length) → (∀ e ∈ es, U (opKey e.op)) →
    (∀ e ∈ es, ∀ k v, e.op = .insert k v → c.truthy v = true) →
    ∃ t' n' d', runC c es t = .ok t' ∧ Inv c W U (MapSpec.run m (kept es)) t' ∧ Card (MapSpec.run m (kept es)) n' ∧
      d ≤ d' ∧ d' ≤ d + es.countP Ev.torn ∧ t'.count = BitVec.ofNat 32 (n' + d') := by
  intro es
  induction es with
  | nil => intro m t n d hi hn hcount _ _ _; exact ⟨t, n, d, rfl, hi, hn, Nat.le_refl _, by simp, hcount⟩
  | cons e es ih =>
    intro m t n d hi hn hcount hf hk hv
    have hf' : ∀ e ∈ es, opKey e.op ≠ [] ∧ (opKey e.op).length ≤ W ∧ W ≤ (opKey e.op ++ e.pad).length := fun o ho => hf o (by simp [ho])
    have hk' : ∀ e ∈ es, U (opKey e.op) := fun o ho => hk o (by simp [ho])
    have hv' : ∀ e ∈ es, ∀ k v, e.op = .insert k v → c.truthy v = true := fun o ho => hv o (by simp [ho])
    obtain ⟨t1, e1, hi1, hc1⟩ := exec_inv hc hj hU hi e.op e.pad (hf e (by simp)) (hk e (by simp)) (hv e (by simp))
    have full : ∀ (_ : e.kept = true) (_ : runC c (e :: es) t = runC c es t1),
        ∃ t' n' d', runC c (e :: es) t = .ok t' ∧ Inv c W U (MapSpec.run m (kept (e :: es))) t' ∧ Card (MapSpec.run m (kept (e :: es))) n' ∧
          d ≤ d' ∧ d' ≤ d + (e :: es).countP Ev.torn ∧ t'.count = BitVec.ofNat 32 (n' + d') := by
      intro hkept hrun
      obtain ⟨t', n', d', a1, a2, a3, a4, a5, a6⟩ := ih (step m e.op) t1 (after m n e.op) d hi1 (after_card hn _) (hc1 n d hn hcount) hf' hk' hv'
      refine ⟨t', n', d', by rw [hrun, a1], ?_, ?_, a4, ?_, a6⟩
      · simpa [kept, hkept, MapSpec.run] using a2
      · simpa [kept, hkept, MapSpec.run] using a3
      · rw [List.countP_cons]
        omega
    cases e with
    | done op pad =>
      exact full rfl (by simp only [Ev.op, Ev.pad] at e1; simp [runC, e1])
    | cut op pad j =>
      simp only [Ev.op, Ev.pad] at e1
      cases j with
      | zero =>
        obtain ⟨t', n', d', a1, a2, a3, a4, a5, a6⟩ := ih m t n d hi hn hcount hf' hk' hv'
        refine ⟨t', n', d', by simp [runC, interrupted, a1], ?_, ?_, a4, ?_, a6⟩
        · simpa [kept, Ev.kept] using a2
        · simpa [kept, Ev.kept] using a3
        · rw [List.countP_cons]
          omega
      | succ j =>
        by_cases torn : ∃ k, op = .erase k ∧ j = 0
        · obtain ⟨k, rfl, rfl⟩ := torn
          have hn1 := after_card hn (.erase k)
          have hle : after m n (.erase k : Op (List UInt8) V) ≤ n ∧ n ≤ after m n (.erase k : Op (List UInt8) V) + 1 := by
            rw [after]
            split <;> omega
          obtain ⟨t', n', d', a1, a2, a3, a4, a5, a6⟩ := ih (step m (.erase k)) { t1 with count := t.count } _ (n + d - after m n (.erase k))
            (inv_count hi1 _) hn1 (by
              show t.count = _
              rw [hcount]; congr 1; omega) hf' hk' hv'
          refine ⟨t', n', d', by simp [runC, interrupted, e1, a1], ?_, ?_, by omega, ?_, a6⟩
          · exact a2
          · exact a3
          · rw [List.countP_cons_of_pos (by rfl)]
            omega
        · refine full (by simp [Ev.kept]) ?_
          have : interrupted c op pad t (j + 1) = .ok t1 := by
            simp only [interrupted, e1, Res.ok_bind]
            cases op with
            | insert k v => rfl
            | erase k =>
              cases j with
              | zero => exact (torn ⟨k, rfl, rfl⟩).elim
              | succ j => rfl
          simp [runC, this]

/-- **C67**, partial.  Under the assumptions of `C66_partial`, for every history with any number of crashes: the lookups of keys in `U`
are those of a map to which every completed operation and every interrupted one whose transaction was committed have been
applied; the count is too large by at most the number of removes that were interrupted between their two steps.  (Missing:
the count after such a crash, and the cases excluded in C66.) -/
theorem C67_partial {W : Nat} (hc : c.bytes = true) (hj : c.truthy c.junk = false) (U : List UInt8 → Prop) (hU : PrefixFree U) (es : List (Ev V))
    (hf : ∀ e ∈ es, opKey e.op ≠ [] ∧ (opKey e.op).length ≤ W ∧ W ≤ (opKey e.op ++ e.pad).length) (hk : ∀ e ∈ es, U (opKey e.op))
    (hv : ∀ e ∈ es, ∀ k v, e.op = .insert k v → c.truthy v = true) :
    ∃ t n d, runC c es (Tree.empty c) = .ok t ∧
      (∀ k pad, U k → k ≠ [] → t.lookup (k ++ pad) k.length = .ok (MapSpec.run MapSpec.empty (kept es) k)) ∧
      Card (MapSpec.run MapSpec.empty (kept es)) n ∧ d ≤ es.countP Ev.torn ∧ t.count = BitVec.ofNat 32 (n + d) := by
  obtain ⟨t, n, d, a1, a2, a3, _, a5, a6⟩ := runC_law hc hj hU es MapSpec.empty (Tree.empty c) 0 0
    ⟨base_empty W, rep_empty, by simp [MapSpec.empty], by simp [MapSpec.empty]⟩ ⟨[], by simp, by simp [MapSpec.empty], rfl⟩ rfl hf hk hv
  exact ⟨t, n, d, a1, fun k pad => a2.lookup hU k pad, a3, by omega, a6⟩

/-- A key inserted and removed, the removal interrupted after its transaction: no key is found, but the count is 1. -/
theorem C67_torn (hc : c.bytes = true) (v : V) :
    (runC c [.done (.insert [0x61] v) [], .cut (.erase [0x61]) [] 1] (Tree.empty c) >>= fun t => (t.lookup [0x61] 1).bind fun r =>
      .ok (r, t.root, t.count)) = .ok (none, (Tree.empty c).root, 1#32) := by
  obtain ⟨tr, j, b⟩ := c
  cases hc
  rfl

theorem card_unique {m : List UInt8 → Option V} {n n' : Nat} (h : Card m n) (h' : Card m n') : n = n' := by
  obtain ⟨ks, a1, a2, rfl⟩ := h
  obtain ⟨ks', b1, b2, rfl⟩ := h'
  exact ((List.perm_ext_iff_of_nodup a1 b1).2 fun k => by rw [a2, b2]).length_eq

/-- Even with everything that C66 needs, C67 is false: the interrupted removal leaves a count that fits no map. -/
theorem C67_restricted_refuted (hc : c.bytes = true) (v : V) (hv : c.truthy v = true) : ¬ C67_restricted c 1 (fun k => k = [0x61]) := by
  intro h
  obtain ⟨t, m, n, e, hl, hn, hm, hcount⟩ := h [.done (.insert [0x61] v) [], .cut (.erase [0x61]) [] 1]
    (by intro e he; simp at he; rcases he with rfl | rfl <;> simp [Ev.op, Ev.pad, opKey])
    (by intro e he; simp at he; rcases he with rfl | rfl <;> simp [Ev.op, opKey])
    (by intro e he k v' hh; simp at he; rcases he with rfl | rfl <;> simp [Ev.op] at hh; exact hh.2 ▸ hv)
  have h1 := C67_torn hc v
  rw [e, Res.ok_bind] at h1
  have h2 := hl [0x61] [] rfl (by simp)
  rw [List.append_nil, List.length_singleton] at h2
  rw [h2] at h1
  have h3 : m [0x61] = none ∧ t.root = (Tree.empty c).root ∧ t.count = 1#32 := by simpa [Res.bind] using h1
  have h4 : ∀ k, m k = none := fun k => by
    by_cases e : k = [0x61]
    · rw [e]; exact h3.1
    · exact hm k e
  have : n = 0 := card_unique hn ⟨[], by simp, by simp [h4], rfl⟩
  rw [h3.2.2, this] at hcount
  exact absurd hcount (by decide)

/-- C67 is false for every value type, for the code as written and with the copy loop bounded by bytes. -/
theorem C67_refuted (c : Cfg V) : ¬ C67_statement c := by
  intro h
  cases hc : c.bytes with
  | false =>
    obtain ⟨t, m, e, _⟩ := h [.done (.insert [0x61] c.junk) []] (by simp [Ev.op, opKey])
    have := C65_overrun hc [0x61] [] (by simp) c.junk
    simp only [List.append_nil, List.length_singleton] at this
    simp [runC, exec, this] at e
  | true =>
    obtain ⟨t, m, e, ⟨ops, hs, rfl, _⟩, hl, n, hn, hcount⟩ := h [.done (.insert [0x61] c.junk) [], .cut (.erase [0x61]) [] 1]
      (by intro e he; simp at he; rcases he with rfl | rfl <;> simp [Ev.op, opKey])
    have h1 := C67_torn hc c.junk
    rw [e, Res.ok_bind] at h1
    have h2 := hl [0x61] [] (by simp)
    rw [List.append_nil, List.length_singleton] at h2
    rw [h2] at h1
    have h3 : MapSpec.run MapSpec.empty ops [0x61] = none ∧ t.root = (Tree.empty c).root ∧ t.count = 1#32 := by simpa [Res.bind] using h1
    have h4 : ∀ (ops : List (Op (List UInt8) V)) (m : List UInt8 → Option V), (∀ o ∈ ops, opKey o = [0x61]) → (∀ k, k ≠ [0x61] → m k = none) →
        ∀ k, k ≠ [0x61] → MapSpec.run m ops k = none := by
      intro ops
      induction ops with
      | nil => intro m _ h k hk; exact h k hk
      | cons o ops ih =>
        intro m ho h k hk
        refine ih (step m o) (fun o' h' => ho o' (by simp [h'])) (fun k' hk' => ?_) k hk
        have ho1 := ho o (by simp)
        cases o with
        | insert a b =>
          have : a = [0x61] := ho1
          simp [step, this, hk', h k' hk']
        | erase a =>
          have : a = [0x61] := ho1
          simp [step, this, hk', h k' hk']
    have h5 : ∀ k, MapSpec.run MapSpec.empty ops k = none := fun k => by
      by_cases e : k = [0x61]
      · rw [e]; exact h3.1
      · refine h4 ops MapSpec.empty (fun o ho => ?_) (fun _ _ => rfl) k e
        have := hs.subset ho
        simp [Ev.op] at this
        rcases this with rfl | rfl <;> rfl
    have : n = 0 := card_unique hn ⟨[], by simp, by simp [h5], rfl⟩
    rw [h3.2.2, this] at hcount
    exact absurd hcount (by decide)

/-- The hypotheses of `C67_partial` hold for a history with three crashes. -/
example : ∃ (c : Cfg Int) (es : List (Ev Int)), c.bytes = true ∧ c.truthy c.junk = false ∧ PrefixFree (fun k => k.length = 2) ∧
    (∀ e ∈ es, opKey e.op ≠ [] ∧ (opKey e.op).length ≤ 2 ∧ 2 ≤ (opKey e.op ++ e.pad).length) ∧ (∀ e ∈ es, (opKey e.op).length = 2) ∧
    (∀ e ∈ es, ∀ k v, e.op = .insert k v → c.truthy v = true) ∧ es.countP Ev.torn = 1 ∧
    MapSpec.run MapSpec.empty (kept es) [1, 2] = some 5 ∧ MapSpec.run MapSpec.empty (kept es) [1, 130] = none :=
  ⟨⟨fun v => decide (v ≠ 0), 0, true⟩, [.done (.insert [1, 2] 5) [], .cut (.insert [1, 130] 7) [] 1, .cut (.insert [1, 2] 8) [] 0,
    .cut (.erase [1, 130]) [] 1], rfl, rfl, fun a b ha hb h => h.eq_of_length (by rw [ha, hb]),
    by intro e he; simp at he; rcases he with rfl | rfl | rfl | rfl <;> simp [Ev.op, Ev.pad, opKey],
    by intro e he; simp at he; rcases he with rfl | rfl | rfl | rfl <;> simp [Ev.op, opKey],
    by intro e he k v hh; simp at he; rcases he with rfl | rfl | rfl | rfl <;> simp [Ev.op] at hh <;> simp [← hh.2], rfl, rfl, rfl⟩

end Verif.Patricia
