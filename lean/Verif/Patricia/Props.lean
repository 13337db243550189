import Verif.Patricia.Hist
import Verif.BaseTrie.Spec

/-!
# Properties of the Patricia trie
-/

namespace Verif.Patricia

open Verif MapSpec

variable {V : Type} {c : Cfg V}

/-- The results of a history of a map: `insert` reports a new key, `remove` a stored key. -/
def results : (List UInt8 → Option V) → List (Op (List UInt8) V) → List Bool
  | _, [] => []
  | m, op :: ops => TrieSpec.result m op :: results (step m op) ops

/-- The number of stored keys is `n`. -/
def Card (m : List UInt8 → Option V) (n : Nat) : Prop := ∃ ks : List (List UInt8), ks.Nodup ∧ (∀ k, k ∈ ks ↔ m k ≠ none) ∧ ks.length = n

/-- The map after a history. -/
abbrev final (ops : List (Op (List UInt8) V × List UInt8)) : List UInt8 → Option V := MapSpec.run MapSpec.empty (ops.map Prod.fst)

/-- The trie behaves as a map for the history `ops`: results, lookups, count. -/
def MapLike (c : Cfg V) (ops : List (Op (List UInt8) V × List UInt8)) : Prop :=
  ∃ t, run c ops (Tree.empty c) = .ok (t, results MapSpec.empty (ops.map Prod.fst)) ∧
    (∀ k pad, k ≠ [] → t.lookup (k ++ pad) k.length = .ok (final ops k)) ∧
    ∃ n, Card (final ops) n ∧ t.count = BitVec.ofNat 32 n

/-- C65: a Patricia trie with any history of inserts of non-empty keys behaves as a map. -/
def C65_statement (c : Cfg V) : Prop :=
  ∀ ops : List (Op (List UInt8) V × List UInt8), InsertsOnly (ops.map Prod.fst) → (∀ o ∈ ops, opKey o.1 ≠ []) → MapLike c ops

/-- C66: a Patricia trie with any history of inserts and removes of non-empty keys behaves as a map. -/
def C66_statement (c : Cfg V) : Prop :=
  ∀ ops : List (Op (List UInt8) V × List UInt8), (∀ o ∈ ops, opKey o.1 ≠ []) → MapLike c ops

/-- Stored keys continue `k` with a byte below 128 and with a byte from 128 on. -/
def Forked (m : List UInt8 → Option V) (k : List UInt8) : Prop :=
  (∃ x s, x.toNat < 128 ∧ m (k ++ x :: s) ≠ none) ∧ ∃ x s, 128 ≤ x.toNat ∧ m (k ++ x :: s) ≠ none

/-- The keys of the history are not empty and have at most `W` bytes, and at least `W` bytes can be read from
where they are stored. -/
def Fits (W : Nat) (ops : List (Op (List UInt8) V × List UInt8)) : Prop :=
  ∀ o ∈ ops, opKey o.1 ≠ [] ∧ (opKey o.1).length ≤ W ∧ W ≤ (opKey o.1 ++ o.2).length

theorem forked_iff {W : Nat} {m : List UInt8 → Option V} {t : Tree V} (hb : Base W t) (hr : Rep c m t) (k : List UInt8) :
    Fork t.root (keyBits k) ↔ Forked m k := by
  have side : ∀ b, (∃ y w, Has t.root y w ∧ keyBits k ++ [b] <+: y) ↔ ∃ x s, decide (128 ≤ x.toNat) = b ∧ m (k ++ x :: s) ≠ none := by
    intro b
    constructor
    · rintro ⟨y, w, hy, hp⟩
      obtain ⟨k', v, h1, h2⟩ := stored_below hb hr hy (fun e => by rw [e] at hp; simp at hp)
      obtain ⟨x, s, rfl, hx⟩ := keyBits_bit.1 (hp.trans h2)
      exact ⟨x, s, hx, by simp [h1]⟩
    · rintro ⟨x, s, hx, hm⟩
      obtain ⟨v, hv⟩ := Option.ne_none_iff_exists'.1 hm
      exact ⟨_, v, hr.full _ _ hv, keyBits_bit.2 ⟨x, s, rfl, hx⟩⟩
  have h0 := side false
  have h1 := side true
  simp only [decide_eq_false_iff_not, Nat.not_le, decide_eq_true_eq] at h0 h1
  rw [Forked, ← h0, ← h1]
  constructor
  · exact fun h => ⟨h false, h true⟩
  · rintro ⟨a, b⟩ (_ | _)
    · exact a
    · exact b

theorem lookup_rep {W : Nat} {m : List UInt8 → Option V} {t : Tree V} (hb : Base W t) (hr : Rep c m t) {k : List UInt8} (hk : k ≠ [])
    (pad : List UInt8) : ∃ r, t.lookup (k ++ pad) k.length = .ok r ∧ ∀ v, r = some v ↔ m k = some v ∨ (m k = none ∧ v = c.junk ∧ Forked m k) := by
  obtain ⟨r, e, h⟩ := lookup_base hb hk pad
  refine ⟨r, e, fun v => ?_⟩
  rw [h, ← forked_iff hb hr]
  constructor
  · intro hh
    rcases hr.only _ _ hh with h' | ⟨k', h1, h2⟩ | ⟨h1, h2, h3⟩
    · exact (keyBits_ne hk h').elim
    · exact .inl (keyBits_inj h2 ▸ h1)
    · exact .inr ⟨by by_contra hne; exact h3 k hne rfl, h1, h2⟩
  · rintro (h | ⟨hm, rfl, hf⟩)
    · exact hr.full _ _ h
    · obtain ⟨y0, v0, a0, b0⟩ := hf false
      obtain ⟨y1, v1, a1, b1⟩ := hf true
      obtain ⟨u, hu⟩ := has_meet hb.wf a0 a1 b0 b1
      rcases hr.only _ _ hu with h' | ⟨k', h1, h2⟩ | ⟨h1, _⟩
      · exact (keyBits_ne hk h').elim
      · rw [← keyBits_inj h2] at h1
        simp [hm] at h1
      · exact h1 ▸ hu

/-- A history of inserts. -/
theorem inserts_law {W : Nat} (hc : c.bytes = true) : ∀ (ops : List (Op (List UInt8) V × List UInt8)) (m : List UInt8 → Option V) (t : Tree V),
    InsertsOnly (ops.map Prod.fst) → Fits W ops → Base W t → Rep c m t →
    ∃ t' rs, run c ops t = .ok (t', rs) ∧ Base W t' ∧ Rep c (MapSpec.run m (ops.map Prod.fst)) t'
  | [], m, t, _, _, hb, hr => ⟨t, [], rfl, hb, hr⟩
  | (op, pad) :: ops, m, t, hi, hf, hb, hr => by
    obtain ⟨k, v, rfl⟩ := hi op (by simp)
    obtain ⟨h1, h2, h3⟩ : k ≠ [] ∧ k.length ≤ W ∧ W ≤ (k ++ pad).length := hf (.insert k v, pad) (by simp)
    obtain ⟨t1, w, e1, hb1, hp, _⟩ := insert_base hc hb h1 h2 h3 v
    obtain ⟨t2, rs, e2, hb2, hr2⟩ := inserts_law hc ops _ t1 (fun o ho => hi o (by simp at ho ⊢; exact .inr ho)) (fun o ho => hf o (by simp [ho])) hb1
      (insert_rep h1 hr hp)
    exact ⟨t2, w :: rs, by simp [run, exec, e1, e2], hb2, hr2⟩

/-- **C65**, partial.  Suppose the copy loop of `setKey` is bounded by bytes and the keys of at most `W` bytes
are read from buffers of at least `W` bytes.  Then no history of inserts has undefined behaviour, and a lookup
returns the value stored last; but for a key that is not stored and that stored keys continue both with a byte
below 128 and with a byte from 128 on, it returns `true` and an uninitialised value.  (Missing: the code as
written, and buffers that end with the key.) -/
theorem C65_partial {W : Nat} (hc : c.bytes = true) (ops : List (Op (List UInt8) V × List UInt8)) (hi : InsertsOnly (ops.map Prod.fst))
    (hf : Fits W ops) :
    ∃ t rs, run c ops (Tree.empty c) = .ok (t, rs) ∧ ∀ k pad, k ≠ [] → ∃ r, t.lookup (k ++ pad) k.length = .ok r ∧
      ∀ v, r = some v ↔ final ops k = some v ∨ (final ops k = none ∧ v = c.junk ∧ Forked (final ops) k) := by
  obtain ⟨t, rs, e, hb, hr⟩ := inserts_law hc ops _ _ hi hf (base_empty W) rep_empty
  exact ⟨t, rs, e, fun k pad hk => lookup_rep hb hr hk pad⟩

theorem card_step {m : List UInt8 → Option V} {n : Nat} (h : Card m n) (k : List UInt8) (v : V) :
    Card (step m (.insert k v)) (if m k = none then n + 1 else n) := by
  obtain ⟨ks, h1, h2, h3⟩ := h
  split
  · rename_i hk
    refine ⟨k :: ks, List.nodup_cons.2 ⟨fun h => (h2 k).1 h hk, h1⟩, fun k' => ?_, by simp [h3]⟩
    by_cases e : k' = k
    · simp [e, step]
    · simp [e, step, h2]
  · rename_i hk
    refine ⟨ks, h1, fun k' => ?_, h3⟩
    by_cases e : k' = k
    · simp [e, step, (h2 k).2 hk]
    · simp [e, step, h2]

theorem card_erase {m : List UInt8 → Option V} {n : Nat} (h : Card m n) (k : List UInt8) :
    Card (step m (.erase k)) (if m k = none then n else n - 1) := by
  obtain ⟨ks, h1, h2, h3⟩ := h
  refine ⟨ks.erase k, h1.erase k, fun k' => ?_, ?_⟩
  · rw [h1.mem_erase_iff]
    by_cases e : k' = k
    · simp [e, step]
    · simp [e, step, h2]
  · split
    · rename_i hk
      rw [List.erase_of_not_mem (fun h => (h2 k).1 h hk), h3]
    · rename_i hk
      rw [List.length_erase_of_mem ((h2 k).2 hk), h3]

/-- The result of an insert, if the stored values convert to `true` and uninitialised memory converts to `false`. -/
theorem insert_res {W : Nat} {m : List UInt8 → Option V} {t t' : Tree V} {k : List UInt8} {v : V} {w : Bool} (_hb : Base W t) (hr : Rep c m t)
    (hk : k ≠ []) (hj : c.truthy c.junk = false) (hv : ∀ k v, m k = some v → c.truthy v = true)
    (hp : InsPost c (keyBits k) v [] t.root t'.root w) : w = (m k).isNone := by
  have : (∃ d, Has t.root (keyBits k) d ∧ c.truthy d = true) ↔ m k ≠ none := by
    constructor
    · rintro ⟨d, h1, h2⟩
      rcases hr.only _ _ h1 with h' | ⟨k', h3, h4⟩ | ⟨rfl, _⟩
      · exact (keyBits_ne hk h').elim
      · rw [keyBits_inj h4, h3]; simp
      · simp [hj] at h2
    · intro h
      obtain ⟨d, hd⟩ := Option.ne_none_iff_exists'.1 h
      exact ⟨d, hr.full _ _ hd, hv _ _ hd⟩
  have h2 := hp.res
  rw [this, not_not] at h2
  cases w
  · cases hm : m k
    · simp [hm] at h2
    · rfl
  · simp [h2.1 rfl]

/-- **C65**, partial: under the assumptions of `C65_partial`, if the values convert to `true` and the memory of new nodes
converts to `false`, then also the results of the inserts and the count are right. -/
theorem C65_results_partial {W : Nat} (hc : c.bytes = true) (hj : c.truthy c.junk = false) (ops : List (Op (List UInt8) V × List UInt8))
    (hi : InsertsOnly (ops.map Prod.fst)) (hf : Fits W ops) (hv : ∀ k v pad, (Op.insert k v, pad) ∈ ops → c.truthy v = true) :
    ∃ t, run c ops (Tree.empty c) = .ok (t, results MapSpec.empty (ops.map Prod.fst)) ∧
      ∃ n, Card (final ops) n ∧ t.count = BitVec.ofNat 32 n := by
  have key : ∀ (ops : List (Op (List UInt8) V × List UInt8)) (m : List UInt8 → Option V) (t : Tree V) (n : Nat),
      InsertsOnly (ops.map Prod.fst) → Fits W ops → (∀ k v pad, (Op.insert k v, pad) ∈ ops → c.truthy v = true) → Base W t → Rep c m t →
      (∀ k v, m k = some v → c.truthy v = true) → Card m n → t.count = BitVec.ofNat 32 n →
      ∃ t', run c ops t = .ok (t', results m (ops.map Prod.fst)) ∧ ∃ n', Card (MapSpec.run m (ops.map Prod.fst)) n' ∧ t'.count = BitVec.ofNat 32 n' := by
    intro ops
    induction ops with
    | nil => intro m t n _ _ _ _ _ _ h1 h2; exact ⟨t, rfl, n, h1, h2⟩
    | cons o ops ih =>
      intro m t n hi hf hv hb hr hm hn hcount
      obtain ⟨op, pad⟩ := o
      obtain ⟨k, v, rfl⟩ := hi op (by simp)
      obtain ⟨h1, h2, h3⟩ : k ≠ [] ∧ k.length ≤ W ∧ W ≤ (k ++ pad).length := hf (.insert k v, pad) (by simp)
      obtain ⟨t1, w, e1, hb1, hp, hc1⟩ := insert_base hc hb h1 h2 h3 v
      have hw := insert_res hb hr h1 hj hm hp
      obtain ⟨t2, e2, n2, hn2, hc2⟩ := ih _ t1 _ (fun o ho => hi o (by simp at ho ⊢; exact .inr ho)) (fun o ho => hf o (by simp [ho]))
        (fun k v pad h => hv k v pad (by simp [h])) hb1 (insert_rep h1 hr hp) (fun k' v' hk' => by
          by_cases e : k' = k
          · simp [step, e] at hk'
            exact hk' ▸ hv k v pad (by simp)
          · exact hm k' v' (by simpa [step, e] using hk')) (card_step hn k v) (by
          rw [hc1, hw, hcount]
          cases m k <;> simp [BitVec.ofNat_add])
      refine ⟨t2, ?_, n2, hn2, hc2⟩
      simp [run, exec, e1, e2, results, TrieSpec.result, hw]
  exact key ops _ _ 0 hi hf hv (base_empty W) rep_empty (by simp [MapSpec.empty]) ⟨[], by simp, by simp [MapSpec.empty], rfl⟩ rfl

/-- As written, the first insert into an empty trie writes behind the end of the memory allocated for the key,
whatever the key. -/
theorem C65_overrun (hc : c.bytes = false) (k pad : List UInt8) (hk : k ≠ []) (v : V) :
    (Tree.empty c).insert c (k ++ pad) k.length v = .ub := by
  have hl : 0 < k.length := List.length_pos_iff.2 hk
  have h0 : 0 < k.length * 8 := by omega
  have h1 : ¬ k.length * 8 ≤ 0 := by omega
  have h2 : ¬ 0 = k.length * 8 := by omega
  simp only [Tree.insert, Res.assert_pos h0, Res.ok_bind, Tree.empty, ins,
    matchKey_ok (K1 := []) (K2 := k ++ pad) (L := 0) (by simp) (by simp)]
  rw [if_neg (by simp [bits, h1])]
  rw [checkBit_ok (K := k ++ pad) (L := 0) (by simp; omega)]
  simp [insAt, h2, newNode_ub hc (src := k ++ pad) (L := k.length * 8) (by omega)]

/-- With the copy loop bounded by bytes: after `"a\0"` and `"a\x80"` have been inserted, `"a"` is found. -/
theorem C65_phantom (hc : c.bytes = true) (v : V) :
    (run c [(.insert [0x61, 0x00] v, []), (.insert [0x61, 0x80] v, [])] (Tree.empty c) >>= fun r => r.1.lookup [0x61] 1) = .ok (some c.junk) := by
  obtain ⟨tr, j, b⟩ := c
  cases hc
  rfl

/-- C65 is false for every value type, for the code as written and with the copy loop bounded by bytes. -/
theorem C65_refuted (c : Cfg V) : ¬ C65_statement c := by
  intro h
  cases hc : c.bytes with
  | false =>
    obtain ⟨t, e, _⟩ := h [(.insert [0x61] c.junk, [])] (fun o ho => ⟨[0x61], c.junk, by simpa using ho⟩) (by simp [opKey])
    have := C65_overrun hc [0x61] [] (by simp) c.junk
    simp only [List.append_nil, List.length_singleton] at this
    simp [run, exec, this] at e
  | true =>
    obtain ⟨t, e, hl, _⟩ := h [(.insert [0x61, 0x00] c.junk, []), (.insert [0x61, 0x80] c.junk, [])]
      (by intro o ho; simp at ho; rcases ho with rfl | rfl <;> exact ⟨_, _, rfl⟩) (by simp [opKey])
    have h1 := C65_phantom hc c.junk
    rw [e] at h1
    have h2 := hl [0x61] [] (by simp)
    simp only [Res.ok_bind] at h1
    rw [List.append_nil, List.length_singleton, h1] at h2
    simp [final, MapSpec.run, step, MapSpec.empty] at h2

/-- The hypotheses of `C65_partial` and `C65_results_partial` hold for keys of different lengths, one of them a prefix
of another, read from buffers of four bytes. -/
example : ∃ (c : Cfg Int) (ops : List (Op (List UInt8) Int × List UInt8)), c.bytes = true ∧ c.truthy c.junk = false ∧ InsertsOnly (ops.map Prod.fst) ∧
    Fits 4 ops ∧ (∀ k v pad, (Op.insert k v, pad) ∈ ops → c.truthy v = true) ∧ final ops [99] = some 3 ∧ final ops [99, 112, 112] = some 300 :=
  ⟨⟨fun v => decide (v ≠ 0), 0, true⟩, [(.insert [106, 97, 118, 97] 34, []), (.insert [99] 2, [0, 1, 2]), (.insert [99, 112, 112] 300, [7]),
    (.insert [99] 3, [112, 112, 112])], rfl, rfl, by intro o ho; simp at ho; rcases ho with rfl | rfl | rfl | rfl <;> exact ⟨_, _, rfl⟩,
    by intro o ho; simp at ho; rcases ho with rfl | rfl | rfl | rfl <;> simp [opKey],
    by intro k v pad h; simp at h; rcases h with ⟨⟨_, rfl⟩, _⟩ | ⟨⟨_, rfl⟩, _⟩ | ⟨⟨_, rfl⟩, _⟩ | ⟨⟨_, rfl⟩, _⟩ <;> rfl, rfl, rfl⟩

/-! ### Remove -/

/-- Any history keeps the trie well formed. -/
theorem run_base {W : Nat} (hc : c.bytes = true) : ∀ (ops : List (Op (List UInt8) V × List UInt8)) (t : Tree V), Fits W ops → Base W t →
    ∃ t' rs, run c ops t = .ok (t', rs) ∧ Base W t'
  | [], t, _, hb => ⟨t, [], rfl, hb⟩
  | (.insert k v, pad) :: ops, t, hf, hb => by
    obtain ⟨h1, h2, h3⟩ : k ≠ [] ∧ k.length ≤ W ∧ W ≤ (k ++ pad).length := hf (.insert k v, pad) (by simp)
    obtain ⟨t1, w, e1, hb1, _⟩ := insert_base hc hb h1 h2 h3 v
    obtain ⟨t2, rs, e2, hb2⟩ := run_base hc ops t1 (fun o ho => hf o (by simp [ho])) hb1
    exact ⟨t2, w :: rs, by simp [run, exec, e1, e2], hb2⟩
  | (.erase k, pad) :: ops, t, hf, hb => by
    obtain ⟨h1, _, _⟩ : k ≠ [] ∧ k.length ≤ W ∧ W ≤ (k ++ pad).length := hf (.erase k, pad) (by simp)
    obtain ⟨t1, w, e1, hb1, _⟩ := remove_base hb h1 pad
    obtain ⟨t2, rs, e2, hb2⟩ := run_base hc ops t1 (fun o ho => hf o (by simp [ho])) hb1
    exact ⟨t2, w :: rs, by simp [run, exec, e1, e2], hb2⟩

/-- **C66**, partial.  With the copy loop bounded by bytes and large enough buffers, no history of inserts and removes
has undefined behaviour; `remove(k)` returns whether `lookup(k)` finds something; and it changes the result of no lookup
of a key that is not a prefix of `k`. -/
theorem C66_frame_partial {W : Nat} (hc : c.bytes = true) (ops : List (Op (List UInt8) V × List UInt8)) (hf : Fits W ops)
    (k pad : List UInt8) (hk : k ≠ []) :
    ∃ t rs t' w r, run c ops (Tree.empty c) = .ok (t, rs) ∧ t.remove (k ++ pad) k.length = .ok (t', w) ∧
      t.lookup (k ++ pad) k.length = .ok r ∧ w = r.isSome ∧
      ∀ k' pad', k' ≠ [] → ¬ k' <+: k → t'.lookup (k' ++ pad') k'.length = t.lookup (k' ++ pad') k'.length := by
  obtain ⟨t, rs, e, hb⟩ := run_base hc ops (Tree.empty c) hf (base_empty W)
  obtain ⟨t', w, e', hb', h1, h2⟩ := remove_base hb hk pad
  obtain ⟨r, er, hr⟩ := lookup_base hb hk pad
  refine ⟨t, rs, t', w, r, e, e', er, ?_, fun k' pad' hk' hp => ?_⟩
  · cases w with
    | false =>
      cases r with
      | none => rfl
      | some v => exact ((h1 rfl).2 v ((hr v).1 rfl)).elim
    | true =>
      obtain ⟨v, hv⟩ := (h2 rfl).1.was
      rw [(hr v).2 hv]; rfl
  · cases w with
    | false => rw [(h1 rfl).1]
    | true =>
      have he := (h2 rfl).1
      obtain ⟨r1, e1, g1⟩ := lookup_base hb hk' pad'
      obtain ⟨r2, e2, g2⟩ := lookup_base hb' hk' pad'
      rw [e1, e2]
      congr 1
      apply Option.ext
      intro v
      rw [g2, g1]
      exact ⟨he.sub _ _, fun h => he.keep _ _ h (fun hh => hp (keyBits_prefix.1 hh))⟩

/-- No key of `U` is a proper prefix of another. -/
def PrefixFree (U : List UInt8 → Prop) : Prop := ∀ a b, U a → U b → a <+: b → a = b

theorem remove_rep {W : Nat} {U : List UInt8 → Prop} (hU : PrefixFree U) {m : List UInt8 → Option V} (hm : ∀ k, m k ≠ none → U k)
    {t t' : Tree V} (hb : Base W t) (hr : Rep c m t) {k : List UInt8} (hk : k ≠ []) (hUk : U k) {w : Bool}
    (h1 : w = false → t' = t ∧ ∀ v, ¬ Has t.root (keyBits k) v) (h2 : w = true → Eff (keyBits k) [] t.root t'.root ∧ t'.count = t.count - 1) :
    w = (m k).isSome ∧ Rep c (step m (.erase k)) t' := by
  have nofork : ¬ Fork t.root (keyBits k) := fun hf => by
    obtain ⟨⟨x, s, _, hx⟩, _⟩ := (forked_iff hb hr k).1 hf
    have := hU k (k ++ x :: s) hUk (hm _ hx) (List.prefix_append _ _)
    simp at this
  cases w with
  | false =>
    obtain ⟨rfl, hno⟩ := h1 rfl
    have hmk : m k = none := by
      cases e : m k with
      | none => rfl
      | some v => exact (hno v (hr.full _ _ e)).elim
    refine ⟨by simp [hmk], ?_⟩
    have : step m (.erase k) = m := by
      funext k'
      by_cases e : k' = k
      · simp [step, e, hmk]
      · simp [step, e]
    rwa [this]
  | true =>
    obtain ⟨he, _⟩ := h2 rfl
    obtain ⟨v, hv⟩ := he.was
    have hmk : m k = some v := by
      rcases hr.only _ _ hv with h' | ⟨k', h3, h4⟩ | ⟨_, hf, _⟩
      · exact (keyBits_ne hk h').elim
      · rw [keyBits_inj h4, h3]
      · exact (nofork hf).elim
    refine ⟨by simp [hmk], by by_cases e : [] = k <;> simp [step, e, hr.nil], fun k' v' h => ?_, fun y u h => ?_⟩
    · by_cases e : k' = k
      · simp [step, e] at h
      · simp [step, e] at h
        exact he.keep _ _ (hr.full _ _ h) (fun hh => e (hU k' k (hm k' (by simp [h])) hUk (keyBits_prefix.1 hh)))
    · rcases hr.only _ _ (he.sub _ _ h) with h' | ⟨k', h3, rfl⟩ | ⟨h3, hf, h4⟩
      · exact .inl h'
      · refine .inr (.inl ⟨k', ?_, rfl⟩)
        have : k' ≠ k := fun e => he.gone nofork u (e ▸ h)
        simp [step, this, h3]
      · by_cases hy : y = []
        · exact .inl hy
        · refine .inr (.inr ⟨h3, he.fork y u h hy hf, fun k' hk' => h4 k' ?_⟩)
          by_cases e : k' = k
          · simp [step, e] at hk'
          · simpa [step, e] using hk'

/-- **C66**, partial.  With the copy loop bounded by bytes and large enough buffers, if no key of a set `U` is a proper
prefix of another (for instance, if all have the same length), the values convert to `true` and the memory of
new nodes converts to `false`, then a trie used with keys of `U` only behaves as a map: results, lookups of the keys of `U`,
count.  (Missing: the code as written, keys that are prefixes of other keys, values such as 0.) -/
theorem C66_partial {W : Nat} (hc : c.bytes = true) (hj : c.truthy c.junk = false) (U : List UInt8 → Prop) (hU : PrefixFree U)
    (ops : List (Op (List UInt8) V × List UInt8)) (hf : Fits W ops) (hk : ∀ o ∈ ops, U (opKey o.1))
    (hv : ∀ k v pad, (Op.insert k v, pad) ∈ ops → c.truthy v = true) :
    ∃ t, run c ops (Tree.empty c) = .ok (t, results MapSpec.empty (ops.map Prod.fst)) ∧
      (∀ k pad, U k → k ≠ [] → t.lookup (k ++ pad) k.length = .ok (final ops k)) ∧
      ∃ n, Card (final ops) n ∧ t.count = BitVec.ofNat 32 n := by
  have key : ∀ (ops : List (Op (List UInt8) V × List UInt8)) (m : List UInt8 → Option V) (t : Tree V) (n : Nat),
      Fits W ops → (∀ o ∈ ops, U (opKey o.1)) → (∀ k v pad, (Op.insert k v, pad) ∈ ops → c.truthy v = true) → Base W t → Rep c m t →
      (∀ k, m k ≠ none → U k) → (∀ k v, m k = some v → c.truthy v = true) → Card m n → t.count = BitVec.ofNat 32 n →
      ∃ t', run c ops t = .ok (t', results m (ops.map Prod.fst)) ∧
        (∀ k pad, U k → k ≠ [] → t'.lookup (k ++ pad) k.length = .ok (MapSpec.run m (ops.map Prod.fst) k)) ∧
        ∃ n', Card (MapSpec.run m (ops.map Prod.fst)) n' ∧ t'.count = BitVec.ofNat 32 n' := by
    intro ops
    induction ops with
    | nil =>
      intro m t n _ _ _ hb hr hmU _ h1 h2
      refine ⟨t, rfl, fun k pad hUk hk => ?_, n, h1, h2⟩
      obtain ⟨r, e, h⟩ := lookup_rep hb hr hk pad
      rw [e]
      congr 1
      apply Option.ext
      intro v
      rw [h]
      constructor
      · rintro (h | ⟨_, _, ⟨x, s, _, hx⟩, _⟩)
        · exact h
        · have := hU k (k ++ x :: s) hUk (hmU _ hx) (List.prefix_append _ _)
          simp at this
      · exact .inl
    | cons o ops ih =>
      intro m t n hf hk hv hb hr hmU hm hn hcount
      obtain ⟨op, pad⟩ := o
      have hf' : Fits W ops := fun o ho => hf o (by simp [ho])
      have hk' : ∀ o ∈ ops, U (opKey o.1) := fun o ho => hk o (by simp [ho])
      have hv' : ∀ k v pad, (Op.insert k v, pad) ∈ ops → c.truthy v = true := fun k v pad h => hv k v pad (by simp [h])
      cases op with
      | insert k v =>
        obtain ⟨h1, h2, h3⟩ : k ≠ [] ∧ k.length ≤ W ∧ W ≤ (k ++ pad).length := hf (.insert k v, pad) (by simp)
        have hUk : U k := hk (.insert k v, pad) (by simp)
        obtain ⟨t1, w, e1, hb1, hp, hc1⟩ := insert_base hc hb h1 h2 h3 v
        have hw := insert_res hb hr h1 hj hm hp
        obtain ⟨t2, e2, hl2, n2, hn2, hc2⟩ := ih _ t1 _ hf' hk' hv' hb1 (insert_rep h1 hr hp) (fun k' h => by
            by_cases e : k' = k
            · exact e ▸ hUk
            · exact hmU k' (by simpa [step, e] using h)) (fun k' v' hk' => by
            by_cases e : k' = k
            · simp [step, e] at hk'
              exact hk' ▸ hv k v pad (by simp)
            · exact hm k' v' (by simpa [step, e] using hk')) (card_step hn k v) (by
            rw [hc1, hw, hcount]
            cases m k <;> simp [BitVec.ofNat_add])
        refine ⟨t2, ?_, hl2, n2, hn2, hc2⟩
        simp [run, exec, e1, e2, results, TrieSpec.result, hw]
      | erase k =>
        obtain ⟨h1, _, _⟩ : k ≠ [] ∧ k.length ≤ W ∧ W ≤ (k ++ pad).length := hf (.erase k, pad) (by simp)
        have hUk : U k := hk (.erase k, pad) (by simp)
        obtain ⟨t1, w, e1, hb1, g1, g2⟩ := remove_base hb h1 pad
        obtain ⟨hw, hr1⟩ := remove_rep hU hmU hb hr h1 hUk g1 g2
        obtain ⟨t2, e2, hl2, n2, hn2, hc2⟩ := ih _ t1 _ hf' hk' hv' hb1 hr1 (fun k' h => by
            by_cases e : k' = k
            · exact e ▸ hUk
            · exact hmU k' (by simpa [step, e] using h)) (fun k' v' hk' => by
            by_cases e : k' = k
            · simp [step, e] at hk'
            · exact hm k' v' (by simpa [step, e] using hk')) (card_erase hn k) (by
            cases hmk : m k with
            | none =>
              rw [hmk] at hw
              rw [(g1 hw).1, hcount]
              simp
            | some v =>
              rw [hmk] at hw
              rw [(g2 hw).2, hcount]
              obtain ⟨ks, _, q2, q3⟩ := hn
              have : 0 < n := by rw [← q3]; exact List.length_pos_of_mem ((q2 k).2 (by simp [hmk]))
              simp only [reduceCtorEq, if_false]
              apply BitVec.eq_of_toNat_eq
              simp [BitVec.toNat_sub]
              omega)
        refine ⟨t2, ?_, hl2, n2, hn2, hc2⟩
        simp [run, exec, e1, e2, results, TrieSpec.result, hw]
  exact key ops _ _ 0 hf hk hv (base_empty W) rep_empty (by simp [MapSpec.empty]) (by simp [MapSpec.empty]) ⟨[], by simp, by simp [MapSpec.empty], rfl⟩ rfl

/-- With the copy loop bounded by bytes: after `"c"` and `"cpp"` have been inserted, `remove("cpp")` removes `"c"` as well. -/
theorem C66_prefix_lost (hc : c.bytes = true) (v : V) :
    (run c [(.insert [0x63] v, [0, 0]), (.insert [0x63, 0x70, 0x70] v, []), (.erase [0x63, 0x70, 0x70], [])] (Tree.empty c) >>= fun r =>
      r.1.lookup [0x63] 1) = .ok none := by
  obtain ⟨tr, j, b⟩ := c
  cases hc
  rfl

/-- With the copy loop bounded by bytes: a removed key with two children is still found. -/
theorem C66_fork_stays (hc : c.bytes = true) (v : V) :
    (run c [(.insert [0x61] v, [0]), (.insert [0x61, 0x00] v, []), (.insert [0x61, 0x80] v, []), (.erase [0x61], [])] (Tree.empty c) >>= fun r =>
      r.1.lookup [0x61] 1) = .ok (some v) := by
  obtain ⟨tr, j, b⟩ := c
  cases hc
  rfl

/-- With the copy loop bounded by bytes: `remove` of a key that was never inserted returns `true` and decreases the count,
each time it is called; after three calls with two stored keys the count is `2^32 - 1`. -/
theorem C66_count (hc : c.bytes = true) (v : V) :
    (run c [(.insert [0x61, 0x00] v, []), (.insert [0x61, 0x80] v, []), (.erase [0x61], []), (.erase [0x61], []), (.erase [0x61], [])]
      (Tree.empty c) >>= fun r => .ok (r.2, r.1.count)) = .ok ([true, true, true, true, true], BitVec.ofNat 32 (2 ^ 32 - 1)) := by
  obtain ⟨tr, j, b⟩ := c
  cases hc
  have : BitVec.ofNat 32 (2 ^ 32 - 1) = 0#32 + 1 + 1 - 1 - 1 - 1 := by decide
  rw [this]
  rfl

/-- C66 is false for every value type, for the code as written and with the copy loop bounded by bytes. -/
theorem C66_refuted (c : Cfg V) : ¬ C66_statement c :=
  fun h => C65_refuted c fun ops _ hk => h ops hk

/-- The hypotheses of `C66_partial` hold for keys of two bytes, of which one is removed and inserted again. -/
example : ∃ (c : Cfg Int) (ops : List (Op (List UInt8) Int × List UInt8)), c.bytes = true ∧ c.truthy c.junk = false ∧
    PrefixFree (fun k => k.length = 2) ∧ Fits 2 ops ∧ (∀ o ∈ ops, (opKey o.1).length = 2) ∧
    (∀ k v pad, (Op.insert k v, pad) ∈ ops → c.truthy v = true) ∧ final ops [1, 2] = some 9 ∧ final ops [1, 130] = some 7 ∧ final ops [3, 3] = none :=
  ⟨⟨fun v => decide (v ≠ 0), 0, true⟩, [(.insert [1, 2] 5, []), (.insert [1, 130] 7, []), (.insert [3, 3] 8, []), (.erase [1, 2], []),
    (.erase [3, 3], []), (.insert [1, 2] 9, [])], rfl, rfl, fun a b ha hb h => h.eq_of_length (by rw [ha, hb]),
    by intro o ho; simp at ho; rcases ho with rfl | rfl | rfl | rfl | rfl | rfl <;> simp [opKey],
    by intro o ho; simp at ho; rcases ho with rfl | rfl | rfl | rfl | rfl | rfl <;> simp [opKey],
    by intro k v pad h; simp at h; rcases h with ⟨⟨_, rfl⟩, _⟩ | ⟨⟨_, rfl⟩, _⟩ | ⟨⟨_, rfl⟩, _⟩ | ⟨⟨_, rfl⟩, _⟩ <;> rfl, rfl, rfl, rfl⟩

end Verif.Patricia
