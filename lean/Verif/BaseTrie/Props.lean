import Verif.BaseTrie.Lemmas
import Mathlib.Data.Set.Card

/-!
# Property theorems for BaseTrie (C25, C26, C54)
-/

namespace Verif.BaseTrieProps

open Verif MapSpec TrieSpec BaseTrie

variable {V : Type}

/-- One operation on the trie. -/
def exec (t : Trie V) : Op (List Byte) V → Bool × Trie V
  | .insert k v => t.insert k v
  | .erase k => t.remove k

/-- A history. -/
def execAll : Trie V → List (Op (List Byte) V) → List Bool × Trie V
  | t, [] => ([], t)
  | t, op :: ops =>
    let r := exec t op
    let r' := execAll r.2 ops
    (r.1 :: r'.1, r'.2)

/-- The trie stores the map. -/
structure Stores (t : Trie V) (m : List Byte → Option V) : Prop where
  root : t.isNull = false
  ok : t.Ok
  get : ∀ k, t.get k = (m k).map some

theorem stores_new : Stores (Trie.new : Trie V) empty := ⟨rfl, Trie.ok_new, fun k => by rw [Trie.get_new]; rfl⟩

theorem lost_map {m : List Byte → Option V} {g : List Byte → Option (Option V)} (h : ∀ k, g k = (m k).map some)
    (k x : List Byte) : Lost g k x ↔ Lost m k x := by
  unfold Lost
  simp only [h, ne_eq, Option.map_eq_none_iff]

theorem stores_step {t : Trie V} {m : List Byte → Option V} (h : Stores t m) (op : Op (List Byte) V) :
    (exec t op).1 = result m op ∧ Stores (exec t op).2 (lossyStep m op) := by
  cases op with
  | insert k v =>
    obtain ⟨h1, h2, h3, h4⟩ := Trie.insert_spec k t v h.root h.ok
    refine ⟨?_, h2, h3, fun x => ?_⟩
    · show (t.insert k v).1 = (m k).isNone
      rw [h1, h.get]; cases m k <;> rfl
    · show (t.insert k v).2.get x = _
      rw [h4, h.get, lossyStep, step]
      dsimp only
      by_cases hx : x = k
      · rw [if_pos hx, if_pos hx]; rfl
      · rw [if_neg hx, if_neg hx]
  | erase k =>
    obtain ⟨h1, h2, h3, h4, h5⟩ := Trie.remove_spec k t h.root h.ok
    refine ⟨?_, h2, h4, fun x => ?_⟩
    · show (t.remove k).1 = (m k).isSome
      rw [h1, h.get]; cases m k <;> rfl
    · show (t.remove k).2.get x = _
      rw [lossyStep]
      dsimp only
      have hg : (t.get k).isSome = (m k).isSome := by rw [h.get]; cases m k <;> rfl
      by_cases hk : m k = none
      · rw [if_neg (fun hc => hc.1 hk), h3 (by rw [hg, hk]; rfl), h.get]
      · obtain ⟨l1, l2⟩ := h5 (by rw [hg]; exact Option.isSome_iff_ne_none.2 hk)
        by_cases hl : Lost m k x
        · rw [if_pos ⟨hk, hl⟩, l1 x ((lost_map h.get k x).2 hl)]; rfl
        · rw [if_neg (fun hc => hl hc.2), l2 x (fun hc => hl ((lost_map h.get k x).1 hc)), h.get]

theorem stores_all : ∀ (ops : List (Op (List Byte) V)) (t : Trie V) (m : List Byte → Option V), Stores t m →
    (execAll t ops).1 = lossyResults m ops ∧ Stores (execAll t ops).2 (lossyRun m ops)
  | [], _, _, h => ⟨rfl, h⟩
  | op :: ops, t, m, h => by
    obtain ⟨h1, h2⟩ := stores_step h op
    obtain ⟨h3, h4⟩ := stores_all ops _ _ h2
    exact ⟨by rw [execAll, lossyResults, ← h1, ← h3], h4⟩

theorem Stores.lookup {t : Trie V} {m : List Byte → Option V} (h : Stores t m) (k : List Byte) :
    t.lookup k = if k.length < 256 then (m k).map some else none := by
  by_cases hk : k.length < 256
  · rw [if_pos hk, Trie.lookup_short hk, h.get]
  · rw [if_neg hk]
    exact Trie.lookupFrom_long (by omega) t 0 (by omega)

theorem lossy_inserts : ∀ (ops : List (Op (List Byte) V)) (m : List Byte → Option V), InsertsOnly ops →
    lossyRun m ops = run m ops
  | [], _, _ => rfl
  | .insert k v :: ops, m, h => lossy_inserts ops _ (fun op hop => h op (List.mem_cons_of_mem _ hop))
  | .erase k :: ops, m, h => by
    obtain ⟨_, _, h⟩ := h (.erase k) (by simp)
    exact absurd h (by simp)

/-! ## C25 -/

/-- C25. After any sequence of inserts, `lookup` of a key of fewer than 256 bytes finds exactly the value
that was inserted last, and nothing for keys that were not inserted.  (`some none` would be a found but
unwritten value.) -/
theorem C25_insert_lookup (ops : List (Op (List Byte) V)) (ho : InsertsOnly ops) (k : List Byte)
    (hk : k.length < 256) : (execAll Trie.new ops).2.lookup k = (run empty ops k).map some := by
  rw [(stores_all ops _ _ stores_new).2.lookup, if_pos hk, lossy_inserts ops _ ho]

/-- C25, the results: `insert` returns true exactly for keys that were not there. -/
theorem C25_insert_new (ops : List (Op (List Byte) V)) (ho : InsertsOnly ops) (k : List Byte) (v : V) :
    (exec (execAll Trie.new ops).2 (.insert k v)).1 = (run empty ops k).isNone := by
  rw [(stores_step (stores_all ops _ _ stores_new).2 (.insert k v)).1, lossy_inserts ops _ ho]
  rfl

/-- The bound on the key length is needed: a key of 256 bytes or more is never found, because the loop
counter of `lookup` has only eight bits. -/
theorem C25_long_keys_missed (ops : List (Op (List Byte) V)) (k : List Byte) (hk : 256 ≤ k.length) :
    (execAll Trie.new ops).2.lookup k = none := by
  rw [(stores_all ops _ _ stores_new).2.lookup, if_neg (by omega)]

/-- `a`, `ab`, `abc`, `b`, with one key overwritten. -/
def nested : List (Op (List Byte) Nat) :=
  [.insert [97] 1, .insert [97, 98] 2, .insert [97, 98, 99] 3, .insert [98] 4, .insert [97] 5, .insert [] 6]

example : InsertsOnly nested ∧ run empty nested [97] = some 5 ∧ run empty nested [97, 98] = some 2 ∧
    run empty nested [99] = none := by
  refine ⟨?_, by decide, by decide, by decide⟩
  intro op h
  simp only [nested, List.mem_cons, List.not_mem_nil, or_false] at h
  rcases h with rfl | rfl | rfl | rfl | rfl | rfl <;> exact ⟨_, _, rfl⟩

/-! ## C26 -/

/-- C26 in full: after any history, `remove(k)` returns whether `k` was found, and changes the lookup of no
other key. -/
def C26_statement (V : Type) : Prop :=
  ∀ (ops : List (Op (List Byte) V)) (k : List Byte), k.length < 256 →
    let t := (execAll Trie.new ops).2
    (t.remove k).1 = (t.lookup k).isSome ∧ (t.remove k).2.lookup k = none ∧
      ∀ x, x ≠ k → x.length < 256 → (t.remove k).2.lookup x = t.lookup x

/-- C26 is false: removing `ab` also removes `a`. -/
theorem C26_refuted : ¬ C26_statement Nat := by
  intro h
  have h1 := (h [.insert [97] 1, .insert [97, 98] 2] [97, 98] (by decide)).2.2 [97] (by decide) (by decide)
  revert h1
  decide +kernel

/-- C26, what is true in general: after any history of inserts and removes, `remove(k)` of an absent key
returns false and changes nothing; of a stored key it returns true and makes `lookup` fail exactly for `k`
and for the non-empty prefixes of `k` whose stored continuations are all prefixes of `k`.  Missing: those
prefixes, for which the claim is false. -/
theorem C26_remove_partial (ops : List (Op (List Byte) V)) (k : List Byte) (hk : k.length < 256) :
    let t := (execAll Trie.new ops).2
    (t.remove k).1 = (t.lookup k).isSome ∧ (t.remove k).2.lookup k = none ∧
      ∀ x, x ≠ k → x.length < 256 →
        (¬ (t.lookup k ≠ none ∧ x ≠ [] ∧ x <+: k ∧ ∀ y, y.length < 256 → t.lookup y ≠ none → x <+: y → y <+: k) →
          (t.remove k).2.lookup x = t.lookup x) := by
  intro t
  have hst : Stores t (lossyRun empty ops) := (stores_all ops _ _ stores_new).2
  generalize lossyRun empty ops = m at hst
  obtain ⟨h1, h2⟩ := stores_step hst (.erase k)
  have e1 : (t.remove k).1 = (m k).isSome := h1
  have h2 : Stores (t.remove k).2 (lossyStep m (.erase k)) := h2
  refine ⟨?_, ?_, fun x hx hxl hn => ?_⟩
  · rw [e1, hst.lookup, if_pos hk]; cases m k <;> rfl
  · rw [h2.lookup, if_pos hk, lossyStep]
    dsimp only
    by_cases hmk : m k = none
    · rw [if_neg (fun hc => hc.1 hmk), hmk]; rfl
    · rw [if_pos ⟨hmk, Or.inl rfl⟩]; rfl
  · rw [h2.lookup, hst.lookup, if_pos hxl, if_pos hxl, lossyStep]
    dsimp only
    by_cases hl : m k ≠ none ∧ Lost m k x
    · by_cases hmx : m x = none
      · rw [if_pos hl, hmx]
      · exfalso
        apply hn
        obtain ⟨hmk, heq | ⟨ha, hb, hc⟩⟩ := hl
        · exact absurd heq hx
        refine ⟨by rw [hst.lookup, if_pos hk]; simpa using hmk, ha, hb, fun y hyl hy hxy => hc y ?_ hxy⟩
        rw [hst.lookup, if_pos hyl] at hy
        simpa using hy
    · rw [if_neg hl]

/-- C26, all results of a history (including keys of 256 bytes and more, which `remove` handles). -/
theorem C26_history_partial (ops : List (Op (List Byte) V)) :
    (execAll Trie.new ops).1 = lossyResults empty ops ∧
      ∀ k, k.length < 256 → (execAll Trie.new ops).2.lookup k = (lossyRun empty ops k).map some := by
  obtain ⟨h1, h2⟩ := stores_all ops _ _ (stores_new (V := V))
  exact ⟨h1, fun k hk => by rw [h2.lookup, if_pos hk]⟩

theorem lossy_prefixFree : ∀ (ops : List (Op (List Byte) V)) (m : List Byte → Option V), PrefixFree m ops →
    lossyRun m ops = run m ops
  | [], _, _ => rfl
  | .insert k v :: ops, m, h => lossy_prefixFree ops _ h
  | .erase k :: ops, m, h => by
    have : lossyStep m (.erase k) = step m (.erase k) := by
      funext x
      simp only [lossyStep, step]
      by_cases hx : x = k
      · subst hx
        by_cases hm : m x = none
        · rw [if_neg (fun hc => hc.1 hm), if_pos rfl, hm]
        · rw [if_pos ⟨hm, Or.inl rfl⟩, if_pos rfl]
      · rw [if_neg hx]
        by_cases hl : m k ≠ none ∧ Lost m k x
        · rw [if_pos hl]
          rcases hl.2 with he | ⟨h1, h2, _⟩
          · exact absurd he hx
          · exact (h.1 x h1 hx h2).symm
        · rw [if_neg hl]
    rw [lossyRun, this, run]
    exact lossy_prefixFree ops _ h.2

/-- C26 for histories in which no removed key has a stored non-empty proper prefix: the trie is a map. -/
theorem C26_prefix_free_partial (ops : List (Op (List Byte) V)) (hp : PrefixFree empty ops) (k : List Byte)
    (hk : k.length < 256) : (execAll Trie.new ops).2.lookup k = (run empty ops k).map some := by
  rw [(stores_all ops _ _ stores_new).2.lookup, if_pos hk, lossy_prefixFree ops _ hp]

/-- `ab` and `ac`; then `ab` is removed. -/
example : PrefixFree empty [Op.insert [97, 98] 1, .insert [97, 99] 2, .erase ([97, 98] : List Byte)] ∧
    run empty [Op.insert [97, 98] 1, .insert [97, 99] 2, .erase ([97, 98] : List Byte)] [97, 99] = some 2 := by
  refine ⟨⟨fun x h1 h2 h3 => ?_, trivial⟩, by decide⟩
  simp only [step, empty]
  rw [if_neg, if_neg h2]
  rintro rfl
  exact absurd h3 (by decide)

/-- A prefix that survives because of another key: `a`, `ab`, `ac`, remove `ab`. -/
example : (execAll Trie.new [Op.insert [97] 1, .insert [97, 98] 2, .insert [97, 99] 3, .erase ([97, 98] : List Byte)]).2.lookup
    [97] = some (some 1) := by decide +kernel

/-! ## C54 -/

/-- C54. After any history of inserts and removes, `subNodes()` is the number of different prefixes
(including the empty one, for the root) of the stored keys. -/
theorem C54_subNodes (ops : List (Op (List Byte) V)) :
    (execAll Trie.new ops).2.subNodes =
      Set.ncard {p : List Byte | p = [] ∨ ∃ k, lossyRun (V := V) empty ops k ≠ none ∧ p <+: k} := by
  have h := (stores_all ops _ _ (stores_new (V := V))).2
  rw [Trie.subNodes_eq _ h.ok, ← Set.ncard_coe_finset]
  congr 1
  ext p
  rw [Finset.mem_coe, Trie.mem_paths p _ h.root h.ok]
  simp only [h.get, Set.mem_ofPred_eq, ne_eq, Option.map_eq_none_iff]

/-- The prefixes of `a`, `ab`, `abc`, `b`. -/
example : (execAll Trie.new nested).2.subNodes = 5 := by decide +kernel

end Verif.BaseTrieProps
