import Verif.BaseTrie.Props

/-!
# Crashes during a `BaseTrieNode` insert

`insert` (BaseTrie.hpp:76-104) is not one transaction: every missing node is created in a transaction of its
own (89-92), and the value is written in a last one (99-102).  With all-or-nothing transactions
(`Verif.Tx.Props`) a crash leaves the trie after some number of iterations of the loop, or after the insert.
-/

namespace Verif.BaseTrie

variable {V : Type}

namespace Trie

/-- 84-95: the trie after `n` iterations of the loop (all of them when `n` is larger than the key). -/
def path : Trie V → List Byte → Nat → Trie V
  | t, _, 0 => t
  | t, [], _ + 1 => t
  | null, _ :: _, _ + 1 => null
  | node iv w s kids, b :: k, n + 1 =>
    match kids b with
    | null => node iv w (u16 (s + 1)) (setKid kids b (path new k n))
    | child => node iv w s (setKid kids b (path child k n))

theorem setKid_setKid (kids : Byte → Trie V) (b : Byte) (t u : Trie V) :
    setKid (setKid kids b t) b u = setKid kids b u := by
  funext x
  unfold setKid
  by_cases h : x = b <;> simp [h]

theorem path_isNull (k : List Byte) (n : Nat) : ∀ t : Trie V, (path t k n).isNull = t.isNull := by
  intro t
  cases n with
  | zero => cases k <;> cases t <;> rfl
  | succ n =>
    cases k with
    | nil => cases t <;> rfl
    | cons b k =>
      cases t with
      | null => rfl
      | node iv w s kids =>
        rw [path]
        split <;> rfl

theorem get_path : ∀ (k : List Byte) (n : Nat) (t : Trie V) (x : List Byte), get (path t k n) x = get t x
  | k, 0, t, x => by rw [path]
  | [], _ + 1, t, x => by rw [path]
  | b :: k, n + 1, null, x => by rw [path]
  | b :: k, n + 1, node iv w s kids, x => by
    rw [path]
    cases x with
    | nil => split <;> rfl
    | cons a x =>
      split
      · rename_i hb
        show get (setKid kids b _ a) x = get (kids a) x
        by_cases h : a = b
        · subst h; rw [setKid_eq, get_path k n new x, hb, get_new, get_null]
        · rw [setKid_ne _ _ h]
      · show get (setKid kids b _ a) x = get (kids a) x
        by_cases h : a = b
        · subst h; rw [setKid_eq, get_path k n (kids a) x]
        · rw [setKid_ne _ _ h]

theorem lookupFrom_path (key k : List Byte) : ∀ (n : Nat) (t : Trie V) (i : Nat),
    lookupFrom key (path t k n) i = lookupFrom key t i := by
  have hnew : ∀ i, lookupFrom key (new : Trie V) i = none := by
    intro i
    unfold new
    rw [lookupFrom]
    split
    · rw [lookupFrom]
    · simp
  induction k with
  | nil => intro n t i; cases n <;> rw [path]
  | cons b k ih =>
    intro n t i
    cases n with
    | zero => rw [path]
    | succ n =>
      cases t with
      | null => rw [path]
      | node iv w s kids =>
        rw [path]
        split
        · rename_i hb
          rw [lookupFrom, lookupFrom]
          by_cases hi : i < key.length
          · rw [dif_pos hi, dif_pos hi]
            by_cases h : key[i] = b
            · rw [h, setKid_eq, ih, hb, hnew, lookupFrom]
            · rw [setKid_ne _ _ h]
          · rw [dif_neg hi, dif_neg hi]
        · rw [lookupFrom, lookupFrom]
          by_cases hi : i < key.length
          · rw [dif_pos hi, dif_pos hi]
            by_cases h : key[i] = b
            · rw [h, setKid_eq, ih]
            · rw [setKid_ne _ _ h]
          · rw [dif_neg hi, dif_neg hi]

theorem insert_path (v : V) : ∀ (k : List Byte) (n : Nat) (t : Trie V), insert (path t k n) k v = insert t k v
  | k, 0, t => by rw [path]
  | [], _ + 1, t => by rw [path]
  | b :: k, n + 1, null => by rw [path]
  | b :: k, n + 1, node iv w s kids => by
    rw [path]
    have key : ∀ (s' : Nat) (c : Trie V), c.isNull = false →
        insert (node iv w s' (setKid kids b (path c k n))) (b :: k) v =
          ((insert c k v).1, node iv w s' (setKid kids b (insert c k v).2)) := by
      intro s' c hc
      rw [insert]
      split
      · rename_i hn
        rw [setKid_eq] at hn
        have := path_isNull k n c
        rw [hn, hc] at this
        cases this
      · dsimp only
        rw [setKid_eq, setKid_setKid, insert_path v k n c]
    split
    · rename_i hb
      rw [key _ new rfl]
      conv => rhs; rw [insert]
      rw [hb]
    · rename_i hb
      have hc : (kids b).isNull = false := by
        cases h : kids b with
        | null => exact absurd h hb
        | node => rfl
      rw [key _ _ hc]
      conv => rhs; rw [insert]
      split
      · rename_i h; exact absurd h hb
      · rfl

end Trie

open Trie

/-- The tries a crash during `insert(k, v)` may leave. -/
def CrashInsert (t : Trie V) (k : List Byte) (v : V) (t' : Trie V) : Prop :=
  (∃ n, t' = t.path k n) ∨ t' = (t.insert k v).2

/-- **C58.** After a crash at any point of an insert, either every lookup answers as before the insert and the
insert can be repeated with the same result and the same trie, or every lookup answers as after it. -/
theorem C58_crash_insert (t t' : Trie V) (k : List Byte) (v : V) (h : CrashInsert t k v t') :
    ((∀ x, t'.lookup x = t.lookup x) ∧ t'.insert k v = t.insert k v) ∨
      ∀ x, t'.lookup x = (t.insert k v).2.lookup x := by
  rcases h with ⟨n, rfl⟩ | rfl
  · exact Or.inl ⟨fun x => lookupFrom_path x k n t 0, insert_path v k n t⟩
  · exact Or.inr fun _ => rfl

/-- A crash after two nodes of `abc` have been created: `subNodes` counts them, lookups do not see them. -/
example : let t : Trie Nat := (Trie.new.insert [97] 1).2
    CrashInsert t [97, 98, 99] 5 (t.path [97, 98, 99] 2) ∧ t.subNodes = 2 ∧ (t.path [97, 98, 99] 2).subNodes = 3 ∧
      (t.path [97, 98, 99] 2).lookup [97, 98] = none ∧ (t.path [97, 98, 99] 2).lookup [97] = some (some 1) := by
  refine ⟨Or.inl ⟨2, rfl⟩, ?_⟩
  decide +kernel

end Verif.BaseTrie
