import Verif.BaseTrie.Model
import Verif.BaseTrie.Spec
import Mathlib.Data.Finset.Card
import Mathlib.Data.Fintype.Basic
import Mathlib.Data.Fintype.Card
import Mathlib.Algebra.BigOperators.Group.Finset.Basic
import Mathlib.Algebra.Order.BigOperators.Group.Finset
import Mathlib.Algebra.BigOperators.Fin

/-!
# The invariant of the trie and the effect of its operations on the stored keys
-/

namespace Verif.BaseTrie

open Verif.TrieSpec

variable {V : Type}

namespace Trie

/-- The value stored for a key, read by recursion on the key. -/
def get : Trie V → List Byte → Option (Option V)
  | null, _ => none
  | node iv v _ _, [] => if iv then some v else none
  | node _ _ _ kids, b :: k => get (kids b) k

@[simp] theorem get_null (k : List Byte) : get (null : Trie V) k = none := by cases k <;> rfl

theorem lookupFrom_short {key : List Byte} (hk : key.length < 256) : ∀ (t : Trie V) (i : Nat), i ≤ key.length →
    lookupFrom key t i = get t (key.drop i)
  | null, _, _ => by simp [lookupFrom]
  | node iv v s kids, i, hi => by
    rw [lookupFrom]
    by_cases h : i < key.length
    · rw [dif_pos h, Nat.mod_eq_of_lt (by omega), lookupFrom_short hk (kids key[i]) (i + 1) h,
        List.drop_eq_getElem_cons h]
      rfl
    · rw [dif_neg h, List.drop_eq_nil_of_le (by omega)]
      rfl

theorem lookup_short {key : List Byte} (hk : key.length < 256) (t : Trie V) : lookup t key = get t key := by
  rw [lookup, lookupFrom_short hk t 0 (by omega), List.drop_zero]

theorem lookupFrom_long {key : List Byte} (hk : 256 ≤ key.length) : ∀ (t : Trie V) (i : Nat), i < 256 →
    lookupFrom key t i = none
  | null, _, _ => rfl
  | node iv v s kids, i, hi => by
    rw [lookupFrom, dif_pos (by omega)]
    exact lookupFrom_long hk _ _ (Nat.mod_lt _ (by omega))

theorem isNull_iff {t : Trie V} : t.isNull = true ↔ t = null := by cases t <;> simp [isNull]

/-- The number of children. -/
def nk (kids : Byte → Trie V) : Nat := (Finset.univ.filter fun b => (kids b).isNull = false).card

theorem nk_le (kids : Byte → Trie V) : nk kids ≤ 256 := by
  unfold nk
  exact (Finset.card_le_univ _).trans (by simp)

theorem setKid_eq (kids : Byte → Trie V) (b : Byte) (t : Trie V) : setKid kids b t b = t := by simp [setKid]

theorem setKid_ne (kids : Byte → Trie V) {b c : Byte} (t : Trie V) (h : c ≠ b) : setKid kids b t c = kids c := by
  simp [setKid, h]

theorem setKid_self (kids : Byte → Trie V) (b : Byte) : setKid kids b (kids b) = kids := by
  funext x
  by_cases h : x = b
  · rw [h, setKid_eq]
  · rw [setKid_ne _ _ h]

theorem nk_replace (kids : Byte → Trie V) (b : Byte) (t : Trie V) (h : (kids b).isNull = t.isNull) :
    nk (setKid kids b t) = nk kids := by
  unfold nk
  congr 1
  ext x
  simp only [Finset.mem_filter, Finset.mem_univ, true_and]
  by_cases hx : x = b
  · rw [hx, setKid_eq, h]
  · rw [setKid_ne _ _ hx]

theorem nk_add (kids : Byte → Trie V) (b : Byte) (t : Trie V) (h : (kids b).isNull = true) (ht : t.isNull = false) :
    nk (setKid kids b t) = nk kids + 1 := by
  unfold nk
  have : (Finset.univ.filter fun x => (setKid kids b t x).isNull = false) =
      Insert.insert b (Finset.univ.filter fun x => (kids x).isNull = false) := by
    ext x
    simp only [Finset.mem_filter, Finset.mem_univ, true_and, Finset.mem_insert]
    by_cases hx : x = b
    · rw [hx, setKid_eq]; simp [ht]
    · rw [setKid_ne _ _ hx]; simp [hx]
  rw [this, Finset.card_insert_of_notMem (by simp [h])]

theorem nk_del (kids : Byte → Trie V) (b : Byte) (h : (kids b).isNull = false) :
    nk (setKid kids b null) + 1 = nk kids := by
  have := nk_add (setKid kids b null) b (kids b) (by rw [setKid_eq]; rfl) h
  rw [← this]
  congr 1
  funext x
  by_cases hx : x = b
  · rw [hx, setKid_eq]
  · rw [setKid_ne _ _ hx, setKid_ne _ _ hx]

theorem nk_zero {kids : Byte → Trie V} : nk kids = 0 ↔ ∀ b, kids b = null := by
  unfold nk
  rw [Finset.card_eq_zero, Finset.filter_eq_empty_iff]
  constructor
  · intro h b
    have := h (Finset.mem_univ b)
    rw [Bool.not_eq_false] at this
    exact isNull_iff.1 this
  · intro h b _
    rw [h b]; simp [isNull]

/-- A node below the root stores some key. -/
def Live (t : Trie V) : Prop := t = null ∨ ∃ x, get t x ≠ none

/-- The invariant: `mSize` is the number of children, values are written, and every child stores a key. -/
def Ok : Trie V → Prop
  | null => True
  | node iv v s kids => s = nk kids ∧ (iv = true → v ≠ none) ∧ ∀ b, Ok (kids b) ∧ Live (kids b)

theorem ok_new : Ok (new : Trie V) :=
  ⟨(nk_zero.2 fun _ => rfl).symm, by simp, fun _ => ⟨trivial, Or.inl rfl⟩⟩

theorem get_new (x : List Byte) : get (new : Trie V) x = none := by
  cases x with
  | nil => rfl
  | cons b x => exact get_null x

/-- Stored values are written values. -/
theorem get_ne_none : ∀ {t : Trie V} (x : List Byte), Ok t → get t x ≠ some none
  | null, x, _ => by simp
  | node iv v s kids, [], h => by
    unfold get
    split
    · next hiv => simpa using h.2.1 hiv
    · simp
  | node iv v s kids, b :: x, h => get_ne_none x (h.2.2 b).1

/-! ## `insert` -/

theorem insert_spec : ∀ (k : List Byte) (t : Trie V) (v : V), t.isNull = false → Ok t →
    (insert t k v).1 = (get t k).isNone ∧ (insert t k v).2.isNull = false ∧ Ok (insert t k v).2 ∧
      ∀ x, get (insert t k v).2 x = if x = k then some (some v) else get t x
  | _, null, _, hn, _ => absurd hn (by simp [isNull])
  | [], node iv w s kids, v, _, h => by
    refine ⟨?_, rfl, ⟨h.1, by simp, h.2.2⟩, fun x => ?_⟩
    · unfold insert get; cases iv <;> rfl
    · cases x with
      | nil => simp [insert, get]
      | cons b x => simp [insert, get]
  | b :: k, node iv w s kids, v, _, h => by
    have key : ∀ (child : Trie V) (s' : Nat), child.isNull = false → Ok child →
        (∀ x, get child x = get (kids b) x) →
        s' = nk (setKid kids b (insert child k v).2) →
        (insert child k v).1 = (get (kids b) k).isNone ∧
        Ok (node iv w s' (setKid kids b (insert child k v).2)) ∧
        ∀ x, get (node iv w s' (setKid kids b (insert child k v).2)) x =
          if x = b :: k then some (some v) else get (node iv w s kids) x := by
      intro child s' hc hok hget hs
      obtain ⟨h1, h2, h3, h4⟩ := insert_spec k child v hc hok
      refine ⟨by rw [h1, hget], ⟨hs, h.2.1, fun c => ?_⟩, fun x => ?_⟩
      · by_cases hcb : c = b
        · rw [hcb, setKid_eq]
          exact ⟨h3, Or.inr ⟨k, by rw [h4, if_pos rfl]; simp⟩⟩
        · rw [setKid_ne _ _ hcb]; exact h.2.2 c
      · cases x with
        | nil => simp [get]
        | cons c x =>
          simp only [get, List.cons.injEq]
          by_cases hcb : c = b
          · subst hcb
            rw [setKid_eq, h4, hget]
            simp
          · rw [setKid_ne _ _ hcb, if_neg (by simp [hcb])]
    unfold insert
    cases hk : kids b with
    | null =>
      have hnn : (kids b).isNull = true := by rw [hk]; rfl
      obtain ⟨_, h2, _, _⟩ := insert_spec k (new : Trie V) v rfl ok_new
      obtain ⟨a1, a2, a3⟩ := key new (u16 (s + 1)) rfl ok_new (fun x => by rw [get_new, hk, get_null]) (by
        rw [nk_add _ _ _ hnn h2, h.1, u16]
        have := nk_le kids
        omega)
      refine ⟨?_, rfl, a2, a3⟩
      dsimp only
      rw [a1]; rfl
    | node iv' w' s'' kids' =>
      have hnn : (node iv' w' s'' kids').isNull = false := rfl
      have hok := (h.2.2 b).1
      rw [hk] at hok
      obtain ⟨_, h2, _, _⟩ := insert_spec k _ v hnn hok
      obtain ⟨a1, a2, a3⟩ := key (node iv' w' s'' kids') s hnn hok (fun x => by rw [hk]) (by
        rw [nk_replace _ _ _ (by rw [h2, hk]; rfl)]; exact h.1)
      refine ⟨?_, rfl, a2, a3⟩
      dsimp only
      rw [a1]; rfl

/-! ## `remove` -/

theorem size_zero {t : Trie V} (h : Ok t) (hn : t.isNull = false) : t.size = 0 ↔ ∀ x, x ≠ [] → get t x = none := by
  cases t with
  | null => exact absurd hn (by simp [isNull])
  | node iv v s kids =>
    rw [size, h.1, nk_zero]
    constructor
    · intro hk x hx
      cases x with
      | nil => exact absurd rfl hx
      | cons b x => rw [get, hk b, get_null]
    · intro hg b
      rcases (h.2.2 b).2 with hl | ⟨x, hx⟩
      · exact hl
      · exact absurd (hg (b :: x) (by simp)) hx

theorem remove_spec : ∀ (k : List Byte) (t : Trie V), t.isNull = false → Ok t →
    (remove t k).1 = (get t k).isSome ∧ (remove t k).2.isNull = false ∧
    ((get t k).isSome = false → (remove t k).2 = t) ∧ Ok (remove t k).2 ∧
    ((get t k).isSome = true → (∀ x, Lost (get t) k x → get (remove t k).2 x = none) ∧
      ∀ x, ¬ Lost (get t) k x → get (remove t k).2 x = get t x)
  | _, null, hn, _ => absurd hn (by simp [isNull])
  | [], node iv v s kids, _, h => by
    refine ⟨?_, rfl, ?_, ⟨h.1, by simp, h.2.2⟩, fun _ => ⟨?_, ?_⟩⟩
    · unfold remove get; cases iv <;> rfl
    · unfold remove get; cases iv <;> simp
    · rintro x (rfl | ⟨h1, h2, _⟩)
      · rfl
      · exact absurd (List.prefix_nil.1 h2) h1
    · intro x hx
      cases x with
      | nil => exact absurd (Or.inl rfl) hx
      | cons b x => rfl
  | b :: k, node iv v s kids, _, h => by
    unfold remove
    cases hk : kids b with
    | null =>
      have hg : get (node iv v s kids) (b :: k) = none := by rw [get, hk, get_null]
      rw [hg]
      exact ⟨rfl, rfl, fun _ => rfl, h, by simp⟩
    | node iv' v' s' kids' =>
      dsimp only
      rw [← hk]
      have hnn : (kids b).isNull = false := by rw [hk]; rfl
      obtain ⟨r1, r2, r3, r4, r5⟩ := remove_spec k (kids b) hnn (h.2.2 b).1
      have hg : get (node iv v s kids) (b :: k) = get (kids b) k := rfl
      rw [hg]
      by_cases hs : (get (kids b) k).isSome = true
      · rw [r1, hs, Bool.true_and]
        obtain ⟨l1, l2⟩ := r5 hs
        -- lost below the child and lost below the node
        have hlost : ∀ x, x ≠ [] → (Lost (get (kids b)) k x ↔ Lost (get (node iv v s kids)) (b :: k) (b :: x)) := by
          intro x hx
          unfold Lost
          constructor
          · rintro (rfl | ⟨_, hp, hall⟩)
            · exact Or.inl rfl
            · refine Or.inr ⟨by simp, List.cons_prefix_cons.2 ⟨rfl, hp⟩, fun y hy hxy => ?_⟩
              cases y with
              | nil => exact absurd (List.prefix_nil.1 hxy) (by simp)
              | cons c y =>
                obtain ⟨hbc, hxy'⟩ := List.cons_prefix_cons.1 hxy
                subst hbc
                exact List.cons_prefix_cons.2 ⟨rfl, hall y hy hxy'⟩
          · rintro (heq | ⟨_, hp, hall⟩)
            · exact Or.inl (List.cons.inj heq).2
            · refine Or.inr ⟨hx, (List.cons_prefix_cons.1 hp).2, fun y hy hxy => ?_⟩
              exact (List.cons_prefix_cons.1 (hall (b :: y) hy (List.cons_prefix_cons.2 ⟨rfl, hxy⟩))).2
        have hother : ∀ x, (∀ x', x ≠ b :: x') → ¬ Lost (get (node iv v s kids)) (b :: k) x := by
          rintro x hx (heq | ⟨hne, hp, _⟩)
          · exact hx _ heq
          · cases x with
            | nil => exact hne rfl
            | cons c x => exact hx x (by rw [(List.cons_prefix_cons.1 hp).1])
        have hrest : ∀ (child : Trie V) (s' : Nat) x, (∀ x', x ≠ b :: x') →
            get (node iv v s' (setKid kids b child)) x = get (node iv v s kids) x := by
          intro child s' x hx
          cases x with
          | nil => rfl
          | cons c x =>
            have hcb : c ≠ b := by rintro rfl; exact hx x rfl
            rw [get, get, setKid_ne _ _ hcb]
        have hsplit : ∀ x : List Byte, (∃ x', x = b :: x') ∨ ∀ x', x ≠ b :: x' := by
          intro x
          by_cases hx : ∃ x', x = b :: x'
          · exact Or.inl hx
          · exact Or.inr (fun x' e => hx ⟨x', e⟩)
        by_cases hz : (remove (kids b) k).2.size = 0
        · have hz' := (size_zero r4 r2).1 hz
          rw [hz, beq_self_eq_true, if_pos rfl]
          have hall : ∀ x, Lost (get (node iv v s kids)) (b :: k) (b :: x) ∨ get (kids b) x = none := by
            intro x
            by_cases hx : x = []
            · subst hx
              left
              by_cases hkn : k = []
              · exact Or.inl (by rw [hkn])
              · refine Or.inr ⟨by simp, List.cons_prefix_cons.2 ⟨rfl, List.nil_prefix⟩, fun y hy hxy => ?_⟩
                cases y with
                | nil => exact absurd (List.prefix_nil.1 hxy) (by simp)
                | cons c y =>
                  obtain ⟨rfl, _⟩ := List.cons_prefix_cons.1 hxy
                  refine List.cons_prefix_cons.2 ⟨rfl, ?_⟩
                  by_cases hyn : y = []
                  · rw [hyn]; exact List.nil_prefix
                  · by_cases hl : Lost (get (kids b)) k y
                    · rcases hl with rfl | hl
                      · exact List.prefix_refl _
                      · exact hl.2.1
                    · have := l2 y hl
                      rw [hz' y hyn] at this
                      exact absurd this.symm hy
            · by_cases hl : Lost (get (kids b)) k x
              · exact Or.inl ((hlost x hx).1 hl)
              · right
                rw [← l2 x hl, hz' x hx]
          refine ⟨rfl, rfl, by simp, ⟨?_, h.2.1, fun c => ?_⟩, fun _ => ⟨?_, ?_⟩⟩
          · have := nk_del kids b hnn
            have h256 := nk_le kids
            rw [h.1, u16]
            omega
          · by_cases hcb : c = b
            · rw [hcb, setKid_eq]; exact ⟨trivial, Or.inl rfl⟩
            · rw [setKid_ne _ _ hcb]; exact h.2.2 c
          · intro x hx
            rcases hsplit x with ⟨x', rfl⟩ | hx'
            · rw [get, setKid_eq, get_null]
            · exact absurd hx (hother x hx')
          · intro x hx
            rcases hsplit x with ⟨x', rfl⟩ | hx'
            · rw [get, setKid_eq, get_null, get]
              rcases hall x' with h' | h'
              · exact absurd h' hx
              · exact h'.symm
            · exact hrest _ _ x hx'
        · have hb : ((remove (kids b) k).2.size == 0) = false := by simp [hz]
          rw [hb, if_neg (by simp)]
          have hz' : ∃ x0, x0 ≠ [] ∧ get (remove (kids b) k).2 x0 ≠ none := by
            by_contra hcon
            apply hz
            rw [size_zero r4 r2]
            intro x hx
            by_contra hne
            exact hcon ⟨x, hx, hne⟩
          obtain ⟨x0, hx0, hg0⟩ := hz'
          have hnl : ¬ Lost (get (kids b)) k x0 := fun hl => hg0 (l1 x0 hl)
          rw [l2 x0 hnl] at hg0
          have hnil : k ≠ [] → ¬ Lost (get (node iv v s kids)) (b :: k) [b] := by
            rintro hkn (heq | ⟨_, _, hall⟩)
            · exact hkn (List.cons.inj heq).2.symm
            · refine hnl (Or.inr ⟨hx0, ?_, fun y hy hxy => ?_⟩)
              · exact (List.cons_prefix_cons.1 (hall (b :: x0) hg0
                  (List.cons_prefix_cons.2 ⟨rfl, List.nil_prefix⟩))).2
              · exact (List.cons_prefix_cons.1 (hall (b :: y) hy
                  (List.cons_prefix_cons.2 ⟨rfl, List.nil_prefix⟩))).2
          refine ⟨rfl, rfl, by simp, ⟨?_, h.2.1, fun c => ?_⟩, fun _ => ⟨?_, ?_⟩⟩
          · rw [nk_replace _ _ _ (by rw [r2, hnn])]; exact h.1
          · by_cases hcb : c = b
            · rw [hcb, setKid_eq]
              exact ⟨r4, Or.inr ⟨x0, by rw [l2 x0 hnl]; exact hg0⟩⟩
            · rw [setKid_ne _ _ hcb]; exact h.2.2 c
          · intro x hx
            rcases hsplit x with ⟨x', rfl⟩ | hx'
            · rw [get, setKid_eq]
              by_cases hn : x' = []
              · subst hn
                by_cases hkn : k = []
                · exact l1 [] (Or.inl hkn.symm)
                · exact absurd hx (hnil hkn)
              · exact l1 x' ((hlost x' hn).2 hx)
            · exact absurd hx (hother x hx')
          · intro x hx
            rcases hsplit x with ⟨x', rfl⟩ | hx'
            · rw [get, setKid_eq, get]
              by_cases hn : x' = []
              · subst hn
                refine l2 [] ?_
                rintro (heq | ⟨hne, _⟩)
                · exact hx (Or.inl (by rw [heq]))
                · exact hne rfl
              · exact l2 x' (fun hl => hx ((hlost x' hn).1 hl))
            · exact hrest _ _ x hx'
      · rw [Bool.not_eq_true] at hs
        rw [r1, hs, Bool.false_and, if_neg (by simp), r3 hs, setKid_self]
        exact ⟨rfl, rfl, fun _ => rfl, h, by simp⟩

/-! ## `subNodes` -/

/-- The key prefixes that have a node. -/
def paths : Trie V → Finset (List Byte)
  | null => ∅
  | node _ _ _ kids => Insert.insert [] (Finset.univ.biUnion fun b => (paths (kids b)).map ⟨(b :: ·), List.cons_injective⟩)

theorem cons_mem_paths {iv : Bool} {v : Option V} {s : Nat} {kids : Byte → Trie V} {b : Byte} {p : List Byte} :
    b :: p ∈ paths (node iv v s kids) ↔ p ∈ paths (kids b) := by
  simp [paths]

theorem mem_paths : ∀ (p : List Byte) (t : Trie V), t.isNull = false → Ok t →
    (p ∈ paths t ↔ p = [] ∨ ∃ k, get t k ≠ none ∧ p <+: k)
  | _, null, hn, _ => absurd hn (by simp [isNull])
  | [], node iv v s kids, _, _ => by simp [paths]
  | b :: p, node iv v s kids, _, h => by
    rw [cons_mem_paths]
    by_cases hn : kids b = null
    · rw [hn, paths]
      simp only [Finset.notMem_empty, reduceCtorEq, false_or, false_iff]
      rintro ⟨k, hk, hp⟩
      cases k with
      | nil => exact absurd (List.prefix_nil.1 hp) (by simp)
      | cons c k =>
        obtain ⟨rfl, hp⟩ := List.cons_prefix_cons.1 hp
        exact hk (by rw [get, hn, get_null])
    · have hnn : (kids b).isNull = false := by
        rw [← Bool.not_eq_true, isNull_iff]; exact hn
      rw [mem_paths p (kids b) hnn (h.2.2 b).1]
      simp only [reduceCtorEq, false_or]
      constructor
      · rintro (rfl | ⟨k, hk, hp⟩)
        · rcases (h.2.2 b).2 with hl | ⟨x, hx⟩
          · exact absurd hl hn
          · exact ⟨b :: x, hx, List.cons_prefix_cons.2 ⟨rfl, List.nil_prefix⟩⟩
        · exact ⟨b :: k, hk, List.cons_prefix_cons.2 ⟨rfl, hp⟩⟩
      · rintro ⟨k, hk, hp⟩
        cases k with
        | nil => exact absurd (List.prefix_nil.1 hp) (by simp)
        | cons c k =>
          obtain ⟨hbc, hp'⟩ := List.cons_prefix_cons.1 hp
          subst hbc
          exact Or.inr ⟨k, hk, hp'⟩

theorem subLoop_eq (f : Byte → Nat) (nn : Byte → Bool) : ∀ (bs : List Byte) (c count size : Nat),
    size = c + bs.countP nn → (∀ b, nn b = false → f b = 0) →
    subLoop f nn size bs c count = count + (bs.map f).sum
  | [], _, _, _, _, _ => by simp [subLoop]
  | b :: bs, c, count, size, hs, hf => by
    rw [subLoop]
    by_cases hc : c = size
    · rw [if_pos hc]
      have h0 : (b :: bs).countP nn = 0 := by omega
      rw [List.countP_eq_zero] at h0
      have hz : ∀ x ∈ (b :: bs).map f, x = 0 := by
        intro x hx
        obtain ⟨y, hy, rfl⟩ := List.mem_map.1 hx
        have := h0 y hy
        rw [Bool.not_eq_true] at this
        exact hf y this
      have : ∀ l : List Nat, (∀ x ∈ l, x = 0) → l.sum = 0 := by
        intro l
        induction l with
        | nil => simp
        | cons a l ih =>
          intro h
          rw [List.sum_cons, h a (by simp), ih (fun x hx => h x (List.mem_cons_of_mem _ hx))]
      rw [this _ hz]; rfl
    · rw [if_neg hc, List.map_cons, List.sum_cons]
      rw [List.countP_cons] at hs
      by_cases hb : nn b = true
      · rw [if_pos hb] at hs
        rw [if_pos hb, subLoop_eq f nn bs (c + 1) (count + f b) size (by omega) hf]
        omega
      · rw [if_neg hb] at hs
        rw [if_neg hb, subLoop_eq f nn bs c count size (by omega) hf, hf b (by simpa using hb)]
        omega

theorem card_filter_fin (n : Nat) (p : Fin n → Bool) :
    (Finset.univ.filter fun b => p b = true).card = (List.finRange n).countP p := by
  have : (Finset.univ : Finset (Fin n)) = (List.finRange n).toFinset := by
    ext x; simp
  rw [this, List.countP_eq_length_filter, ← List.toFinset_card_of_nodup ((List.nodup_finRange n).filter _)]
  congr 1
  ext x
  simp

theorem sum_fin (n : Nat) (g : Fin n → Nat) : ((List.finRange n).map g).sum = ∑ b, g b := by
  rw [Fin.sum_univ_def]

theorem nk_countP (kids : Byte → Trie V) : nk kids = (List.finRange 256).countP (fun b => !(kids b).isNull) := by
  rw [← card_filter_fin]
  unfold nk
  congr 1
  ext x
  rw [Finset.mem_filter, Finset.mem_filter, Bool.not_eq_true']

theorem subNodes_eq : ∀ (t : Trie V), Ok t → subNodes t = (paths t).card
  | null, _ => rfl
  | node iv v s kids, h => by
    rw [subNodes, subLoop_eq _ _ _ _ _ _ (by rw [h.1, nk_countP, Nat.zero_add]) (by
      intro b hb
      have : (kids b).isNull = true := by simpa using hb
      rw [isNull_iff.1 this]; rfl), paths, Finset.card_insert_of_notMem (by simp), Finset.card_biUnion]
    · rw [sum_fin, Nat.zero_add]
      refine congrArg (· + 1) (Finset.sum_congr rfl (fun b _ => ?_))
      rw [Finset.card_map]
      exact subNodes_eq (kids b) (h.2.2 b).1
    · intro b _ c _ hbc
      rw [Function.onFun, Finset.disjoint_left]
      intro p hp hq
      rw [Finset.mem_map] at hp hq
      obtain ⟨x, _, rfl⟩ := hp
      obtain ⟨y, _, he⟩ := hq
      exact hbc (List.cons.inj he).1.symm

end Trie

end Verif.BaseTrie
