import Verif.BTree.Iter

/-!
# Shape of a tree: balance, occupancy, separators

`Shape` is stated on the raw arrays of the nodes.
-/

set_option linter.unusedSectionVars false

namespace Verif.BTree

open Verif Assoc
open Verif.Slots hiding none

variable {K V : Type} [LinearOrder K]

/-- The keys stored in the leaves below a node. -/
def storedKeys (h : Heap (SLeaf K V)) : (d : Nat) → Tree K d → List K
  | 0, id => match h.data id with
    | some l => (List.range l.num).filterMap l.keys
    | none => []
  | d + 1, n => (List.range (n.num + 1)).flatMap fun i => match n.kids i with
    | some c => storedKeys h d c
    | none => []

/-- Occupancy and ordering of a tree of height `d`; `bmin`, `lmin` are the minimal occupancies of a
branch node and a leaf other than the root.  A tree of height `d` has all its leaves `d` levels below
the root. -/
def Shape (N M bmin lmin : Nat) (h : Heap (SLeaf K V)) : (d : Nat) → Bool → Tree K d → Prop
  | 0, root, id => ∃ l, h.data id = some l ∧ l.num ≤ M ∧ (root = false → lmin ≤ l.num) ∧
      (∀ i, i < l.num → ∃ k v, l.keys i = some k ∧ l.vals i = some v) ∧
      (∀ i j a b, i < j → j < l.num → l.keys i = some a → l.keys j = some b → a < b)
  | d + 1, root, n => n.num ≤ N ∧ 1 ≤ n.num ∧ (root = false → bmin ≤ n.num) ∧
      (∀ i, i ≤ n.num → ∃ c, n.kids i = some c ∧ Shape N M bmin lmin h d false c) ∧
      (∀ i, i < n.num → ∃ s, n.keys i = some s ∧
        (∀ j c, j ≤ i → n.kids j = some c → ∀ x ∈ storedKeys h d c, x < s) ∧
        (∀ j c, i < j → j ≤ n.num → n.kids j = some c → ∀ x ∈ storedKeys h d c, s ≤ x))

variable {c : SCfg K V} {lm bm : Nat}

theorem LRep.storedKeys {M : Nat} {l : SLeaf K V} {es : List (K × V)} (h : LRep M l es) :
    (List.range l.num).filterMap l.keys = es.map (·.1) := by
  have := filterMap_range_rep h.keys
  rw [List.length_map, ← h.num] at this
  exact this

theorem mem_storedKeys_node {h : Heap (SLeaf K V)} {N d : Nat} {n : BNode K (Tree K d)}
    {cs : List (Tree K d)} {ks : List K} (hr : NodeRep N n cs ks) {x : K}
    (hx : x ∈ storedKeys h (d + 1) n) : ∃ y ∈ cs, x ∈ storedKeys h d y := by
  rw [storedKeys, List.mem_flatMap] at hx
  obtain ⟨i, hi, hx⟩ := hx
  have hlen := hr.len
  have hnum := hr.num
  have hi' : i < cs.length := by rw [List.mem_range] at hi; omega
  have hk := hr.kids.get hi'
  rw [hk] at hx
  exact ⟨cs[i], List.getElem_mem hi', hx⟩

theorem Bt.storedKeys_bounds (C : CfgLaws c) {h : Heap (SLeaf K V)} :
    ∀ (d top : Nat) (t : Tree K d) (lo hi : Bd K), Bt (sortedLaws C) tt lm bm h d top t lo hi →
    ∀ x ∈ storedKeys h d t, InR lo hi x := by
  intro d
  induction d with
  | zero =>
    intro top t lo hi ⟨_, l, hl, ⟨es, hes⟩, _, hb, _⟩ x hx
    simp only [storedKeys, hl] at hx
    rw [hes.storedKeys] at hx
    obtain ⟨e, he, rfl⟩ := List.mem_map.1 hx
    change ∀ e ∈ l.abs, _ at hb
    rw [hes.abs] at hb
    exact hb e he
  | succ d ih =>
    intro top n lo hi ⟨cs, ks, hr, _, ht⟩ x hx
    obtain ⟨y, hy, hxy⟩ := mem_storedKeys_node hr hx
    have : ∀ {cs : List (Tree K d)} {bs : List (Bd K)},
        Tile (Bt (sortedLaws C) tt lm bm h d (occ lm bm d)) cs bs → (∀ b ∈ bs, lo ≤ b ∧ b ≤ hi) →
        ∀ y ∈ cs, x ∈ storedKeys h d y → InR lo hi x := by
      intro cs
      induction cs with
      | nil => intro _ _ _ y hy; simp at hy
      | cons z cs ihc =>
        intro bs ht hb y hy hx
        match bs, ht with
        | b0 :: b1 :: bs, ht =>
          rcases List.mem_cons.1 hy with hy | hy
          · subst hy
            have := ih _ y b0 b1 ht.1 x hx
            exact ⟨le_trans (hb b0 (by simp)).1 this.1, lt_of_lt_of_le this.2 (hb b1 (by simp)).2⟩
          · exact ihc ht.2 (fun b hb' => hb b (List.mem_cons_of_mem _ hb')) y hy hx
    refine this ht (fun b hb => ?_) y hy hxy
    have hlt := (Bt.lt (show Bt (sortedLaws C) tt lm bm h (d + 1) 0 n lo hi from ⟨cs, ks, hr, Nat.zero_le _, ht⟩))
    obtain ⟨_, h1, h2⟩ := keys_sorted (fun c a b hc => Bt.lt hc) ht
    simp only [bnds, List.mem_cons, List.mem_append, List.mem_map, List.not_mem_nil, or_false] at hb
    rcases hb with rfl | ⟨k, hk, rfl⟩ | rfl
    · exact ⟨le_rfl, hlt.le⟩
    · exact ⟨(h1 k hk).le, (h2 k hk).le⟩
    · exact ⟨hlt.le, le_rfl⟩

theorem Tile.mem_le {T : Type} {P : T → Bd K → Bd K → Prop} {cs : List T} {lo hi : Bd K} {ks : List K}
    (ht : Tile P cs (bnds lo ks hi)) (hP : ∀ c a b, P c a b → a < b) :
    ∀ x ∈ cs, ∃ a b, P x a b ∧ lo ≤ a ∧ b ≤ hi := by
  intro x hx
  have hs := Tile.sorted hP ht
  have hlo : ∀ b ∈ bnds lo ks hi, lo ≤ b := by
    unfold bnds at hs ⊢
    rw [List.pairwise_cons] at hs
    intro b hb
    rcases List.mem_cons.1 hb with hb | hb
    · exact hb.ge
    · exact (hs.1 b hb).le
  have hhi : ∀ b ∈ bnds lo ks hi, b ≤ hi := by
    unfold bnds at hs ⊢
    rw [← List.cons_append, List.pairwise_append] at hs
    intro b hb
    rw [← List.cons_append, List.mem_append] at hb
    rcases hb with hb | hb
    · exact (hs.2.2 b hb hi (by simp)).le
    · simp at hb; exact hb.le
  have : ∀ {cs : List T} {bs : List (Bd K)}, Tile P cs bs → (∀ b ∈ bs, lo ≤ b) → (∀ b ∈ bs, b ≤ hi) →
      ∀ x ∈ cs, ∃ a b, P x a b ∧ lo ≤ a ∧ b ≤ hi := by
    intro cs
    induction cs with
    | nil => intro _ _ _ _ x hx; simp at hx
    | cons z cs ihc =>
      intro bs ht h1 h2 x hx
      match bs, ht with
      | b0 :: b1 :: bs, ht =>
        rcases List.mem_cons.1 hx with hx | hx
        · subst hx; exact ⟨b0, b1, ht.1, h1 b0 (by simp), h2 b1 (by simp)⟩
        · exact ihc ht.2 (fun b hb => h1 b (List.mem_cons_of_mem _ hb))
            (fun b hb => h2 b (List.mem_cons_of_mem _ hb)) x hx
  exact this ht hlo hhi x hx

theorem shape_of_bt (C : CfgLaws c) {h : Heap (SLeaf K V)} (hbm : 1 ≤ bm) :
    ∀ (d top : Nat) (root : Bool) (t : Tree K d) (lo hi : Bd K), Bt (sortedLaws C) tt lm bm h d top t lo hi →
    (root = false → occ lm bm d ≤ top) → (d ≠ 0 → 1 ≤ top) → Shape c.N c.M bm lm h d root t := by
  intro d
  induction d with
  | zero =>
    intro top root t lo hi ⟨_, l, hl, ⟨es, hes⟩, hlen, _, _⟩ htop _
    change top ≤ l.abs.length at hlen
    rw [hes.abs, ← hes.num] at hlen
    refine ⟨l, hl, by rw [hes.num]; exact hes.cap, fun hr => le_trans (htop hr) hlen, fun i hi => ?_, ?_⟩
    · rw [hes.num] at hi
      exact ⟨_, _, by rw [hes.keys.get (by simpa using hi)], by rw [hes.vals.get (by simpa using hi)]⟩
    · intro i j a b hij hj ha hb
      rw [hes.num] at hj
      rw [hes.keys.get (by simp; omega)] at ha
      rw [hes.keys.get (by simpa using hj)] at hb
      injection ha with ha
      injection hb with hb
      rw [← ha, ← hb]
      simp only [List.getElem_map]
      exact List.pairwise_iff_getElem.1 hes.sorted i j (by omega) hj hij
  | succ d ih =>
    intro top root n lo hi ⟨cs, ks, hr, hlen, ht⟩ htop ht1
    have hnum := hr.num
    have hl := hr.len
    have hcap := hr.cap
    have ht1 := ht1 (by simp)
    refine ⟨by rw [hnum]; exact hcap, by omega, fun hroot => by have := htop hroot; simp only [occ] at this; omega,
      fun i hi => ?_, fun i hi => ?_⟩
    · have hi' : i < cs.length := by omega
      refine ⟨cs[i], hr.kids.get hi', ?_⟩
      obtain ⟨a, b, hb⟩ := Tile.forall_mem ht cs[i] (List.getElem_mem hi')
      exact ih _ false cs[i] a b hb (fun _ => le_rfl) (fun hd => by
        cases d with
        | zero => exact absurd rfl hd
        | succ d => exact hbm)
    · have hi' : i < ks.length := by omega
      refine ⟨ks[i], hr.keys.get hi', ?_⟩
      have hk : ks = ks.take i ++ ks[i] :: ks.drop (i + 1) := by simp
      have hc : cs = cs.take (i + 1) ++ cs.drop (i + 1) := by simp
      have ht' := ht
      rw [hk, hc, tile_split_key (by simp; omega)] at ht'
      obtain ⟨tl, tr⟩ := ht'
      constructor
      · intro j x hj hx y hy
        have hj' : j < cs.length := by omega
        rw [hr.kids.get hj'] at hx
        injection hx with hx
        have hmem : x ∈ cs.take (i + 1) := by
          rw [← hx, List.mem_take_iff_getElem]
          exact ⟨j, by omega, rfl⟩
        obtain ⟨a, b, hb, hbb⟩ := Tile.mem_le tl (fun c a b hc => Bt.lt hc) x hmem
        have := Bt.storedKeys_bounds C d _ x a b hb y hy
        exact bk_lt.1 (lt_of_lt_of_le this.2 hbb.2)
      · intro j x hj hjn hx y hy
        have hj' : j < cs.length := by omega
        rw [hr.kids.get hj'] at hx
        injection hx with hx
        have hmem : x ∈ cs.drop (i + 1) := by
          rw [← hx, List.mem_drop_iff_getElem]
          exact ⟨j - (i + 1), by omega, by congr 1; omega⟩
        obtain ⟨a, b, hb, hbb⟩ := Tile.mem_le tr (fun c a b hc => Bt.lt hc) x hmem
        have := Bt.storedKeys_bounds C d _ x a b hb y hy
        exact bk_le.1 (le_trans hbb.1 this.1)

end Verif.BTree
