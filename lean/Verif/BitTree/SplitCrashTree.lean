import Verif.BitTree.SplitCrashLaw
import Verif.BitTree.ScanProps

/-!
# Crashes in leaf splits of BitHPBPTree and BitPBPTree: what the tree holds

The states of `SplitCrashLaw` seen through the branch nodes as they are (BitPBPTree, where they are persistent) and
after `recover` (BitHPBPTree).
-/

set_option linter.unusedSectionVars false

namespace Verif.BitTree

open Verif Search FPTree BTree

variable {K V : Type} {M : Nat} [LinearOrder K] [Inhabited K] {c : Cfg K V} {adm : K → Prop}

theorem linked_split {h : Heap M K V} {id : Nat} {B : List Nat} : ∀ (A : List Nat) (o : Option Nat), Linked h o (A ++ id :: B) →
    ∃ n, nextOf h id = some n ∧ Linked h n B
  | [], _, ⟨_, n, h1, h2⟩ => ⟨n, h1, h2⟩
  | _ :: A, _, ⟨_, n, _, h2⟩ => linked_split A n h2

/-- The leaf in which `k` belongs is `x`, at `id`, and it is full. -/
structure Full (t : Store c M) (k : K) (id : Nat) (x : Cell M K V) : Prop where
  find : findLeaf c t.depth t.root k = .ok id
  cell : t.heap[id]? = some x
  bits : ∀ p, p < M → Bitmap.bit x.leaf.bits p = true

instance (l : Leaf M K V) (sk k : K) : Decidable (goesLeft l sk k) :=
  decidable_of_iff (∃ p : Fin M, k < l.keys p ∧ l.keys p < sk)
    ⟨fun ⟨p, h⟩ => ⟨p, p.2, h⟩, fun ⟨p, hp, h⟩ => ⟨⟨p, hp⟩, h⟩⟩

/-- The map found on the branch nodes of before after `q` changes. -/
def onOld (c : Cfg K V) (x : Cell M K V) (sk k : K) (v : V) (q : Nat) (m : K → Option V) (y : K) : Option V :=
  if y ∈ lostKeys c x.leaf sk q then none else if y = k ∧ splitLen c x sk ≤ q ∧ goesLeft x.leaf sk k then some v else m y

/-- The map in the leaves of the list after `q` changes. -/
def inList (c : Cfg K V) (x : Cell M K V) (sk k : K) (v : V) (q : Nat) (m : K → Option V) (y : K) : Option V :=
  if y = k ∧ splitLen c x sk ≤ q then some v else if q < linkedAt c x sk ∧ y ∈ lostKeys c x.leaf sk q then none else m y

theorem linked_lt_split (c : Cfg K V) (x : Cell M K V) (sk : K) : linkedAt c x sk + 4 = splitLen c x sk := by
  unfold linkedAt splitLen; omega

theorem mem_lost {l : Leaf M K V} {sk y : K} {q : Nat} (h : y ∈ lostKeys c l sk q) : ∃ p, p < M ∧ l.keys p = y ∧ sk ≤ y := by
  have : y ∈ upper l sk := by
    unfold lostKeys at h
    split at h
    · exact List.mem_of_mem_take h
    · split at h
      · cases h
      · exact h
  obtain ⟨p, h1, h2, h3⟩ := mem_upper.1 this
  exact ⟨p, h1, h2, h3⟩

theorem split_crash_law (F : Laws c adm) (hM : 2 ≤ M) (hm : c.move = false → M % 64 ≠ 0) (hN : 2 ≤ c.N) (hN64 : c.N % 64 ≠ 0)
    {t : Store c M} (ht : TOk adm t) {E : Nat → K → Prop} {ids : List Nat} (hc : ChainOk adm t E ids) {m : K → Option V}
    (hm' : ∀ y w, t.Has y w ↔ m y = some w) {k : K} (hk : adm k) (hnew : m k = none) {id : Nat} {x : Cell M K V} (hf : Full t k id x) (v : V) :
    ∃ sk, (∃ p, p < M ∧ x.leaf.keys p = sk) ∧ (∃ p, p < M ∧ x.leaf.keys p < sk) ∧
      (∀ q, ∃ t', crashSplit t k v q = .ok t' ∧ (∀ y, adm y → t'.lookup y = .ok (onOld c x sk k v q m y)) ∧
        ∃ t'', t'.recover = .ok t'' ∧
          (ZeroFree c.N (if q < linkedAt c x sk then t.heap.length else t.heap.length + 1) →
            TOk adm t'' ∧ ∀ y w, t''.Has y w ↔ inList c x sk k v q m y = some w) ∧
          (¬ ZeroFree c.N (if q < linkedAt c x sk then t.heap.length else t.heap.length + 1) →
            ∃ y, adm y ∧ inList c x sk k v q m y ≠ none ∧ t''.lookup y = .ub)) ∧
      ∃ t2, t.insert k v = .ok t2 ∧ ∀ q, splitLen c x sk ≤ q → ∃ t', crashSplit t k v q = .ok t' ∧ t2.heap = t'.heap := by
  have hidfp : id ∈ fp t.depth t.root := findLeaf_fp F _ _ _ _ _ (fun _ h => h) ht.ok hk hf.find
  have hids := (hc.mem id).2 hidfp
  obtain ⟨x', hx', hl, hhas⟩ := core_fp _ _ _ ht.ok id hidfp
  rw [hf.cell] at hx'
  cases hx'
  have ha : ∀ p, p < M → adm (x.leaf.keys p) := fun p hp => (hhas _ _ ⟨p, hp, hf.bits p hp, rfl, rfl⟩).1
  have hno : ∀ w, ¬ Has x.leaf k w := fun w hw => by
    have := (hm' k w).1 (hhas k w hw).2
    rw [hnew] at this; cases this
  obtain ⟨A, B, rfl⟩ := List.append_of_mem hids
  obtain ⟨nx, hnx, hB⟩ := linked_split A _ hc.link
  have hnxx : nx = x.next := by
    unfold nextOf at hnx
    rw [hf.cell] at hnx
    exact (Option.some.inj hnx).symm
  have hnd := hc.nodup
  have hnd' : id ∉ A ∧ id ∉ B := by
    rw [List.nodup_append] at hnd
    exact ⟨fun h => hnd.2.2 id h id (by simp) rfl, (List.nodup_cons.1 hnd.2.1).1⟩
  have hnid : x.next ≠ some id := by
    rw [← hnxx]
    intro h
    rw [h] at hB
    match B, hB, hnd' with
    | j :: B, ⟨h1, _⟩, hnd' => cases h1; exact hnd'.2 (by simp)
  obtain ⟨sk, ws, esw, hwl, hsk, hlow, hpt, s, hins⟩ := split_states F hM hm ht.link hf.cell hl hf.bits ha hnid hno v
  have hE : ∀ a b, Has x.leaf a b → E id a := fun a b hab => chain_has F ht hc hids hf.cell hab
  have hEk : E id k := by
    obtain ⟨i, hi, hei⟩ := hc.cover k hk
    have := findLeaf_ghost F _ _ _ i k (fun _ h => h) hc.gok ((hc.mem i).1 hi) hei
    rw [hf.find] at this
    cases Res.ok.inj this
    exact hei
  have hmHas : ∀ a b, Has x.leaf a b → m a = some b := fun a b hab => (hm' a b).1 (hhas a b hab).2
  have hlt : ∀ i ∈ A ++ id :: B, i < t.heap.length := fun i hi => fp_lt _ _ _ ht.ok i ((hc.mem i).1 hi)
  have hcs : ∀ q, crashSplit t k v q = .ok { t with heap := applyAll t.heap (ws.take q) } := by
    intro q
    unfold crashSplit
    rw [hf.find, Res.ok_bind, hf.cell, Res.ofOption_some, Res.ok_bind, esw]; rfl
  have hlinkpos : 1 ≤ linkedAt c x sk := by
    unfold linkedAt linkAt; split <;> omega
  have hls := linked_lt_split c x sk
  -- keys of the other leaves
  have hother : ∀ y w, (∃ i ∈ A ++ B, ∃ z, t.heap[i]? = some z ∧ Has z.leaf y w) ↔ m y = some w ∧ ∀ w', ¬ Has x.leaf y w' := by
    intro y w
    rw [← hm', has_leaves ht hc]
    constructor
    · rintro ⟨i, hi, z, hz, hzw⟩
      have hi' : i ∈ A ++ id :: B := by
        rcases List.mem_append.1 hi with h | h <;> simp [h]
      refine ⟨⟨i, hi', z, hz, hzw⟩, fun w' hw' => ?_⟩
      have e1 := findLeaf_of_has F _ _ adm i z y w (fun _ h => h) ht.ok ((hc.mem i).1 hi') hz hzw
      have e2 := findLeaf_of_has F _ _ adm id x y w' (fun _ h => h) ht.ok hidfp hf.cell hw'
      rw [e1] at e2
      cases Res.ok.inj e2
      rcases List.mem_append.1 hi with h | h
      · exact hnd'.1 h
      · exact hnd'.2 h
    · rintro ⟨⟨i, hi, z, hz, hzw⟩, hn⟩
      refine ⟨i, ?_, z, hz, hzw⟩
      rcases List.mem_append.1 hi with h | h
      · exact List.mem_append_left _ h
      · rcases List.mem_cons.1 h with rfl | h
        · rw [hf.cell] at hz; cases hz; exact absurd hzw (hn w)
        · exact List.mem_append_right _ h
  refine ⟨sk, hsk, hlow, fun q => ⟨_, hcs q, ?_, ?_⟩, ?_⟩
  · -- lookups on the branch nodes of before
    intro y hy
    obtain ⟨a, o, hp⟩ := hpt q
    obtain ⟨i, hi, hei⟩ := hc.cover y hy
    have hfi := findLeaf_ghost F _ _ _ i y (fun _ h => h) hc.gok ((hc.mem i).1 hi) hei
    by_cases hii : i = id
    · subst hii
      obtain ⟨z, hz, hza⟩ := core_some.1 hp.st.leaf
      obtain ⟨r, er, hr⟩ := lookup_law hp.lok y
      unfold Store.lookup
      simp only
      rw [hfi, Res.ok_bind, hz, Res.ofOption_some, Res.ok_bind, hza, er]
      congr 1
      apply Option.ext
      intro w
      rw [hr, hp.has]
      have hmy : m y = some w ↔ Has x.leaf y w := by
        obtain ⟨i2, x2, f1, f2, f3, f4⟩ := findLeaf_law F t.depth t.root adm y (fun _ h => h) ht.ok hy
        rw [hfi] at f1
        cases Res.ok.inj f1
        rw [hf.cell] at f2
        cases f2
        rw [f4, ← hm']; rfl
      unfold onOld
      by_cases h1 : y ∈ lostKeys c x.leaf sk q
      · rw [if_pos h1]
        obtain ⟨p, hp1, rfl, _⟩ := mem_lost h1
        constructor
        · rintro (⟨_, h⟩ | ⟨_, _, h, _⟩)
          · exact absurd h1 h
          · exact absurd ⟨p, hp1, hf.bits p hp1, h, rfl⟩ (hno _)
        · intro h; cases h
      · rw [if_neg h1]
        by_cases h2 : y = k ∧ splitLen c x sk ≤ q ∧ goesLeft x.leaf sk k
        · rw [if_pos h2]
          obtain ⟨rfl, h3, h4⟩ := h2
          constructor
          · rintro (⟨h, _⟩ | ⟨_, _, _, h⟩)
            · exact absurd h (hno w)
            · rw [h]
          · intro h; cases h; exact Or.inr ⟨h3, h4, rfl, rfl⟩
        · rw [if_neg h2, hmy]
          constructor
          · rintro (⟨h, _⟩ | ⟨h3, h4, h5, _⟩)
            · exact h
            · exact absurd ⟨h5, h3, h4⟩ h2
          · intro h; exact Or.inl ⟨h, h1⟩
    · obtain ⟨i2, x2, f1, f2, f3, f4⟩ := findLeaf_law F t.depth t.root adm y (fun _ h => h) ht.ok hy
      rw [hfi] at f1
      cases Res.ok.inj f1
      have hcore := (hp.st.others i (hlt i hi) hii).1
      rw [core_of f2] at hcore
      obtain ⟨z, hz, hza⟩ := core_some.1 hcore
      obtain ⟨r, er, hr⟩ := lookup_law f3 y
      unfold Store.lookup
      simp only
      rw [hfi, Res.ok_bind, hz, Res.ofOption_some, Res.ok_bind, hza, er]
      congr 1
      apply Option.ext
      intro w
      rw [hr, f4, show hasT t.heap t.depth t.root y w ↔ m y = some w from hm' y w]
      unfold onOld
      rw [if_neg, if_neg]
      · rintro ⟨rfl, _⟩
        rw [hf.find] at hfi
        exact hii (Res.ok.inj hfi).symm
      · intro h
        obtain ⟨p, hp1, rfl, _⟩ := mem_lost h
        have e2 := findLeaf_of_has F _ _ adm id x _ _ (fun _ h => h) ht.ok hidfp hf.cell ⟨p, hp1, hf.bits p hp1, rfl, rfl⟩
        rw [hfi] at e2
        exact hii (Res.ok.inj e2)
  · -- after a recovery
    obtain ⟨a, o, hp⟩ := hpt q
    obtain ⟨za, hza, hzaa⟩ := core_some.1 hp.st.leaf
    have hoth : ∀ i ∈ A ++ B, i < t.heap.length ∧ i ≠ id := by
      intro i hi
      refine ⟨hlt i (by rcases List.mem_append.1 hi with h | h <;> simp [h]), ?_⟩
      rintro rfl
      rcases List.mem_append.1 hi with h | h
      · exact hnd'.1 h
      · exact hnd'.2 h
    have hothc : ∀ i ∈ A ++ B, core (applyAll t.heap (ws.take q)) i = core t.heap i ∧ nextOf (applyAll t.heap (ws.take q)) i = nextOf t.heap i :=
      fun i hi => hp.st.others i (hoth i hi).1 (hoth i hi).2
    have hlow' : ∃ y w, Has a y w := by
      obtain ⟨p, hp1, hp2⟩ := hlow
      refine ⟨x.leaf.keys p, x.leaf.vals p, (hp.has _ _).2 (Or.inl ⟨⟨p, hp1, hf.bits p hp1, rfl, rfl⟩, fun h => ?_⟩)⟩
      obtain ⟨_, _, _, h3⟩ := mem_lost h
      exact absurd hp2 (not_lt.2 h3)
    have hothE : ∀ i ∈ A ++ B, ∀ z a b, (applyAll t.heap (ws.take q))[i]? = some z → Has z.leaf a b → E i a ∧ adm a := by
      intro i hi z a' b' hz hz'
      have hi' : i ∈ A ++ id :: B := by rcases List.mem_append.1 hi with h | h <;> simp [h]
      have h1 := (hothc i hi).1
      rw [core_of hz] at h1
      obtain ⟨z0, g1, g2⟩ := core_some.1 h1.symm
      rw [← g2] at hz'
      refine ⟨chain_has F ht hc hi' g1 hz', ?_⟩
      obtain ⟨z1, k1, k2, k3⟩ := core_fp _ _ _ ht.ok i ((hc.mem i).1 hi')
      rw [g1] at k1; cases k1
      exact (k3 _ _ hz').1
    have hothH : ∀ y w, (∃ i ∈ A ++ B, ∃ z, (applyAll t.heap (ws.take q))[i]? = some z ∧ Has z.leaf y w) ↔
        m y = some w ∧ ∀ w', ¬ Has x.leaf y w' := by
      intro y w
      rw [← hother]
      constructor
      · rintro ⟨i, hi, z, hz, hzw⟩
        have h1 := (hothc i hi).1
        rw [core_of hz] at h1
        obtain ⟨z0, g1, g2⟩ := core_some.1 h1.symm
        exact ⟨i, hi, z0, g1, by rw [g2]; exact hzw⟩
      · rintro ⟨i, hi, z, hz, hzw⟩
        have h1 := (hothc i hi).1
        rw [core_of hz] at h1
        obtain ⟨z0, g1, g2⟩ := core_some.1 h1
        exact ⟨i, hi, z0, g1, by rw [g2]; exact hzw⟩
    have hothL : ∀ i ∈ A ++ B, ∃ z, (applyAll t.heap (ws.take q))[i]? = some z ∧ LOk z.leaf ∧ ∀ k v, Has z.leaf k v → adm k := by
      intro i hi
      have hi' : i ∈ A ++ id :: B := by rcases List.mem_append.1 hi with h | h <;> simp [h]
      obtain ⟨z1, k1, k2, k3⟩ := core_fp _ _ _ ht.ok i ((hc.mem i).1 hi')
      have h1 := (hothc i hi).1
      rw [core_of k1] at h1
      obtain ⟨z0, g1, g2⟩ := core_some.1 h1
      exact ⟨z0, g1, by rw [g2]; exact k2, fun a b hab => (hothE i hi z0 a b g1 hab).2⟩
    have hothF : 1 < (A ++ id :: B).length → ∀ i ∈ A ++ B, Filled (applyAll t.heap (ws.take q)) i := by
      intro hl i hi
      have hi' : i ∈ A ++ id :: B := by rcases List.mem_append.1 hi with h | h <;> simp [h]
      obtain ⟨l, g1, g2⟩ := hc.ne hl i hi'
      exact ⟨l, (hothc i hi).1.trans g1, g2⟩
    have haE : ∀ y w, Has za.leaf y w → E id y ∧ adm y := by
      intro y w hy
      rw [hzaa] at hy
      rcases (hp.has y w).1 hy with ⟨h, _⟩ | ⟨_, _, rfl, _⟩
      · exact ⟨hE _ _ h, (hhas _ _ h).1⟩
      · exact ⟨hEk, hk⟩
    by_cases hq : q < linkedAt c x sk
    · rw [if_pos hq]
      have ho := hp.unlinked hq
      have hlist : Linked (applyAll t.heap (ws.take q)) (some t.first) (A ++ id :: B) := by
        refine linked_frame _ _ (fun i hi => ?_) hc.link
        rcases List.mem_append.1 hi with h | h
        · exact (hothc i (List.mem_append_left _ h)).2
        · rcases List.mem_cons.1 h with rfl | h
          · rw [hp.st.next, ho, hnx, hnxx]
          · exact (hothc i (List.mem_append_right _ h)).2
      have hcases : ∀ i ∈ A ++ id :: B, i = id ∨ i ∈ A ++ B := by
        intro i hi
        rcases List.mem_append.1 hi with h | h
        · exact Or.inr (List.mem_append_left _ h)
        · rcases List.mem_cons.1 h with rfl | h
          · exact Or.inl rfl
          · exact Or.inr (List.mem_append_right _ h)
      have hEall : ∀ i ∈ A ++ id :: B, ∀ z a b, (applyAll t.heap (ws.take q))[i]? = some z → Has z.leaf a b → E i a := by
        intro i hi z a' b' hz hz'
        rcases hcases i hi with rfl | h
        · rw [hza] at hz; cases hz; exact (haE _ _ hz').1
        · exact (hothE i h z a' b' hz hz').1
      obtain ⟨t'', e1, _, e3, e4⟩ := recover_row F (by omega) (t := { t with heap := applyAll t.heap (ws.take q) }) (ids := A ++ id :: B)
        hp.st.link hlist (le_trans hc.len.le hp.st.len) (fun i hi => by
          rcases hcases i hi with rfl | h
          · exact ⟨za, hza, by rw [hzaa]; exact hp.lok, fun a b hab => (haE a b hab).2⟩
          · exact hothL i h) (fun hl i hi => by
          rcases hcases i hi with rfl | h
          · exact ⟨a, hp.st.leaf, hlow'⟩
          · exact hothF hl i h)
        (hc.ord.imp_of_mem fun {i j} hi hj h y z a' b' v' w' hy hz hv hw => h a' b' (hEall i hi y a' v' hy hv) (hEall j hj z b' w' hz hw))
      have hall : ∀ y w, (∃ i ∈ A ++ id :: B, ∃ z, (applyAll t.heap (ws.take q))[i]? = some z ∧ Has z.leaf y w) ↔
          inList c x sk k v q m y = some w := by
        intro y w
        have h1 : (∃ i ∈ A ++ id :: B, ∃ z, (applyAll t.heap (ws.take q))[i]? = some z ∧ Has z.leaf y w) ↔
            Has a y w ∨ (m y = some w ∧ ∀ w', ¬ Has x.leaf y w') := by
          rw [← hothH]
          constructor
          · rintro ⟨i, hi, z, hz, hzw⟩
            rcases hcases i hi with rfl | h
            · rw [hza] at hz; cases hz; rw [hzaa] at hzw; exact Or.inl hzw
            · exact Or.inr ⟨i, h, z, hz, hzw⟩
          · rintro (h | ⟨i, hi, z, hz, hzw⟩)
            · exact ⟨id, by simp, za, hza, by rw [hzaa]; exact h⟩
            · exact ⟨i, by rcases List.mem_append.1 hi with h | h <;> simp [h], z, hz, hzw⟩
        rw [h1, hp.has]
        unfold inList
        rw [if_neg (by omega)]
        have hq' : ¬ splitLen c x sk ≤ q := by omega
        simp only [hq', hq, false_and, or_false, true_and]
        by_cases hlost : y ∈ lostKeys c x.leaf sk q
        · rw [if_pos hlost]
          obtain ⟨p, hp1, rfl, _⟩ := mem_lost hlost
          constructor
          · rintro (⟨_, h⟩ | ⟨_, h⟩)
            · exact absurd hlost h
            · exact absurd ⟨p, hp1, hf.bits p hp1, rfl, rfl⟩ (h (x.leaf.vals p))
          · intro h; cases h
        · rw [if_neg hlost]
          constructor
          · rintro (⟨h, _⟩ | ⟨h, _⟩)
            · exact hmHas _ _ h
            · exact h
          · intro h
            by_cases hx : ∃ w', Has x.leaf y w'
            · obtain ⟨w', hw'⟩ := hx
              have := hmHas _ _ hw'
              rw [h] at this; cases this
              exact Or.inl ⟨hw', hlost⟩
            · exact Or.inr ⟨h, fun w' hw' => hx ⟨w', hw'⟩⟩
      rw [hc.len] at e3 e4
      refine ⟨t'', e1, fun h => ⟨(e3 h).1, fun y w => ((e3 h).2 y w).trans (hall y w)⟩, fun h => ?_⟩
      obtain ⟨y, w, g1, g2, g3⟩ := e4 h
      exact ⟨y, g1, by rw [(hall y w).1 g2]; simp, g3⟩
    · rw [if_neg hq]
      obtain ⟨ho, hlen, hnn, b, hb1, hb2, hb3⟩ := hp.linked (not_lt.1 hq)
      obtain ⟨zb, hzb, hzbb⟩ := core_some.1 hb1
      have hlost : lostKeys c x.leaf sk q = upper x.leaf sk := lostKeys_all (by unfold linkedAt at hq; omega)
      have hnl : t.heap.length ∉ A ++ id :: B := fun h => absurd (hlt _ h) (lt_irrefl _)
      have hlist : Linked (applyAll t.heap (ws.take q)) (some t.first) (A ++ id :: t.heap.length :: B) :=
        linked_insert (by rw [hp.st.next, ho]) (by rw [hnn, hnx, hnxx]) A B _ (fun i hi => (hothc i hi).2) hc.link
      have hcases : ∀ i ∈ A ++ id :: t.heap.length :: B, i = id ∨ i = t.heap.length ∨ i ∈ A ++ B := by
        intro i hi
        rcases List.mem_append.1 hi with h | h
        · exact Or.inr (Or.inr (List.mem_append_left _ h))
        · rcases List.mem_cons.1 h with rfl | h
          · exact Or.inl rfl
          · rcases List.mem_cons.1 h with rfl | h
            · exact Or.inr (Or.inl rfl)
            · exact Or.inr (Or.inr (List.mem_append_right _ h))
      have hbE : ∀ y w, Has zb.leaf y w → E id y ∧ adm y := by
        intro y w hy
        rw [hzbb] at hy
        rcases (hb3 y w).1 hy with ⟨h, _⟩ | ⟨_, _, rfl, _⟩
        · exact ⟨hE _ _ h, (hhas _ _ h).1⟩
        · exact ⟨hEk, hk⟩
      have hbne : ∃ y w, Has b y w := by
        obtain ⟨p, hp1, hp2⟩ := hsk
        exact ⟨_, _, (hb3 _ _).2 (Or.inl ⟨⟨p, hp1, hf.bits p hp1, rfl, rfl⟩, hp2.ge⟩)⟩
      have hab : ∀ y w y' w', Has a y w → Has b y' w' → y < y' := by
        intro y w y' w' h1 h2
        have ha1 : (Has x.leaf y w ∧ y < sk) ∨ (goesLeft x.leaf sk k ∧ y = k) := by
          rcases (hp.has y w).1 h1 with ⟨h, h'⟩ | ⟨_, h, h', _⟩
          · refine Or.inl ⟨h, not_le.1 fun hle => h' ?_⟩
            rw [hlost]
            obtain ⟨p, g1, _, g3, _⟩ := h
            exact mem_upper.2 ⟨p, g1, g3, hle⟩
          · exact Or.inr ⟨h, h'⟩
        have hb' : (sk ≤ y') ∨ (¬ goesLeft x.leaf sk k ∧ y' = k) := by
          rcases (hb3 y' w').1 h2 with ⟨_, h'⟩ | ⟨_, h, h', _⟩
          · exact Or.inl h'
          · exact Or.inr ⟨h, h'⟩
        rcases ha1 with ⟨h3, h4⟩ | ⟨⟨p, g1, g2, g3⟩, rfl⟩
        · rcases hb' with h5 | ⟨h5, rfl⟩
          · exact lt_of_lt_of_le h4 h5
          · refine lt_of_le_of_ne ?_ ?_
            · obtain ⟨p, g1, _, rfl, _⟩ := h3
              exact not_lt.1 fun h => h5 ⟨p, g1, h, h4⟩
            · rintro rfl
              exact hno w h3
        · rcases hb' with h5 | ⟨h5, rfl⟩
          · exact lt_of_lt_of_le (g2.trans g3) h5
          · exact absurd ⟨p, g1, g2, g3⟩ h5
      have hord : (A ++ id :: t.heap.length :: B).Pairwise (fun i j => ∀ y z a b v w, (applyAll t.heap (ws.take q))[i]? = some y →
          (applyAll t.heap (ws.take q))[j]? = some z → Has y.leaf a v → Has z.leaf b w → a < b) := by
        have ho := hc.ord
        rw [List.pairwise_append, List.pairwise_cons] at ho
        obtain ⟨o1, ⟨o2, o3⟩, o4⟩ := ho
        have hEA : ∀ i ∈ A, ∀ z a b, (applyAll t.heap (ws.take q))[i]? = some z → Has z.leaf a b → E i a :=
          fun i hi z a b hz h => (hothE i (List.mem_append_left _ hi) z a b hz h).1
        have hEB : ∀ i ∈ B, ∀ z a b, (applyAll t.heap (ws.take q))[i]? = some z → Has z.leaf a b → E i a :=
          fun i hi z a b hz h => (hothE i (List.mem_append_right _ hi) z a b hz h).1
        rw [List.pairwise_append, List.pairwise_cons, List.pairwise_cons]
        refine ⟨o1.imp_of_mem fun {i j} hi hj h y z a b v w hy hz h1 h2 => h a b (hEA i hi y a v hy h1) (hEA j hj z b w hz h2),
          ⟨?_, ?_, o3.imp_of_mem fun {i j} hi hj h y z a b v w hy hz h1 h2 => h a b (hEB i hi y a v hy h1) (hEB j hj z b w hz h2)⟩, ?_⟩
        · intro j hj y z a' b' v' w' hy hz h1 h2
          rw [hza] at hy; cases hy
          rcases List.mem_cons.1 hj with rfl | hj
          · rw [hzb] at hz; cases hz
            rw [hzaa] at h1; rw [hzbb] at h2
            exact hab _ _ _ _ h1 h2
          · exact o2 j hj a' b' (haE _ _ h1).1 (hEB j hj z b' w' hz h2)
        · intro j hj y z a' b' v' w' hy hz h1 h2
          rw [hzb] at hy; cases hy
          exact o2 j hj a' b' (hbE _ _ h1).1 (hEB j hj z b' w' hz h2)
        · intro i hi j hj y z a' b' v' w' hy hz h1 h2
          have h1' := hEA i hi y a' v' hy h1
          rcases List.mem_cons.1 hj with rfl | hj
          · rw [hza] at hz; cases hz
            exact o4 i hi j (by simp) a' b' h1' (haE _ _ h2).1
          · rcases List.mem_cons.1 hj with rfl | hj
            · rw [hzb] at hz; cases hz
              exact o4 i hi id (by simp) a' b' h1' (hbE _ _ h2).1
            · exact o4 i hi j (by simp [hj]) a' b' h1' (hEB j hj z b' w' hz h2)
      have hlen2 : (A ++ id :: t.heap.length :: B).length = t.heap.length + 1 := by
        rw [← hc.len]; simp only [List.length_append, List.length_cons]; omega
      obtain ⟨t'', e1, _, e3, e4⟩ := recover_row F (by omega) (t := { t with heap := applyAll t.heap (ws.take q) })
        (ids := A ++ id :: t.heap.length :: B) hp.st.link hlist (by show _ ≤ (applyAll t.heap (ws.take q)).length; rw [hlen2, hlen]) (fun i hi => by
          rcases hcases i hi with rfl | rfl | h
          · exact ⟨za, hza, by rw [hzaa]; exact hp.lok, fun a b hab => (haE a b hab).2⟩
          · exact ⟨zb, hzb, by rw [hzbb]; exact hb2, fun a b hab => (hbE a b hab).2⟩
          · exact hothL i h) (fun hl i hi => by
          rcases hcases i hi with rfl | rfl | h
          · exact ⟨a, hp.st.leaf, hlow'⟩
          · exact ⟨b, hb1, hbne⟩
          · refine hothF ?_ i h
            simp only [List.length_append, List.length_cons]
            rcases List.mem_append.1 h with h | h <;> have := List.length_pos_of_mem h <;> omega) hord
      have hall : ∀ y w, (∃ i ∈ A ++ id :: t.heap.length :: B, ∃ z, (applyAll t.heap (ws.take q))[i]? = some z ∧ Has z.leaf y w) ↔
          inList c x sk k v q m y = some w := by
        intro y w
        have h1 : (∃ i ∈ A ++ id :: t.heap.length :: B, ∃ z, (applyAll t.heap (ws.take q))[i]? = some z ∧ Has z.leaf y w) ↔
            Has a y w ∨ Has b y w ∨ (m y = some w ∧ ∀ w', ¬ Has x.leaf y w') := by
          rw [← hothH]
          constructor
          · rintro ⟨i, hi, z, hz, hzw⟩
            rcases hcases i hi with rfl | rfl | h
            · rw [hza] at hz; cases hz; rw [hzaa] at hzw; exact Or.inl hzw
            · rw [hzb] at hz; cases hz; rw [hzbb] at hzw; exact Or.inr (Or.inl hzw)
            · exact Or.inr (Or.inr ⟨i, h, z, hz, hzw⟩)
          · rintro (h | h | ⟨i, hi, z, hz, hzw⟩)
            · exact ⟨id, by simp, za, hza, by rw [hzaa]; exact h⟩
            · exact ⟨t.heap.length, by simp, zb, hzb, by rw [hzbb]; exact h⟩
            · exact ⟨i, by rcases List.mem_append.1 hi with h | h <;> simp [h], z, hz, hzw⟩
        have h2 : Has a y w ∨ Has b y w ↔ Has x.leaf y w ∨ (splitLen c x sk ≤ q ∧ y = k ∧ w = v) := by
          rw [hp.has, hb3, hlost]
          constructor
          · rintro ((⟨h, _⟩ | ⟨h1, _, h2⟩) | (⟨h, _⟩ | ⟨h1, _, h2⟩))
            · exact Or.inl h
            · exact Or.inr ⟨h1, h2⟩
            · exact Or.inl h
            · exact Or.inr ⟨h1, h2⟩
          · rintro (h | ⟨h1, h2⟩)
            · by_cases hle : sk ≤ y
              · exact Or.inr (Or.inl ⟨h, hle⟩)
              · refine Or.inl (Or.inl ⟨h, fun hu => ?_⟩)
                obtain ⟨_, _, _, h'⟩ := mem_upper.1 hu
                exact hle h'
            · by_cases hg : goesLeft x.leaf sk k
              · exact Or.inl (Or.inr ⟨h1, hg, h2⟩)
              · exact Or.inr (Or.inr ⟨h1, hg, h2⟩)
        rw [h1, ← or_assoc, h2]
        unfold inList
        by_cases hy : y = k ∧ splitLen c x sk ≤ q
        · rw [if_pos hy]
          obtain ⟨rfl, hy⟩ := hy
          constructor
          · rintro ((h | ⟨_, _, rfl⟩) | ⟨h, _⟩)
            · exact absurd h (hno w)
            · rfl
            · rw [hnew] at h; cases h
          · intro h; cases h; exact Or.inl (Or.inr ⟨hy, rfl, rfl⟩)
        · rw [if_neg hy, if_neg (fun h => hq h.1)]
          constructor
          · rintro ((h | ⟨h1, h2, _⟩) | ⟨h, _⟩)
            · exact hmHas _ _ h
            · exact absurd ⟨h2, h1⟩ hy
            · exact h
          · intro h
            by_cases hx : ∃ w', Has x.leaf y w'
            · obtain ⟨w', hw'⟩ := hx
              have := hmHas _ _ hw'
              rw [h] at this; cases this
              exact Or.inl (Or.inl hw')
            · exact Or.inr ⟨h, fun w' hw' => hx ⟨w', hw'⟩⟩
      rw [hlen2] at e3 e4
      refine ⟨t'', e1, fun h => ⟨(e3 h).1, fun y w => ((e3 h).2 y w).trans (hall y w)⟩, fun h => ?_⟩
      obtain ⟨y, w, g1, g2, g3⟩ := e4 h
      exact ⟨y, g1, by rw [(hall y w).1 g2]; simp, g3⟩
  · obtain ⟨h', r', sp, e1, _⟩ := ins_law F hM hm hN hN64 t.depth t.heap t.root adm k v ht.link (fun _ h => h) ht.ok hk
    obtain ⟨id', spL, _, i2, i3, _⟩ := ins_ghost F hM hm hN hN64 t.depth t.heap t.root adm k v ht.link (fun _ h => h) ht.ok hc.gok hk _ _ _ e1
    rw [hf.find] at i2
    cases Res.ok.inj i2
    rw [hins] at i3
    have i3 := Res.ok.inj i3
    simp only [Prod.mk.injEq] at i3
    obtain ⟨t2, e2, _⟩ := store_insert_full F hM hm hN hN64 ht hk v
    refine ⟨t2, e2, fun q hq => ⟨_, hcs q, ?_⟩⟩
    simp only
    rw [List.take_of_length_le (by omega), i3.1]
    unfold Store.insert at e2
    rw [e1, Res.ok_bind] at e2
    cases sp with
    | none => rw [← Res.ok.inj e2]
    | some p =>
      obtain ⟨s, r⟩ := p
      simp only at e2
      obtain ⟨_, _, e2⟩ := Res.bind_eq_ok.1 e2
      rw [← Res.ok.inj e2]

end Verif.BitTree
