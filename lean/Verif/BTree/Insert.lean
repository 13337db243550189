import Verif.BTree.Inv

/-!
# Insert and lookup keep the invariant and implement a map
-/

set_option linter.unusedSectionVars false
set_option linter.unusedSimpArgs false

namespace Verif.BTree

open Verif Assoc
open Verif.Slots hiding none

variable {K V L T : Type} [LinearOrder K] {o : Ops K V L} {W : Laws o}
  {Q : L → Bd K → Bd K → Prop} {lm bm : Nat}

theorem lookupPos_of (W : Laws o) {n : BNode K T} {cs : List T} {k1 k2 : List K} {k : K}
    (hr : NodeRep o.N n cs (k1 ++ k2)) (hs : (k1 ++ k2).Pairwise (· < ·)) (h1 : ∀ x ∈ k1, x ≤ k)
    (h2 : ∀ x ∈ k2, k < x) : lookupPos o n k = .ok k1.length := by
  unfold lookupPos
  rw [hr.num]
  exact W.search n.keys k1 k2 k hr.keys hr.cap hs h1 h2

/-! ## Splitting a branch node -/

theorem list_cut {α : Type} {l : List α} {n : Nat} (h : n < l.length) :
    ∃ a x b, l = a ++ x :: b ∧ a.length = n := by
  refine ⟨l.take n, l[n], l.drop (n + 1), by simp, by simp; omega⟩

theorem list_cut' {α : Type} {l : List α} {n : Nat} (h : n ≤ l.length) :
    ∃ a b, l = a ++ b ∧ a.length = n :=
  ⟨l.take n, l.drop n, by simp, by simp; omega⟩

theorem insertEntry_spec (W : Laws o) (hN : 2 ≤ o.N) (h : Heap L) {n : BNode K T} {c1 c2 : List T} {c : T}
    {k1 k2 : List K} (k s : K) (l r : T) (hr : NodeRep o.N n (c1 ++ c :: c2) (k1 ++ k2))
    (hl1 : c1.length = k1.length) (hl2 : c2.length = k2.length)
    (hs : (k1 ++ s :: k2).Pairwise (· < ·)) (hk1 : ∀ x ∈ k1, x ≤ k) (hk2 : ∀ x ∈ k2, k < x) :
    ∃ out, insertEntry o h n k1.length k s l r = .ok out ∧ out.heap = h ∧
      ((out.split = none ∧ NodeRep o.N out.tree (c1 ++ l :: r :: c2) (k1 ++ s :: k2)) ∨
       ∃ key right cl cr kl kr, out.split = some (key, right) ∧ NodeRep o.N out.tree cl kl ∧
        NodeRep o.N right cr kr ∧ cl ++ cr = c1 ++ l :: r :: c2 ∧ kl ++ key :: kr = k1 ++ s :: k2 ∧
        cl.length = kl.length + 1 ∧ (o.N - 1) / 2 ≤ kl.length ∧ (o.N - 1) / 2 ≤ kr.length) := by
  have hcap := hr.cap
  have hnum := hr.num
  simp only [List.length_append] at hcap hnum
  have hs' : (k1 ++ k2).Pairwise (· < ·) :=
    hs.sublist (List.Sublist.append_left (List.sublist_cons_self s k2) k1)
  rw [List.pairwise_append, List.pairwise_cons] at hs
  obtain ⟨hsk1, ⟨hsk2, hsp2⟩, hsk12⟩ := hs
  unfold insertEntry
  by_cases hfull : n.num = o.N
  · rw [if_pos hfull]
    by_cases hp : (o.N + 1) / 2 ≤ k1.length
    · -- the new entry goes to the right half
      have hex : ∃ kl key kr, k1 = kl ++ key :: kr ∧ kl.length + 1 = (if k1.length = (o.N + 1) / 2
          then (o.N + 1) / 2 else (o.N + 1) / 2 + 1) := by
        by_cases he : k1.length = (o.N + 1) / 2
        · obtain ⟨a, x, b, e, ha⟩ := list_cut (l := k1) (n := (o.N + 1) / 2 - 1) (by omega)
          exact ⟨a, x, b, e, by rw [if_pos he]; omega⟩
        · obtain ⟨a, x, b, e, ha⟩ := list_cut (l := k1) (n := (o.N + 1) / 2) (by omega)
          exact ⟨a, x, b, e, by rw [if_neg he]; omega⟩
      obtain ⟨kl, key, kr, hk1e, hkl⟩ := hex
      obtain ⟨cl, cr, hc1e, hcl⟩ := list_cut' (l := c1) (n := kl.length + 1) (by
        rw [hl1, hk1e]; simp)
      obtain ⟨km, hkm⟩ : ∃ km, (k1 ++ k2)[(o.N + 1) / 2]? = some km :=
        ⟨_, List.getElem?_eq_getElem (by simp; omega)⟩
      have hm : kl.length + 1 = if km < s then (o.N + 1) / 2 + 1 else (o.N + 1) / 2 := by
        rw [hkl]
        by_cases he : k1.length = (o.N + 1) / 2
        · rw [if_pos he, if_neg]
          rw [List.getElem?_append_right (by omega)] at hkm
          exact not_lt.2 (hsk2 km (List.mem_of_getElem? hkm)).le
        · rw [if_neg he, if_pos]
          rw [List.getElem?_append_left (by omega)] at hkm
          exact hsk12 km (List.mem_of_getElem? hkm) s (by simp)
      obtain ⟨sp, esp, hkey, hL, hR⟩ := splitBranch_rep o (n := n) s hr (by simp; omega)
        (kl := kl) (kr := kr ++ k2) (key := key) (cl := cl) (cr := cr ++ c :: c2)
        (by rw [hk1e]; simp) (by rw [hc1e]; simp) hcl hkm hm
      have hkk : ¬ k < sp.key := by
        rw [hkey]; exact not_lt.2 (hk1 key (by rw [hk1e]; simp))
      have hsub : (kr ++ k2).Pairwise (· < ·) := by
        refine hs'.sublist ?_
        rw [hk1e]; simp only [List.append_assoc, List.cons_append]
        exact (List.sublist_cons_self _ _).trans (List.sublist_append_right _ _)
      have hpos := lookupPos_of W hR hsub (fun x hx => hk1 x (by rw [hk1e]; simp [hx])) hk2
      have hlcr : cr.length = kr.length := by
        have e1 := congrArg List.length hk1e
        have e2 := congrArg List.length hc1e
        simp at e1 e2; omega
      have e1 := congrArg List.length hk1e
      simp only [List.length_append, List.length_cons] at e1
      obtain ⟨n', en, hn'⟩ := addEntry_rep o s l r hR hlcr (by omega)
      rw [esp, Res.ok_bind, if_neg hkk, hpos, Res.ok_bind, en, Res.ok_bind]
      refine ⟨_, rfl, rfl, Or.inr ⟨_, _, cl, _, kl, _, by rw [hkey], hL, hn', ?_, ?_, hcl, ?_, ?_⟩⟩
      · rw [hc1e]; simp
      · rw [hk1e]; simp
      · split at hkl <;> omega
      · simp only [List.length_append, List.length_cons]
        split at hkl <;> omega
    · -- the new entry goes to the left half
      obtain ⟨k2a, key, kr, hk2e, hk2a⟩ := list_cut (l := k2) (n := (o.N + 1) / 2 - 1 - k1.length)
        (by omega)
      have e1 := congrArg List.length hk2e
      simp only [List.length_append, List.length_cons] at e1
      obtain ⟨c2a, cr, hc2e, hc2a⟩ := list_cut' (l := c2) (n := k2a.length) (by omega)
      have e2 := congrArg List.length hc2e
      simp only [List.length_append] at e2
      obtain ⟨km, hkm⟩ : ∃ km, (k1 ++ k2)[(o.N + 1) / 2]? = some km :=
        ⟨_, List.getElem?_eq_getElem (by simp; omega)⟩
      have hm : (k1 ++ k2a).length + 1 = if km < s then (o.N + 1) / 2 + 1 else (o.N + 1) / 2 := by
        rw [if_neg]
        · simp; omega
        · rw [List.getElem?_append_right (by omega)] at hkm
          exact not_lt.2 (hsk2 km (List.mem_of_getElem? hkm)).le
      obtain ⟨sp, esp, hkey, hL, hR⟩ := splitBranch_rep o (n := n) s hr (by simp; omega)
        (kl := k1 ++ k2a) (kr := kr) (key := key) (cl := c1 ++ c :: c2a) (cr := cr)
        (by rw [hk2e]; simp) (by rw [hc2e]; simp) (by simp; omega) hkm hm
      have hkk : k < sp.key := by
        rw [hkey]; exact hk2 key (by rw [hk2e]; simp)
      have hsub : (k1 ++ k2a).Pairwise (· < ·) := by
        refine hs'.sublist ?_
        rw [hk2e]
        exact List.Sublist.append_left (List.sublist_append_left _ _) _
      have hpos := lookupPos_of W hL hsub hk1 (fun x hx => hk2 x (by rw [hk2e]; simp [hx]))
      obtain ⟨n', en, hn'⟩ := addEntry_rep o s l r hL hl1 (by omega)
      rw [esp, Res.ok_bind, if_pos hkk, hpos, Res.ok_bind, en, Res.ok_bind]
      refine ⟨_, rfl, rfl, Or.inr ⟨_, _, _, cr, _, kr, by rw [hkey], hn', hR, ?_, ?_, ?_, ?_, ?_⟩⟩
      · rw [hc2e]; simp
      · rw [hk2e]; simp
      · simp; omega
      · simp only [List.length_append, List.length_cons]; omega
      · omega
  · rw [if_neg hfull]
    obtain ⟨n', en, hn'⟩ := addEntry_rep o s l r hr hl1 (by omega)
    rw [en, Res.ok_bind]
    exact ⟨_, rfl, rfl, Or.inl ⟨rfl, hn'⟩⟩

/-! ## The heap -/

theorem Wf.set {h : Heap L} {is : List Nat} (w : Wf h is) (i : Nat) (l : L) : Wf (h.set i l) is := by
  refine ⟨w.nodup, w.fresh, fun j hj => ?_, w.chain⟩
  simp only [Heap.set, upd]
  split
  · rfl
  · exact w.alive j hj

theorem chain_congr {h h' : Heap L} {is : List Nat} (hn : ∀ i ∈ is, h'.next i = h.next i)
    (hp : ∀ i ∈ is, h'.prev i = h.prev i)
    (hc : is.IsChain (fun a b => h.next a = some b ∧ h.prev b = some a)) :
    is.IsChain (fun a b => h'.next a = some b ∧ h'.prev b = some a) := by
  induction is with
  | nil => simp
  | cons a is ih =>
    cases is with
    | nil => simp
    | cons b is =>
      rw [List.isChain_cons_cons] at hc ⊢
      refine ⟨?_, ih (fun i hi => hn i (List.mem_cons_of_mem _ hi))
        (fun i hi => hp i (List.mem_cons_of_mem _ hi)) hc.2⟩
      rw [hn a (by simp), hp b (by simp)]; exact hc.1

theorem chain_congr_next {h h' : Heap L} {is : List Nat} {y : Nat}
    (hn : ∀ i ∈ is, h'.next i = h.next i)
    (hp : ∀ i ∈ is ++ [y], h'.prev i = h.prev i)
    (hc : (is ++ [y]).IsChain (fun a b => h.next a = some b ∧ h.prev b = some a)) :
    (is ++ [y]).IsChain (fun a b => h'.next a = some b ∧ h'.prev b = some a) := by
  induction is with
  | nil => simp
  | cons a is ih =>
    cases is with
    | nil =>
      simp only [List.cons_append, List.nil_append, List.isChain_cons_cons] at hc ⊢
      rw [hn a (by simp), hp y (by simp)]; exact ⟨hc.1, by simp⟩
    | cons b is =>
      simp only [List.cons_append] at hc ⊢
      rw [List.isChain_cons_cons] at hc ⊢
      refine ⟨?_, ih (fun i hi => hn i (List.mem_cons_of_mem _ hi))
        (fun i hi => hp i (List.mem_cons_of_mem _ hi)) hc.2⟩
      rw [hn a (by simp), hp b (by simp)]; exact hc.1

theorem chain_congr_prev {h h' : Heap L} {is : List Nat} {y : Nat}
    (hn : ∀ i ∈ y :: is, h'.next i = h.next i)
    (hp : ∀ i ∈ is, h'.prev i = h.prev i)
    (hc : (y :: is).IsChain (fun a b => h.next a = some b ∧ h.prev b = some a)) :
    (y :: is).IsChain (fun a b => h'.next a = some b ∧ h'.prev b = some a) := by
  cases is with
  | nil => simp
  | cons b is =>
    rw [List.isChain_cons_cons] at hc ⊢
    refine ⟨?_, chain_congr (fun i hi => hn i (List.mem_cons_of_mem _ hi)) hp hc.2⟩
    rw [hn y (by simp), hp b (by simp)]; exact hc.1

theorem getLast?_cons_append {α : Type} (l : List α) (a : α) (r : List α) :
    (l ++ a :: r).getLast? = (a :: r).getLast? :=
  List.getLast?_append_of_ne_nil _ (by simp)

/-- Allocating the right half of a split leaf and linking it. -/
theorem link_wf {h : Heap L} {pre post : List Nat} {id : Nat} (w : Wf h (pre ++ id :: post)) (a b : L) :
    ∃ h', linkAfter ((h.set id a).alloc b).1 id h.fresh = .ok h' ∧
      Wf h' (pre ++ id :: h.fresh :: post) ∧
      h'.data = upd (upd h.data id (some a)) h.fresh (some b) ∧ h'.fresh = h.fresh + 1 := by
  have hid : id < h.fresh := w.fresh id (by simp)
  have hne : id ≠ h.fresh := by omega
  have hnd := w.nodup
  have hfr := w.fresh
  have hnotin : h.fresh ∉ pre ++ id :: post := fun hm => absurd (w.fresh _ hm) (lt_irrefl _)
  obtain ⟨hch, hlast⟩ := w.chain
  have hch' := hch
  rw [List.isChain_split] at hch'
  obtain ⟨hc1, hc2⟩ := hch'
  rw [getLast?_cons_append] at hlast
  have hnd' : (pre ++ id :: h.fresh :: post).Nodup := by
    have : (h.fresh :: (pre ++ id :: post)).Nodup := List.nodup_cons.2 ⟨hnotin, hnd⟩
    refine this.perm ?_
    calc h.fresh :: (pre ++ id :: post) = h.fresh :: ((pre ++ [id]) ++ post) := by simp
      _ |>.Perm _ := List.perm_middle.symm
      _ = _ := by simp
  have halive : ∀ (data : Nat → Option L), data = upd (upd h.data id (some a)) h.fresh (some b) →
      ∀ i ∈ pre ++ id :: h.fresh :: post, (data i).isSome := by
    intro data hdta i hi
    rw [hdta]; unfold upd
    split
    · rfl
    · split
      · rfl
      · rename_i h1 h2
        refine w.alive i ?_
        simp only [List.mem_append, List.mem_cons] at hi ⊢
        tauto
  have hfresh : ∀ i ∈ pre ++ id :: h.fresh :: post, i < h.fresh + 1 := by
    intro i hi
    by_cases he : i = h.fresh
    · omega
    · have := w.fresh i (by simp only [List.mem_append, List.mem_cons] at hi ⊢; tauto)
      omega
  rw [List.nodup_append, List.nodup_cons] at hnd
  have hpre_ne : ∀ i ∈ pre, i ≠ id := fun i hi => hnd.2.2 i hi id (by simp)
  have hpre_fr : ∀ i ∈ pre, i ≠ h.fresh := fun i hi => by
    have := hfr i (by simp [hi]); omega
  have hpost_fr : ∀ i ∈ post, i ≠ h.fresh := fun i hi => by
    have := hfr i (by simp [hi]); omega
  have hpost_ne : ∀ i ∈ post, i ≠ id := fun i hi he => hnd.2.1.1 (he ▸ hi)
  unfold linkAfter
  have hnx : ((h.set id a).alloc b).1.next id = h.next id := by
    simp [Heap.alloc, Heap.set, upd, hne]
  rw [hnx]
  cases hpost : post with
  | nil =>
    subst hpost
    have hnone : h.next id = none := hlast id (by simp)
    rw [hnone]
    refine ⟨_, rfl, ⟨hnd', hfresh, halive _ rfl, ?_, ?_⟩, rfl, rfl⟩
    · rw [List.isChain_split]
      refine ⟨?_, ?_⟩
      · refine chain_congr_next (h := h) (fun i hi => ?_) (fun i hi => ?_) hc1
        · simp [Heap.alloc, Heap.set, upd, hpre_ne i hi, hpre_fr i hi]
        · have : i ≠ h.fresh := by
            rcases List.mem_append.1 hi with hi | hi
            · exact hpre_fr i hi
            · rw [List.mem_singleton.1 hi]; exact hne
          simp [Heap.alloc, Heap.set, upd, this]
      · simp [Heap.alloc, Heap.set, upd]
    · intro x hx
      rw [getLast?_cons_append] at hx
      simp at hx
      subst hx
      simp [Heap.alloc, Heap.set, upd, Ne.symm hne]
  | cons x post' =>
    subst hpost
    rw [List.isChain_cons_cons] at hc2
    have hxne : x ≠ id := hpost_ne x (by simp)
    have hxfr : x ≠ h.fresh := hpost_fr x (by simp)
    have hal := w.alive x (by simp)
    obtain ⟨lx, hlx⟩ := Option.isSome_iff_exists.1 hal
    have hget : ((h.set id a).alloc b).1.get x = .ok lx := by
      simp [Heap.get, Heap.alloc, Heap.set, upd, hxne, hxfr, hlx]
    rw [hc2.1.1]
    dsimp only
    rw [hget, Res.ok_bind]
    refine ⟨_, rfl, ⟨hnd', hfresh, halive _ rfl, ?_, ?_⟩, rfl, rfl⟩
    · rw [List.isChain_split]
      have hnd2 := hnd.2.1.2
      rw [List.nodup_cons] at hnd2
      refine ⟨?_, ?_⟩
      · refine chain_congr_next (h := h) (fun i hi => ?_) (fun i hi => ?_) hc1
        · simp [Heap.alloc, Heap.set, upd, hpre_ne i hi, hpre_fr i hi]
        · have h1 : i ≠ h.fresh := by
            rcases List.mem_append.1 hi with hi | hi
            · exact hpre_fr i hi
            · rw [List.mem_singleton.1 hi]; exact hne
          have h2 : i ≠ x := by
            rcases List.mem_append.1 hi with hi | hi
            · exact hnd.2.2 i hi x (by simp)
            · rw [List.mem_singleton.1 hi]; exact Ne.symm hxne
          simp [Heap.alloc, Heap.set, upd, h1, h2]
      · rw [List.isChain_cons_cons, List.isChain_cons_cons]
        refine ⟨?_, ?_, ?_⟩
        · simp [Heap.alloc, Heap.set, upd]
        · simp [Heap.alloc, Heap.set, upd, Ne.symm hne, hxfr]
        · refine chain_congr_prev (h := h) (fun i hi => ?_) (fun i hi => ?_) hc2.2
          · simp [Heap.alloc, Heap.set, upd, hpost_ne i hi, hpost_fr i hi]
          · have h1 := hpost_fr i (List.mem_cons_of_mem _ hi)
            have h2 : i ≠ x := fun he => hnd2.1 (he ▸ hi)
            simp [Heap.alloc, Heap.set, upd, h1, h2]
    · intro y hy
      rw [getLast?_cons_append, List.getLast?_cons_cons, List.getLast?_cons_cons] at hy
      have hyl := hlast y (by rw [List.getLast?_cons_cons]; exact hy)
      have hym : y ∈ x :: post' := List.mem_of_getLast? hy
      simp [Heap.alloc, Heap.set, upd, hpost_ne y hym, hpost_fr y hym, hyl]

/-! ## Insert -/

/-- Leaves outside a subtree are untouched. -/
def Frame (h h' : Heap L) (is : List Nat) : Prop :=
  ∀ i, i ∉ is → i < h.fresh → h'.data i = h.data i

/-- What an insert into a subtree with range `[lo, hi)` leaves behind; `cont` are the new contents. -/
def InsPost (W : Laws o) (lm bm : Nat) (pre post : List Nat) (d top : Nat) (lo hi : Bd K)
    (cont : List (K × V)) (r : InsOut K L (Tree K d)) : Prop :=
  match r.split with
  | none => Bt W tt lm bm r.heap d top r.tree lo hi ∧ Wf r.heap (pre ++ ids d r.tree ++ post) ∧
      content W r.heap (ids d r.tree) = cont
  | some sr => Bt W tt lm bm r.heap d (occ lm bm d) r.tree lo (bk sr.1) ∧
      Bt W tt lm bm r.heap d (occ lm bm d) sr.2 (bk sr.1) hi ∧
      Wf r.heap (pre ++ (ids d r.tree ++ ids d sr.2) ++ post) ∧
      content W r.heap (ids d r.tree ++ ids d sr.2) = cont

theorem insertLeaf_spec (hlm : lm ≤ W.lmin) {top : Nat} {h : Heap L} {id : Nat} {lo hi : Bd K}
    {pre post : List Nat} {k : K} {v : V} (ha : W.adm k) (hb : Bt W tt lm bm h 0 top id lo hi) (hk : InR lo hi k)
    (w : Wf h (pre ++ id :: post)) :
    ∃ r, insertT o 0 h id k v = .ok r ∧ Frame h r.heap [id] ∧ h.fresh ≤ r.heap.fresh ∧
      (ids 0 r.tree).head? = (ids (K := K) 0 id).head? ∧
      InsPost W lm bm pre post 0 top lo hi (upsert k v (ent W h id)) r := by
  obtain ⟨hlt, l, hl, hok, htop, hbnd, _⟩ := hb
  have hent : ent W h id = W.abs l := by simp [ent, hl]
  have hin : ∀ e ∈ upsert k v (W.abs l), InR lo hi e.1 := by
    intro e he
    rcases mem_upsert he with he | he
    · rw [he]; exact hk
    · exact hbnd e he
  rw [hent, insertT, insertLeaf]
  have hget : h.get id = .ok l := by rw [Heap.get, hl]; rfl
  rw [hget, Res.ok_bind]
  rcases W.insert l k v hok ha with ⟨l', e, hok', habs⟩ | ⟨a, b, s, e, hoka, hokb, habs, has, hbs, hla, hlb⟩
  · rw [e, Res.ok_bind]
    refine ⟨_, rfl, ?_, le_rfl, rfl, ?_, ?_, ?_⟩
    · intro i hi _
      have : i ≠ id := by simpa using hi
      simp [Heap.set, upd, this]
    · refine ⟨hlt, l', by simp [Heap.set, upd], hok', ?_, ?_, trivial⟩
      · rw [habs]
        rcases upsert_length (k := k) (v := v) (l := W.abs l) with h | h <;> omega
      · rw [habs]; exact hin
    · simpa [ids] using w.set id l'
    · simp [ids, content, ent, Heap.set, upd, habs]
  · rw [e, Res.ok_bind]
    obtain ⟨h', el, w', hdata, hfr⟩ := link_wf w a b
    have el' : linkAfter ((h.set id a).alloc b).1 id ((h.set id a).alloc b).2 = .ok h' := el
    dsimp only
    rw [el', Res.ok_bind]
    have hne : id ≠ h.fresh := (w.fresh id (by simp)).ne
    have hal : ∃ e, e ∈ W.abs a := List.exists_mem_of_length_pos (by have := W.lmin_pos; omega)
    have hbl : ∃ e, e ∈ W.abs b := List.exists_mem_of_length_pos (by have := W.lmin_pos; omega)
    obtain ⟨ea, hea⟩ := hal
    obtain ⟨eb, heb⟩ := hbl
    have hina : ∀ e ∈ W.abs a, InR lo hi e.1 := fun e he => hin e (by rw [← habs]; simp [he])
    have hinb : ∀ e ∈ W.abs b, InR lo hi e.1 := fun e he => hin e (by rw [← habs]; simp [he])
    refine ⟨_, rfl, ?_, ?_, rfl, ?_, ?_, ?_, ?_⟩
    · intro i hi hif
      have h1 : i ≠ id := by simpa using hi
      simp only
      rw [hdata]; simp [upd, h1, hif.ne]
    · simp only; omega
    · refine ⟨lt_of_le_of_lt (hina ea hea).1 (bk_lt.2 (has ea hea)), a, ?_, hoka, by simp only [occ]; omega,
        fun e he => ⟨(hina e he).1, bk_lt.2 (has e he)⟩, trivial⟩
      simp only
      rw [hdata]; simp [upd, hne]
    · refine ⟨lt_of_le_of_lt (bk_le.2 (hbs eb heb)) (hinb eb heb).2, b, ?_, hokb, by simp only [occ]; omega,
        fun e he => ⟨bk_le.2 (hbs e he), (hinb e he).2⟩, trivial⟩
      simp only [Heap.alloc]
      rw [hdata]; simp [upd, Heap.set]
    · simpa [ids, Heap.alloc, Heap.set] using w'
    · simp [ids, content, ent, Heap.alloc, Heap.set, hdata, upd, hne, habs]

theorem mem_disjoint {pre A B C post : List Nat} (hn : (pre ++ (A ++ B ++ C) ++ post).Nodup) :
    (∀ i ∈ A, i ∉ B) ∧ (∀ i ∈ C, i ∉ B) ∧ (∀ i ∈ pre, i ∉ B) ∧ (∀ i ∈ post, i ∉ B) := by
  simp only [List.nodup_append, List.mem_append] at hn
  obtain ⟨⟨hpre, ⟨⟨hA, hB, hAB⟩, hC, hABC⟩, hpreABC⟩, hpost, hall⟩ := hn
  refine ⟨fun i h1 h2 => hAB i h1 i h2 rfl, fun i h1 h2 => hABC i (Or.inr h2) i h1 rfl,
    fun i h1 h2 => hpreABC i h1 i (Or.inl (Or.inr h2)) rfl,
    fun i h1 h2 => hall i (Or.inr (Or.inl (Or.inr h2))) i h1 rfl⟩

theorem tile_mem {P : T → Bd K → Bd K → Prop} : ∀ {cs : List T} {bs : List (Bd K)}, Tile P cs bs →
    ∀ c ∈ cs, ∃ a b, P c a b
  | [], _, _, c, hc => by simp at hc
  | x :: cs, b0 :: b1 :: bs, ht, c, hc => by
    rcases List.mem_cons.1 hc with hc | hc
    · subst hc; exact ⟨_, _, ht.1⟩
    · exact tile_mem ht.2 c hc
  | _ :: _, [], ht, _, _ => ht.elim
  | _ :: _, [_], ht, _, _ => ht.elim

/-- A tree has a leaf. -/
theorem ids_cons {Q : L → Bd K → Bd K → Prop} {h : Heap L} : ∀ {d top : Nat} {t : Tree K d} {lo hi : Bd K},
    Bt W Q lm bm h d top t lo hi → ∃ x rest, ids d t = x :: rest := by
  intro d
  induction d with
  | zero => intro top t lo hi _; exact ⟨t, [], rfl⟩
  | succ d ih =>
    intro top n lo hi ⟨cs, ks, hr, htop, ht⟩
    cases cs with
    | nil => have := hr.len; simp at this
    | cons c cs =>
      obtain ⟨a, b, hc⟩ := tile_mem ht c (by simp)
      obtain ⟨x, rest, hx⟩ := ih hc
      exact ⟨x, _, by rw [ids_rep hr, List.flatMap_cons, hx]; rfl⟩

theorem insertT_spec (hlm : lm ≤ W.lmin) (hbm : bm ≤ (o.N - 1) / 2) (hN : 2 ≤ o.N) (k : K) (v : V)
    (ha : W.adm k) : ∀ (d top : Nat) (h : Heap L) (t : Tree K d) (lo hi : Bd K) (pre post : List Nat),
    Bt W tt lm bm h d top t lo hi → InR lo hi k → Wf h (pre ++ ids d t ++ post) →
    ∃ r, insertT o d h t k v = .ok r ∧ Frame h r.heap (ids d t) ∧ h.fresh ≤ r.heap.fresh ∧
      (ids d r.tree).head? = (ids d t).head? ∧
      InsPost W lm bm pre post d top lo hi (upsert k v (content W h (ids d t))) r := by
  intro d
  induction d with
  | zero =>
    intro top h t lo hi pre post hb hk w
    have := insertLeaf_spec (pre := pre) (post := post) (v := v) hlm ha hb hk (by simpa [ids] using w)
    simpa [ids, content] using this
  | succ d ih =>
    intro top h n lo hi pre post hb hk w
    obtain ⟨cs, ks, hr, htop, ht⟩ := hb
    obtain ⟨hks, _, _⟩ := keys_sorted (fun c a b hc => Bt.lt hc) ht
    obtain ⟨c1, c, c2, k1, k2, b1, m, m', b2, f⟩ := exists_focus W (fun c a b hc => Bt.lt hc) ht hk
    rw [insertT, f.lookupPos hr hks, Res.ok_bind, f.rdKid hr, Res.ok_bind]
    have hids : ids (d + 1) n = c1.flatMap (ids d) ++ ids d c ++ c2.flatMap (ids d) := by
      rw [ids_rep hr, f.hcs]; simp
    rw [hids] at w ⊢
    have hnd := mem_disjoint w.nodup
    obtain ⟨r, er, hframe, hfresh, hhead, hpost⟩ := ih (occ lm bm d) h c m m' (pre ++ c1.flatMap (ids d))
      (c2.flatMap (ids d) ++ post) f.pc f.inR (by simpa using w)
    rw [er, Res.ok_bind]
    have hfr1 : ∀ i ∈ c1.flatMap (ids d), r.heap.data i = h.data i := fun i hi =>
      hframe i (hnd.1 i hi) (w.fresh i (by simp only [List.mem_append]; tauto))
    have hfr2 : ∀ i ∈ c2.flatMap (ids d), r.heap.data i = h.data i := fun i hi =>
      hframe i (hnd.2.1 i hi) (w.fresh i (by simp only [List.mem_append]; tauto))
    have ht1 := Tile.frame (Q' := tt) (h' := r.heap) (fun _ _ _ x => x) hfr1 f.t1
    have ht2 := Tile.frame (Q' := tt) (h' := r.heap) (fun _ _ _ x => x) hfr2 f.t2
    have hcont : upsert k v (content W h (c1.flatMap (ids d) ++ ids d c ++ c2.flatMap (ids d))) =
        content W h (c1.flatMap (ids d)) ++ upsert k v (content W h (ids d c)) ++
          content W h (c2.flatMap (ids d)) := by
      rw [content_append, content_append, upsert_append_left, upsert_append_right]
      · intro e he
        exact bk_lt.1 (lt_of_lt_of_le (f.left_lt e he) f.inR.1)
      · intro e he
        exact bk_lt.1 (lt_of_lt_of_le f.inR.2 (f.right_ge e he))
    have hFr : Frame h r.heap (c1.flatMap (ids d) ++ ids d c ++ c2.flatMap (ids d)) := fun i hi hif =>
      hframe i (fun hc => hi (by simp only [List.mem_append]; tauto)) hif
    have hr' := hr
    rw [f.hcs, f.hks] at hr'
    obtain ⟨kids, ek, hrk⟩ := hr'.setKid r.tree
    rw [← f.l1, ek, Res.ok_bind, f.l1]
    dsimp only
    unfold InsPost at hpost
    cases hsp : r.split with
    | none =>
      rw [hsp] at hpost
      obtain ⟨hbt, hwf, hct⟩ := hpost
      have hidn : ids (d + 1) ({ n with kids := kids } : BNode K (Tree K d)) =
          c1.flatMap (ids d) ++ ids d r.tree ++ c2.flatMap (ids d) := by
        rw [ids_rep hrk]; simp
      refine ⟨_, rfl, hFr, hfresh, ?_, ?_, ?_, ?_⟩
      · simp only
        rw [hidn, List.head?_append, List.head?_append, hhead, List.head?_append, List.head?_append]
      · refine ⟨_, _, hrk, by rw [← f.hks]; exact htop, ?_⟩
        have := tile_unfocus (xs := [r.tree]) (ys := []) f.hb1 f.hb2 f.lb rfl ht1 ⟨hbt, trivial⟩ ht2
        simpa using this
      · simp only
        rw [hidn]; simpa using hwf
      · simp only
        rw [hidn, content_append, content_append, hct, content_congr W hfr1, content_congr W hfr2, hcont]
    | some sr =>
      rw [hsp] at hpost
      obtain ⟨hbl, hbr, hwf, hct⟩ := hpost
      dsimp only
      have htile : Tile (Bt W tt lm bm r.heap d (occ lm bm d)) (c1 ++ r.tree :: sr.2 :: c2)
          (bnds lo (k1 ++ sr.1 :: k2) hi) := by
        have := tile_unfocus (xs := [r.tree, sr.2]) (ys := [sr.1]) f.hb1 f.hb2 f.lb rfl ht1
          ⟨hbl, hbr, trivial⟩ ht2
        simpa using this
      obtain ⟨hks', _, _⟩ := keys_sorted (fun c a b hc => Bt.lt hc) htile
      obtain ⟨out, eo, hoh, hout⟩ := insertEntry_spec W hN r.heap k sr.1 r.tree sr.2 hrk f.l1 f.l2 hks'
        f.le f.gt
      rw [eo]
      have hcall : content W r.heap (c1.flatMap (ids d) ++ (ids d r.tree ++ ids d sr.2) ++
          c2.flatMap (ids d)) = upsert k v (content W h (c1.flatMap (ids d) ++ ids d c ++
            c2.flatMap (ids d))) := by
        rw [content_append, content_append, hct, content_congr W hfr1, content_congr W hfr2, hcont]
      refine ⟨out, rfl, by rw [hoh]; exact hFr, by rw [hoh]; exact hfresh, ?_, ?_⟩
      · have hall : (c1.flatMap (ids d) ++ (ids d r.tree ++ ids d sr.2) ++ c2.flatMap (ids d)).head? =
            (c1.flatMap (ids d) ++ ids d c ++ c2.flatMap (ids d)).head? := by
          simp only [List.head?_append, hhead]
          obtain ⟨x, rest, hx⟩ := ids_cons f.pc
          rw [hx]
          cases (c1.flatMap (ids d)).head? <;> simp
        rw [← hall]
        rcases hout with ⟨hnone, hrep⟩ | ⟨key, right, cl, cr, kl, kr, hsome, hrl, hrr, hcc, hkk, hlen, hm1, hm2⟩
        · rw [ids_rep hrep]; simp
        · have hidn : (cl ++ cr).flatMap (ids d) =
              c1.flatMap (ids d) ++ (ids d r.tree ++ ids d sr.2) ++ c2.flatMap (ids d) := by
            rw [hcc]; simp
          rw [← hidn, ids_rep hrl, List.flatMap_append, List.head?_append]
          rw [← hcc, ← hkk, tile_split_key hlen] at htile
          cases cl with
          | nil => simp at hlen
          | cons y cl =>
            obtain ⟨a, b, hy⟩ := tile_mem htile.1 y (by simp)
            obtain ⟨x, rest, hx⟩ := ids_cons hy
            rw [List.flatMap_cons, hx]; rfl
      unfold InsPost
      rcases hout with ⟨hnone, hrep⟩ | ⟨key, right, cl, cr, kl, kr, hsome, hrl, hrr, hcc, hkk, hlen, hm1, hm2⟩
      · rw [hnone]
        simp only
        have hidn : ids (d + 1) out.tree =
            c1.flatMap (ids d) ++ (ids d r.tree ++ ids d sr.2) ++ c2.flatMap (ids d) := by
          rw [ids_rep hrep]; simp
        refine ⟨⟨_, _, hrep, ?_, by rw [hoh]; exact htile⟩, ?_, ?_⟩
        · rw [f.hks] at htop; simp at htop ⊢; omega
        · rw [hidn, hoh]; simpa using hwf
        · rw [hidn, hoh]; exact hcall
      · rw [hsome]
        simp only
        have hidn : ids (d + 1) out.tree ++ ids (d + 1) right =
            c1.flatMap (ids d) ++ (ids d r.tree ++ ids d sr.2) ++ c2.flatMap (ids d) := by
          rw [ids_rep hrl, ids_rep hrr, ← List.flatMap_append, hcc]; simp
        rw [← hcc, ← hkk, tile_split_key hlen] at htile
        rw [hoh]
        refine ⟨⟨_, _, hrl, by simp only [occ]; omega, htile.1⟩, ⟨_, _, hrr, by simp only [occ]; omega, htile.2⟩, ?_, ?_⟩
        · rw [hidn]; simpa using hwf
        · rw [hidn]; exact hcall

end Verif.BTree
