import Verif.BTree.RestartTree
import Verif.BTree.Hist
import Verif.BTree.EraseLeaf

/-!
# Erases after a restart of the HPBPTree

The first leaf of a restarted tree is also its own left sibling in the branch node, but its `prevLeaf` is null
(HPBPTree.hpp:789).  `NP`: no call ever gives the first leaf a predecessor.  `LN`: the leftmost branch nodes of
a restarted tree do not underflow.
-/

set_option linter.unusedSectionVars false
set_option linter.unusedSimpArgs false

namespace Verif.BTree

open Assoc MapSpec
open Verif.Slots hiding none

variable {K V L : Type} [LinearOrder K] {o : Ops K V L} {W : Laws o} {lm : Nat} {h : Heap L} {g : Nat} {k0 : K}

/-! ## The first leaf has no predecessor -/

/-- No leaf points to `i`, and `i` points to no predecessor. -/
structure NP (h : Heap L) (i : Nat) : Prop where
  prev : h.prev i = none
  fresh : i < h.fresh
  next : ∀ j, h.next j ≠ some i

theorem NP.set {i id : Nat} {l : L} (hp : NP h i) : NP (h.set id l) i := ⟨hp.prev, hp.fresh, hp.next⟩

theorem NP.free {i id : Nat} (hp : NP h i) : NP (h.free id) i := ⟨hp.prev, hp.fresh, hp.next⟩

theorem NP.alloc {i : Nat} {l : L} (hp : NP h i) : NP (h.alloc l).1 i := by
  have hne : i ≠ h.fresh := hp.fresh.ne
  refine ⟨by simp [Heap.alloc, upd, hne, hp.prev], Nat.lt_succ_of_lt hp.fresh, fun j => ?_⟩
  simp only [Heap.alloc, upd]
  split
  · simp
  · exact hp.next j

theorem NP.link {i id new : Nat} {h' : Heap L} (hp : NP h i) (hne : new ≠ i) (e : linkAfter h id new = .ok h') :
    NP h' i := by
  unfold linkAfter at e
  cases hn : h.next id with
  | none =>
    rw [hn] at e
    rw [← Res.ok.inj e]
    refine ⟨by simp [upd, hne.symm, hp.prev], hp.fresh, fun j => ?_⟩
    simp only [upd]
    split
    · simpa using hne
    · exact hp.next j
  | some x =>
    rw [hn] at e
    obtain ⟨y, _, e⟩ := Res.bind_eq_ok.1 e
    rw [← Res.ok.inj e]
    have hx : x ≠ i := by
      intro hx; rw [hx] at hn; exact hp.next id hn
    refine ⟨by simp [upd, hne.symm, hx.symm, hp.prev], hp.fresh, fun j => ?_⟩
    simp only [upd]
    split
    · simpa using hne
    · split
      · simpa using hx
      · exact hp.next j

theorem NP.insertLeaf {i id : Nat} {k : K} {v : V} {r : Heap L × Option (K × Nat)} (hp : NP h i)
    (e : insertLeaf o h id k v = .ok r) : NP r.1 i := by
  unfold BTree.insertLeaf at e
  obtain ⟨l, _, e⟩ := Res.bind_eq_ok.1 e
  obtain ⟨q, _, e⟩ := Res.bind_eq_ok.1 e
  cases q with
  | done l' => rw [← Res.ok.inj e]; exact hp.set
  | split a b s =>
    obtain ⟨h', e1, e⟩ := Res.bind_eq_ok.1 e
    rw [← Res.ok.inj e]
    exact NP.link (hp.set (id := id) (l := a)).alloc (by
      have := hp.fresh; simp [Heap.alloc, Heap.set]; omega) e1

theorem insertEntry_heap {α : Type} {n : BNode K α} {pos : Nat} {k s : K} {l r : α} {out : InsOut K L (BNode K α)}
    (e : insertEntry o h n pos k s l r = .ok out) : out.heap = h := by
  unfold insertEntry at e
  split at e
  · obtain ⟨sp, _, e⟩ := Res.bind_eq_ok.1 e
    split at e
    · obtain ⟨p, _, e⟩ := Res.bind_eq_ok.1 e
      obtain ⟨q, _, e⟩ := Res.bind_eq_ok.1 e
      rw [← Res.ok.inj e]
    · obtain ⟨p, _, e⟩ := Res.bind_eq_ok.1 e
      obtain ⟨q, _, e⟩ := Res.bind_eq_ok.1 e
      rw [← Res.ok.inj e]
  · obtain ⟨q, _, e⟩ := Res.bind_eq_ok.1 e
    rw [← Res.ok.inj e]

theorem NP.insertT {i : Nat} {k : K} {v : V} : ∀ {d : Nat} {h : Heap L} {t : Tree K d} {r : InsOut K L (Tree K d)},
    NP h i → insertT o d h t k v = .ok r → NP r.heap i := by
  intro d
  induction d with
  | zero =>
    intro h t r hp e
    rw [BTree.insertT] at e
    obtain ⟨q, eq, e⟩ := Res.bind_eq_ok.1 e
    rw [← Res.ok.inj e]; exact hp.insertLeaf eq
  | succ d ih =>
    intro h t r hp e
    rw [BTree.insertT] at e
    obtain ⟨p, _, e⟩ := Res.bind_eq_ok.1 e
    obtain ⟨c, _, e⟩ := Res.bind_eq_ok.1 e
    obtain ⟨q, eq, e⟩ := Res.bind_eq_ok.1 e
    obtain ⟨kids, _, e⟩ := Res.bind_eq_ok.1 e
    have hq := ih hp eq
    cases hs : q.split with
    | none => rw [hs] at e; rw [← Res.ok.inj e]; exact hq
    | some sr =>
      rw [hs] at e
      rw [insertEntry_heap e]; exact hq

theorem NP.insert {i : Nat} {k : K} {v : V} {s s' : State K L} (hp : NP s.heap i) (e : insert o s k v = .ok s') :
    NP s'.heap i := by
  unfold BTree.insert at e
  obtain ⟨q, eq, e⟩ := Res.bind_eq_ok.1 e
  have hq := hp.insertT eq
  cases hs : q.split with
  | none => rw [hs] at e; rw [← Res.ok.inj e]; exact hq
  | some sr =>
    rw [hs] at e
    obtain ⟨root, _, e⟩ := Res.bind_eq_ok.1 e
    rw [← Res.ok.inj e]; exact hq

theorem NP.eraseLeaf {i id : Nat} {k : K} {r : Bool × Heap L} (hp : NP h i) (e : eraseLeaf o h id k = .ok r) :
    NP r.2 i := by
  unfold BTree.eraseLeaf at e
  obtain ⟨l, _, e⟩ := Res.bind_eq_ok.1 e
  obtain ⟨q, _, e⟩ := Res.bind_eq_ok.1 e
  rw [← Res.ok.inj e]; exact hp.set

theorem NP.balanceLeaf {i a b : Nat} {h' : Heap L} (hp : NP h i) (e : balanceLeaf o h a b = .ok h') : NP h' i := by
  unfold BTree.balanceLeaf at e
  obtain ⟨x, _, e⟩ := Res.bind_eq_ok.1 e
  obtain ⟨y, _, e⟩ := Res.bind_eq_ok.1 e
  obtain ⟨z, _, e⟩ := Res.bind_eq_ok.1 e
  rw [← Res.ok.inj e]; exact hp.set.set

theorem NP.mergeLeaf {i a b : Nat} {h' : Heap L} (hp : NP h i) (e : mergeLeaf o h a b = .ok h') : NP h' i := by
  unfold BTree.mergeLeaf at e
  obtain ⟨x, _, e⟩ := Res.bind_eq_ok.1 e
  obtain ⟨y, _, e⟩ := Res.bind_eq_ok.1 e
  obtain ⟨c, _, e⟩ := Res.bind_eq_ok.1 e
  have hnx : ∀ j, (upd (h.set a c).next a ((h.set a c).next b)) j ≠ some i := by
    intro j
    simp only [upd]
    split
    · exact hp.next b
    · exact hp.next j
  cases hn : h.next b with
  | none =>
    rw [hn] at e
    rw [← Res.ok.inj e]
    exact ⟨hp.prev, hp.fresh, hnx⟩
  | some x =>
    rw [hn] at e
    obtain ⟨y, _, e⟩ := Res.bind_eq_ok.1 e
    rw [← Res.ok.inj e]
    have hx : x ≠ i := by
      intro hx; rw [hx] at hn; exact hp.next b hn
    refine ⟨?_, hp.fresh, hnx⟩
    show upd h.prev x (some a) i = none
    simp [upd, hx.symm, hp.prev]

theorem dropChild_heap {n : BNode K Nat} {pos sv : Nat} {r : EOut L (BNode K Nat) Nat}
    (e : dropChild o h n pos sv = .ok r) : r.heap = h := by
  unfold dropChild at e
  split at e
  · obtain ⟨x, _, e⟩ := Res.bind_eq_ok.1 e
    obtain ⟨y, _, e⟩ := Res.bind_eq_ok.1 e
    obtain ⟨z, _, e⟩ := Res.bind_eq_ok.1 e
    rw [← Res.ok.inj e]
  · rw [← Res.ok.inj e]

theorem NP.underflowLeaf {i pos id : Nat} {n : BNode K Nat} {r : EOut L (BNode K Nat) Nat} (hp : NP h i)
    (e : underflowLeaf o h n pos id = .ok r) : NP r.heap i := by
  unfold BTree.underflowLeaf at e
  obtain ⟨_, _, e⟩ := Res.bind_eq_ok.1 e
  obtain ⟨ls, _, e⟩ := Res.bind_eq_ok.1 e
  split at e
  · obtain ⟨h1, e1, e⟩ := Res.bind_eq_ok.1 e
    obtain ⟨_, _, e⟩ := Res.bind_eq_ok.1 e
    obtain ⟨_, _, e⟩ := Res.bind_eq_ok.1 e
    obtain ⟨_, _, e⟩ := Res.bind_eq_ok.1 e
    rw [← Res.ok.inj e]; exact hp.balanceLeaf e1
  · obtain ⟨rs, _, e⟩ := Res.bind_eq_ok.1 e
    split at e
    · obtain ⟨h1, e1, e⟩ := Res.bind_eq_ok.1 e
      obtain ⟨_, _, e⟩ := Res.bind_eq_ok.1 e
      obtain ⟨_, _, e⟩ := Res.bind_eq_ok.1 e
      obtain ⟨_, _, e⟩ := Res.bind_eq_ok.1 e
      rw [← Res.ok.inj e]; exact hp.balanceLeaf e1
    · split at e
      · obtain ⟨h1, e1, e⟩ := Res.bind_eq_ok.1 e
        rw [dropChild_heap e]; exact hp.mergeLeaf e1
      · split at e
        · obtain ⟨h1, e1, e⟩ := Res.bind_eq_ok.1 e
          rw [dropChild_heap e]; exact hp.mergeLeaf e1
        · exact absurd e (by simp)

theorem NP.eraseB {i : Nat} {k : K} : ∀ {d : Nat} {top : Bool} {h : Heap L} {n : BNode K (Tree K d)}
    {r : EOut L (BNode K (Tree K d)) (Tree K d)}, NP h i → eraseB o d top h n k = .ok r → NP r.heap i := by
  intro d
  induction d with
  | zero =>
    intro top h n r hp e
    rw [BTree.eraseB, eraseB0] at e
    obtain ⟨p, _, e⟩ := Res.bind_eq_ok.1 e
    obtain ⟨id, _, e⟩ := Res.bind_eq_ok.1 e
    obtain ⟨q, eq, e⟩ := Res.bind_eq_ok.1 e
    obtain ⟨l, _, e⟩ := Res.bind_eq_ok.1 e
    have hq := hp.eraseLeaf eq
    split at e
    · obtain ⟨u, eu, e⟩ := Res.bind_eq_ok.1 e
      rw [← Res.ok.inj e]; exact NP.underflowLeaf (r := u) hq eu
    · rw [← Res.ok.inj e]; exact hq
  | succ d ih =>
    intro top h n r hp e
    rw [BTree.eraseB] at e
    obtain ⟨p, _, e⟩ := Res.bind_eq_ok.1 e
    obtain ⟨c, _, e⟩ := Res.bind_eq_ok.1 e
    obtain ⟨q, eq, e⟩ := Res.bind_eq_ok.1 e
    obtain ⟨_, _, e⟩ := Res.bind_eq_ok.1 e
    obtain ⟨kids, _, e⟩ := Res.bind_eq_ok.1 e
    obtain ⟨p2, _, e⟩ := Res.bind_eq_ok.1 e
    have hq := ih hp eq
    split at e
    · obtain ⟨u, _, e⟩ := Res.bind_eq_ok.1 e
      split at e
      · rw [← Res.ok.inj e]; exact hq
      · rw [← Res.ok.inj e]; exact hq
    · rw [← Res.ok.inj e]; exact hq

theorem NP.erase {i : Nat} {k : K} {s : State K L} {r : Bool × State K L} (hp : NP s.heap i)
    (e : erase o s k = .ok r) : NP r.2.heap i := by
  obtain ⟨d, t, h⟩ := s
  unfold BTree.erase at e
  dsimp only at e hp
  cases d with
  | zero =>
    rw [eraseT] at e
    obtain ⟨q, eq, e⟩ := Res.bind_eq_ok.1 e
    rw [← Res.ok.inj e]; exact hp.eraseLeaf eq
  | succ d =>
    rw [eraseT] at e
    obtain ⟨q, eq, e⟩ := Res.bind_eq_ok.1 e
    have hq := hp.eraseB eq
    cases hn : q.newRoot with
    | none => rw [hn] at e; rw [← Res.ok.inj e]; exact hq
    | some t => rw [hn] at e; rw [← Res.ok.inj e]; exact hq

theorem NP.execAll {i : Nat} : ∀ {ops : List (Op K V)} {s : State K L} {r : List Bool × State K L}, NP s.heap i →
    execAll o s ops = .ok r → NP r.2.heap i
  | [], s, r, hp, e => by
    rw [BTree.execAll] at e; rw [← Res.ok.inj e]; exact hp
  | op :: ops, s, r, hp, e => by
    rw [BTree.execAll] at e
    obtain ⟨q, eq, e⟩ := Res.bind_eq_ok.1 e
    obtain ⟨q', eq', e⟩ := Res.bind_eq_ok.1 e
    rw [← Res.ok.inj e]
    refine NP.execAll (ops := ops) (s := q.2) (r := q') ?_ eq'
    cases op with
    | insert k v =>
      rw [exec] at eq
      obtain ⟨s1, e1, eq⟩ := Res.bind_eq_ok.1 eq
      rw [← Res.ok.inj eq]; exact hp.insert e1
    | erase k => rw [exec] at eq; exact hp.erase eq

theorem init_np : NP (init o : State K L).heap 0 := by
  refine ⟨?_, ?_, fun j => ?_⟩ <;> simp [init, Heap.alloc, upd]

/-! ## Erases from the first leaf -/

/-- The search path of a key in the first leaf, in the lowest node. -/
theorem first_path_zero {n : BNode K (Tree K 0)} {hi : Bd K} {is : List Nat} {l : L} {k : K} {v : V}
    (hb : GB W lm h g k0 0 n hi) (hids : ids 1 n = g :: g :: is) (hl : h.data g = some l) (hk : (k, v) ∈ W.abs l) :
    1 ≤ n.num ∧ lookupPos o n k = .ok 1 ∧ rd (o.N + 1) n.kids 1 = .ok g := by
  obtain ⟨cs, ks, hr, ht⟩ := hb
  rw [ids_rep hr, List.flatMap_cons] at hids
  have hin : cs.flatMap (ids (K := K) 0) = g :: is := (List.cons.inj hids).2
  cases cs with
  | nil => simp at hin
  | cons c cs =>
    have hcg : c = g := (List.cons.inj hin).1
    subst hcg
    obtain ⟨hks, hlo, _⟩ := keys_sorted (fun c a b hc => Bt.lt hc) ht
    have hrange : k0 ≤ k ∧ ∀ x ∈ ks, k < x := by
      cases ks with
      | nil =>
        obtain ⟨⟨_, l', hl', _, _, hbd, _⟩, _⟩ := ht
        rw [hl] at hl'
        have := Option.some.inj hl'
        subst this
        exact ⟨bk_le.1 (hbd _ hk).1, by simp⟩
      | cons k1 ks =>
        obtain ⟨⟨_, l', hl', _, _, hbd, _⟩, _⟩ := ht
        rw [hl] at hl'
        have := Option.some.inj hl'
        subst this
        refine ⟨bk_le.1 (hbd _ hk).1, fun x hx => ?_⟩
        have h1 := bk_lt.1 (hbd _ hk).2
        rw [List.pairwise_cons] at hks
        rcases List.mem_cons.1 hx with hx | hx
        · rw [hx]; exact h1
        · exact lt_trans h1 (hks.1 x hx)
    refine ⟨by rw [hr.num]; simp, ?_, ?_⟩
    · unfold lookupPos
      rw [hr.num]
      exact W.search n.keys [k0] ks k hr.keys hr.cap (by
        rw [List.singleton_append, List.pairwise_cons]
        exact ⟨fun x hx => bk_lt.1 (hlo x hx), hks⟩) (by simpa using hrange.1) hrange.2
    · exact rd_mid (l := [c]) hr.kids (by have := hr.cap; simp at *; omega)

/-- The search path of a key in the first leaf, above. -/
theorem first_path_succ {d : Nat} {n : BNode K (Tree K (d + 1))} {hi : Bd K} {is : List Nat} {l : L} {k : K} {v : V}
    (hb : GB W lm h g k0 (d + 1) n hi) (hids : ids (d + 2) n = g :: g :: is) (hl : h.data g = some l)
    (hk : (k, v) ∈ W.abs l) :
    ∃ (c : BNode K (Tree K d)) (b : Bd K) (js : List Nat), lookupPos o n k = .ok 0 ∧ n.kids 0 = some c ∧
      GB W lm h g k0 d c b ∧ ids (d + 1) c = g :: g :: js := by
  obtain ⟨c, cs, ks, b, bs, hr, hbs, hc, ht⟩ := GB.succ_iff.1 hb
  obtain ⟨x, js, ej⟩ := hc.ids_eq
  rw [ids_rep hr, List.flatMap_cons, ej, List.cons_append] at hids
  have hin : x :: (js ++ cs.flatMap (ids (d + 1))) = g :: is := (List.cons.inj hids).2
  have hxg : x = g := (List.cons.inj hin).1
  subst hxg
  have hkb : bk k < b := (hc.bounds ej (k, v) (by
    rw [content_cons]; exact List.mem_append_left _ (by rw [ent, hl]; exact hk))).2
  have hs := Tile.sorted (fun c a b hc => Bt.lt hc) ht
  have hgt : ∀ y ∈ ks, k < y := by
    intro y hy
    have : bk y ∈ b :: bs := by
      rw [← hbs]; exact List.mem_append_left _ (List.mem_map.2 ⟨y, hy, rfl⟩)
    rw [List.pairwise_cons] at hs
    rcases List.mem_cons.1 this with h1 | h1
    · rw [← h1] at hkb; exact bk_lt.1 hkb
    · exact bk_lt.1 (lt_trans hkb (hs.1 _ h1))
  have hks : ks.Pairwise (· < ·) := by
    rw [← hbs, List.pairwise_append, List.pairwise_map] at hs
    exact hs.1.imp (fun h => bk_lt.1 h)
  refine ⟨c, b, js, ?_, rep_mid (l := []) hr.kids, hc, ej⟩
  unfold lookupPos
  rw [hr.num]
  exact W.search n.keys [] ks k hr.keys hr.cap hks (by simp) hgt

/-- An erase that leaves enough entries in the first leaf. -/
theorem eraseB_keep {l l' : L} {k : K} {v : V} {del : Bool} (hl : h.data g = some l) (hk : (k, v) ∈ W.abs l)
    (he : o.erase l k = .ok (del, l')) (hnum : (o.M + 1) / 2 ≤ o.num l') : ∀ {d : Nat} {top : Bool}
    {n : BNode K (Tree K d)} {hi : Bd K} {is : List Nat}, GB W lm h g k0 d n hi → ids (d + 1) n = g :: g :: is →
    LN o.N d top n → eraseB o d top h n k = .ok ⟨del, h.set g l', n, none⟩ := by
  have hel : eraseLeaf o h g k = .ok (del, h.set g l') := by
    unfold BTree.eraseLeaf
    rw [Heap.get, hl, Res.ofOption_some, Res.ok_bind, he, Res.ok_bind]; rfl
  intro d
  induction d with
  | zero =>
    intro top n hi is hb hids _
    obtain ⟨_, h1, h2⟩ := first_path_zero hb hids hl hk
    have hg : (h.set g l').get g = .ok l' := by simp [Heap.get, Heap.set, upd]
    rw [BTree.eraseB, eraseB0, h1, Res.ok_bind, h2, Res.ok_bind, hel, Res.ok_bind]
    dsimp only
    rw [hg, Res.ok_bind, if_neg (by omega)]; rfl
  | succ d ih =>
    intro top n hi is hb hids hln
    obtain ⟨c, b, js, h1, h2, hc, ej⟩ := first_path_succ hb hids hl hk
    obtain ⟨_, c', h3, h4⟩ := hln
    rw [h2] at h3
    have h3 := Option.some.inj h3
    subst h3
    have hrd : rd (o.N + 1) n.kids 0 = .ok c := by
      unfold rd; rw [if_pos (by omega), h2]; rfl
    have hcn : (o.N + 1) / 2 ≤ c.num := by
      cases d with
      | zero => rcases h4 with h4 | h4
                · exact absurd h4 (by simp)
                · exact h4
      | succ d => rcases h4.1 with h4 | h4
                  · exact absurd h4 (by simp)
                  · exact h4
    have hsame : ({ n with kids := fun j => if j = 0 then some c else n.kids j } : BNode K (Tree K (d + 1))) = n := by
      have : (fun j => if j = 0 then some c else n.kids j) = n.kids := by
        funext j
        by_cases hj : j = 0
        · rw [if_pos hj, hj, h2]
        · rw [if_neg hj]
      rw [this]
    rw [BTree.eraseB, h1, Res.ok_bind, hrd, Res.ok_bind, ih hc ej h4, Res.ok_bind]
    dsimp only
    rw [show Res.guardUB ((Option.none : Option (Tree K d)).isNone) = .ok () from rfl, Res.ok_bind,
      wr_ok _ _ (by omega), Res.ok_bind]
    rw [hsame, h1, Res.ok_bind, if_neg (by omega)]
    rfl

/-- An erase after which the first leaf has too few entries. -/
theorem eraseB_null {l l' : L} {k : K} {v : V} {del : Bool} (hl : h.data g = some l) (hk : (k, v) ∈ W.abs l)
    (he : o.erase l k = .ok (del, l')) (hnum : o.num l' < (o.M + 1) / 2) (hp : h.prev g = none) : ∀ {d : Nat}
    {top : Bool} {n : BNode K (Tree K d)} {hi : Bd K} {is : List Nat}, GB W lm h g k0 d n hi →
    ids (d + 1) n = g :: g :: is → eraseB o d top h n k = .ub := by
  have hel : eraseLeaf o h g k = .ok (del, h.set g l') := by
    unfold BTree.eraseLeaf
    rw [Heap.get, hl, Res.ofOption_some, Res.ok_bind, he, Res.ok_bind]; rfl
  intro d
  induction d with
  | zero =>
    intro top n hi is hb hids
    obtain ⟨h0, h1, h2⟩ := first_path_zero hb hids hl hk
    have hg : (h.set g l').get g = .ok l' := by simp [Heap.get, Heap.set, upd]
    rw [BTree.eraseB, eraseB0, h1, Res.ok_bind, h2, Res.ok_bind, hel, Res.ok_bind]
    dsimp only
    rw [hg, Res.ok_bind, if_pos hnum]
    unfold BTree.underflowLeaf
    rw [Res.assert_pos h0, Res.ok_bind]
    have hls : leftSib o (h.set g l') 1 g = .ub := by
      unfold leftSib
      rw [if_pos (by omega)]
      have : (h.set g l').prev g = none := hp
      rw [this]; rfl
    rw [hls]; rfl
  | succ d ih =>
    intro top n hi is hb hids
    obtain ⟨c, b, js, h1, h2, hc, ej⟩ := first_path_succ hb hids hl hk
    have hrd : rd (o.N + 1) n.kids 0 = .ok c := by
      unfold rd; rw [if_pos (by omega), h2]; rfl
    rw [BTree.eraseB, h1, Res.ok_bind, hrd, Res.ok_bind, ih hc ej]; rfl

/-- Fewer entries in the leaves. -/
theorem Bt.shrink {h' : Heap L} : ∀ {d top : Nat} {t : Tree K d} {lo hi : Bd K},
    Bt W tt lm 0 h d top t lo hi → top ≤ occ lm 0 d →
    (∀ i ∈ ids d t, ∃ l l', h.data i = some l ∧ h'.data i = some l' ∧ W.ok l' ∧ lm ≤ (W.abs l').length ∧
      ∀ e ∈ W.abs l', e ∈ W.abs l) →
    Bt W tt lm 0 h' d top t lo hi := by
  intro d
  induction d with
  | zero =>
    intro top t lo hi ⟨hlt, l, hl, hok, _, hb, _⟩ htop hd
    obtain ⟨l1, l2, h1, h2, h3, h4, h5⟩ := hd t (by simp [ids])
    rw [hl] at h1
    have h1 := Option.some.inj h1
    subst h1
    exact ⟨hlt, l2, h2, h3, le_trans htop h4, fun e he => hb e (h5 e he), trivial⟩
  | succ d ih =>
    intro top n lo hi ⟨cs, ks, hr, htop, ht⟩ _ hd
    exact ⟨cs, ks, hr, htop, ht.mono (fun c hc a b hb => ih hb le_rfl (fun i hi => hd i (mem_ids_child hr hc hi)))⟩

theorem GB.shrink {h' : Heap L} : ∀ {d : Nat} {n : BNode K (Tree K d)} {hi : Bd K} {is : List Nat},
    GB W lm h g k0 d n hi → ids (d + 1) n = g :: is →
    (∀ i ∈ is, ∃ l l', h.data i = some l ∧ h'.data i = some l' ∧ W.ok l' ∧ lm ≤ (W.abs l').length ∧
      ∀ e ∈ W.abs l', e ∈ W.abs l) →
    GB W lm h' g k0 d n hi := by
  intro d
  induction d with
  | zero =>
    intro n hi is ⟨cs, ks, hr, ht⟩ hids hd
    rw [ids_rep hr, List.flatMap_cons] at hids
    have : cs.flatMap (ids (K := K) 0) = is := (List.cons.inj hids).2
    refine ⟨cs, ks, hr, ht.mono (fun c hc a b hb => hb.shrink le_rfl (fun i hi => hd i ?_))⟩
    rw [← this]; exact List.mem_flatMap.2 ⟨c, hc, hi⟩
  | succ d ih =>
    intro n hi is hb hids hd
    obtain ⟨c, cs, ks, b, bs, hr, hbs, hc, ht⟩ := GB.succ_iff.1 hb
    obtain ⟨x, js, ej⟩ := hc.ids_eq
    rw [ids_rep hr, List.flatMap_cons, ej, List.cons_append] at hids
    have hin : x :: js ++ cs.flatMap (ids (d + 1)) = is := (List.cons.inj hids).2
    refine GB.succ_iff.2 ⟨c, cs, ks, b, bs, hr, hbs, ih hc ej (fun i hi => hd i ?_), ?_⟩
    · rw [← hin]; exact List.mem_append_left _ hi
    · refine ht.mono (fun y hy a b hb => hb.shrink (Nat.zero_le _) (fun i hi => hd i ?_))
      rw [← hin]; exact List.mem_append_right _ (List.mem_flatMap.2 ⟨y, hy, hi⟩)

/-- One of the erases of the next theorem. -/
theorem erase_smallest_step (E : EraseLaws W) (hQ : ∀ l a b, E.Q l a b)
    (hpre : ∀ l k, W.ok l → find k (W.abs l) ≠ none → E.pre l k) (hlm : lm ≤ (o.M + 1) / 2) (h1 : 1 ≤ lm) (m : Nat)
    (ih : 1 ≤ m → ∀ (d : Nat) (n : BNode K (Tree K d)) (h : Heap L) (is : List Nat) (l : L),
      GB W lm h g k0 d n ⊤ → ids (d + 1) n = g :: g :: is → (g :: is).Nodup → LN o.N d true n → h.prev g = none →
      h.data g = some l → (W.abs l).length ≤ (m - 1) + (o.M + 1) / 2 →
      execAll o (⟨d + 1, n, h⟩ : State K L)
        (((content W h (g :: is)).take ((m - 1) + 1)).map (fun e => (Op.erase e.1 : Op K V))) = .ub)
    (d : Nat) (n : BNode K (Tree K d)) (h : Heap L) (is : List Nat) (l : L)
    (hb : GB W lm h g k0 d n ⊤) (hids : ids (d + 1) n = g :: g :: is) (hnd : (g :: is).Nodup) (hln : LN o.N d true n)
    (hp : h.prev g = none) (hl : h.data g = some l) (hlen : (W.abs l).length ≤ m + (o.M + 1) / 2) :
    execAll o (⟨d + 1, n, h⟩ : State K L)
      (((content W h (g :: is)).take (m + 1)).map (fun e => (Op.erase e.1 : Op K V))) = .ub := by
  obtain ⟨l0, hl0, hok, hlen0⟩ := hb.leaf hids g (by simp)
  rw [hl] at hl0
  have hl0 := Option.some.inj hl0
  subst hl0
  obtain ⟨e, es, hab⟩ : ∃ e es, W.abs l = e :: es := by
    cases hh : W.abs l with
    | nil => rw [hh] at hlen0; simp at hlen0; omega
    | cons e es => exact ⟨e, es, rfl⟩
  have hsort := W.sorted l hok
  have hcont : content W h (g :: is) = e :: (es ++ content W h is) := by
    rw [content_cons, ent, hl]
    show W.abs l ++ _ = _
    rw [hab]; rfl
  have hbd := hb.bounds hids
  have hin : ∀ x ∈ W.abs l, InR (bk k0) ⊤ x.1 := fun x hx => hbd x (by
    rw [content_cons]; exact List.mem_append_left _ (by rw [ent, hl]; exact hx))
  have hfind : find e.1 (W.abs l) ≠ none := by
    rw [hab, find_cons, if_pos rfl]; simp
  obtain ⟨l', he, hok', habs', _⟩ := E.erase l e.1 (bk k0) ⊤ hok hin (hQ _ _ _) (hpre l e.1 hok hfind)
  have hrem : remove e.1 (W.abs l) = es := by
    rw [hab]
    have := remove_of_split (k := e.1) (v := e.2) (l := []) (r := es) (by rw [hab] at hsort; exact hsort)
    simpa using this
  rw [hrem] at habs'
  rw [hcont, List.take_succ_cons, List.map_cons, BTree.execAll, exec, BTree.erase]
  dsimp only
  rw [eraseT]
  have hmem : (e.1, e.2) ∈ W.abs l := by rw [hab]; simp
  by_cases hu : o.num l' < (o.M + 1) / 2
  · rw [eraseB_null hl hmem he hu hp hb hids]; rfl
  · rw [eraseB_keep hl hmem he (by omega) hb hids hln, Res.ok_bind]
    dsimp only
    have hnum := W.num_eq l' hok'
    rw [habs'] at hnum
    have hdat : ∀ i ∈ is, (h.set g l').data i = h.data i := by
      intro i hi
      have : i ≠ g := by rintro rfl; exact (List.nodup_cons.1 hnd).1 hi
      simp [Heap.set, upd, this]
    have hc2 : content W (h.set g l') (g :: is) = es ++ content W h is := by
      rw [content_cons, content_congr W hdat, ent]
      simp [Heap.set, upd, habs']
    obtain ⟨m, rfl⟩ : ∃ m', m = m' + 1 := ⟨m - 1, by rw [hab] at hlen; simp at hlen; omega⟩
    have := ih (by omega) d n (h.set g l') is l' (hb.shrink hids (fun i hi => ?_)) hids hnd hln hp (by simp [Heap.set, upd])
      (by rw [habs']; rw [hab] at hlen; simp at hlen; omega)
    · rw [hc2] at this
      rw [show (pure ((find e.1 (W.abs l)).isSome, (⟨d + 1, n, h.set g l'⟩ : State K L)) :
        Res (Bool × State K L)) = .ok _ from rfl, Res.ok_bind]
      dsimp only
      rw [show m + 1 - 1 + 1 = m + 1 from rfl] at this
      rw [this]; rfl
    · rcases List.mem_cons.1 hi with hi | hi
      · subst hi
        exact ⟨l, l', hl, by simp [Heap.set, upd], hok', by rw [habs']; omega, fun y hy => by
          rw [habs'] at hy; rw [hab]; exact List.mem_cons_of_mem _ hy⟩
      · obtain ⟨l2, h2, h3, h4⟩ := hb.leaf hids i (List.mem_cons_of_mem _ hi)
        exact ⟨l2, l2, h2, by rw [hdat i hi]; exact h2, h3, h4, fun _ hy => hy⟩

/-- Erasing the smallest keys one after the other comes to the null pointer. -/
theorem erase_smallest_ub (E : EraseLaws W) (hQ : ∀ l a b, E.Q l a b)
    (hpre : ∀ l k, W.ok l → find k (W.abs l) ≠ none → E.pre l k) (hlm : lm ≤ (o.M + 1) / 2) (h1 : 1 ≤ lm) :
    ∀ (m : Nat) (d : Nat) (n : BNode K (Tree K d)) (h : Heap L) (is : List Nat) (l : L),
    GB W lm h g k0 d n ⊤ → ids (d + 1) n = g :: g :: is → (g :: is).Nodup → LN o.N d true n → h.prev g = none →
    h.data g = some l → (W.abs l).length ≤ m + (o.M + 1) / 2 →
    execAll o (⟨d + 1, n, h⟩ : State K L)
      (((content W h (g :: is)).take (m + 1)).map (fun e => (Op.erase e.1 : Op K V))) = .ub := by
  intro m
  induction m with
  | zero => exact erase_smallest_step E hQ hpre hlm h1 0 (fun hm => absurd hm (by omega))
  | succ m ih => exact erase_smallest_step E hQ hpre hlm h1 (m + 1) (fun _ => ih)

end Verif.BTree
