import Verif.BitTree.InsertCrash

/-!
# What a crash anywhere inside an insert into BitPBPTree leaves
-/

set_option linter.unusedSectionVars false

namespace Verif.BitTree

open Verif Search FPTree BTree

variable {K V : Type} {M : Nat} [LinearOrder K] [Inhabited K] {c : Cfg K V} {adm : K → Prop}

/-! ## No leaf is its own successor -/

/-- No leaf is its own successor. -/
def NoLoop (h : Heap M K V) : Prop := ∀ (i : Nat) (x : Cell M K V), h[i]? = some x → x.next ≠ some i

theorem noLoop_set {h : Heap M K V} (hn : NoLoop h) {i : Nat} {x : Cell M K V} (hx : h[i]? = some x) (l : Leaf M K V) :
    NoLoop (h.set i { x with leaf := l }) := by
  intro j y hy
  rw [List.getElem?_set] at hy
  split at hy
  · rename_i e
    subst e
    split at hy
    · cases hy; exact hn i x hx
    · cases hy
  · exact hn j y hy

theorem linkOk_set {h : Heap M K V} (hn : LinkOk h) {i : Nat} {x : Cell M K V} (hx : h[i]? = some x) (l : Leaf M K V) :
    LinkOk (h.set i { x with leaf := l }) := by
  intro j y hy n hnn
  rw [List.length_set]
  rw [List.getElem?_set] at hy
  split at hy
  · rename_i e
    subst e
    split at hy
    · cases hy; exact hn i x hx n hnn
    · cases hy
  · exact hn j y hy n hnn

theorem noLoop_modify {h : Heap M K V} (hn : NoLoop h) {i : Nat} {f : Cell M K V → Cell M K V}
    (hf : ∀ x, x.next ≠ some i → (f x).next ≠ some i) : NoLoop (h.modify i f) := by
  intro j y hy
  rw [List.getElem?_modify] at hy
  by_cases e : i = j
  · subst e
    obtain ⟨x, hx, rfl⟩ := Option.map_eq_some_iff.1 hy
    rw [if_pos rfl]
    exact hf x (hn i x hx)
  · obtain ⟨x, hx, rfl⟩ := Option.map_eq_some_iff.1 hy
    rw [if_neg e]
    exact hn j x hx

/-- A change behind the allocation of the sibling `n` of `id`. -/
def Behind (id n : Nat) (nx : Option Nat) : SWrite M K V → Prop
  | .alloc _ => False
  | .leaf _ _ => True
  | .next i o => (i = n ∧ o = nx) ∨ (i = id ∧ o = some n)
  | .prev _ _ => True

theorem noLoop_behind {id n : Nat} {nx : Option Nat} (hid : id ≠ n) (hnx : nx ≠ some n) : ∀ (ws : List (SWrite M K V)) (g : Heap M K V),
    NoLoop g → (∀ w ∈ ws, Behind id n nx w) → NoLoop (applyAll g ws)
  | [], _, hg, _ => hg
  | w :: ws, g, hg, hw => by
    rw [applyAll_cons]
    refine noLoop_behind hid hnx ws _ ?_ (fun w' h' => hw w' (by simp [h']))
    have hw0 := hw w (by simp)
    match w, hw0 with
    | .leaf i w, _ => exact noLoop_modify hg fun x hx => hx
    | .prev i o, _ => exact noLoop_modify hg fun x hx => hx
    | .next i o, h' =>
      refine noLoop_modify hg fun x _ => ?_
      rcases h' with ⟨rfl, rfl⟩ | ⟨rfl, rfl⟩
      · exact hnx
      · simpa using Ne.symm hid

theorem behind_moves {l : Leaf M K V} {sk : K} {id n : Nat} {nx : Option Nat} : ∀ (m i j : Nat), ∀ w ∈ moveWrites l sk id n i j m, Behind id n nx w
  | 0, _, _, w, h => by cases h
  | m + 1, i, j, w, h => by
    rw [moveWrites] at h
    split at h
    · rcases List.mem_append.1 h with h | h
      · simp only [List.mem_cons, List.not_mem_nil, or_false] at h
        rcases h with rfl | rfl | rfl | rfl <;> trivial
      · exact behind_moves m _ _ w h
    · exact behind_moves m _ _ w h

theorem splitWrites_shape {h : Heap M K V} {id : Nat} {x : Cell M K V} {k : K} {v : V} {ws : List (SWrite M K V)}
    (e : splitWrites c h id x k v = .ok ws) :
    ∃ y rest, ws = .alloc y :: rest ∧ (y.next = none ∨ y.next = x.next) ∧ ∀ w ∈ rest, Behind id h.length x.next w := by
  unfold splitWrites at e
  simp only at e
  obtain ⟨r, _, e⟩ := (Res.bind_eq_ok).1 e
  obtain ⟨q, _, e⟩ := (Res.bind_eq_ok).1 e
  obtain ⟨p, _, e⟩ := (Res.bind_eq_ok).1 e
  obtain ⟨es, ees, e⟩ := (Res.bind_eq_ok).1 e
  have e := Res.ok.inj e
  have hes : ∀ w ∈ es, Behind id h.length x.next w := by
    unfold entryWrites at ees
    simp only at ees
    obtain ⟨_, _, ees⟩ := (Res.bind_eq_ok).1 ees
    rw [← Res.ok.inj ees]
    intro w hw
    simp only [List.mem_cons, List.not_mem_nil, or_false] at hw
    rcases hw with rfl | rfl | rfl <;> trivial
  have hlk : ∀ w ∈ linkWrites (M := M) (K := K) (V := V) id h.length x.next, Behind id h.length x.next w := by
    intro w hw
    unfold linkWrites at hw
    cases hx : x.next with
    | none =>
      rw [hx] at hw
      simp only [List.nil_append, List.mem_cons, List.not_mem_nil, or_false] at hw
      rcases hw with rfl | rfl
      · exact Or.inr ⟨rfl, rfl⟩
      · trivial
    | some j =>
      rw [hx] at hw
      simp only [List.cons_append, List.nil_append, List.mem_cons, List.not_mem_nil, or_false] at hw
      rcases hw with rfl | rfl | rfl | rfl
      · exact Or.inl ⟨rfl, rfl⟩
      · trivial
      · exact Or.inr ⟨rfl, rfl⟩
      · trivial
  cases hmv : c.move with
  | true =>
    rw [hmv, if_pos rfl] at e
    refine ⟨⟨Leaf.new c M, none, none⟩, moveWrites x.leaf q.2.2 id h.length 0 0 M ++ (linkWrites id h.length x.next ++ es),
      by rw [← e]; simp, Or.inl rfl, fun w hw => ?_⟩
    simp only [List.mem_append] at hw
    rcases hw with hw | hw | hw
    · exact behind_moves _ _ _ w hw
    · exact hlk w hw
    · exact hes w hw
  | false =>
    rw [hmv, if_neg (by decide)] at e
    refine ⟨x, .leaf id (.bits r.1) :: .leaf h.length (.bits r.1.flip) :: (linkWrites id h.length x.next ++ es),
      by rw [← e]; simp, Or.inr rfl, fun w hw => ?_⟩
    simp only [List.mem_cons, List.mem_append] at hw
    rcases hw with rfl | rfl | hw | hw
    · trivial
    · trivial
    · exact hlk w hw
    · exact hes w hw

theorem noLoop_split {h : Heap M K V} (hL : LinkOk h) (hn : NoLoop h) {id : Nat} {x : Cell M K V} (hx : h[id]? = some x) {k : K} {v : V}
    {ws : List (SWrite M K V)} (e : splitWrites c h id x k v = .ok ws) (q : Nat) : NoLoop (applyAll h (ws.take q)) := by
  obtain ⟨hid, -⟩ := List.getElem?_eq_some_iff.1 hx
  obtain ⟨y, rest, rfl, hy, hr⟩ := splitWrites_shape e
  have hnl : x.next ≠ some h.length := fun h' => absurd (hL id x hx _ h') (lt_irrefl _)
  cases q with
  | zero => exact hn
  | succ q =>
    rw [List.take_succ_cons, applyAll_cons]
    refine noLoop_behind (id := id) (n := h.length) (nx := x.next) (by omega) hnl _ _ ?_ (fun w hw => hr w (List.mem_of_mem_take hw))
    intro j z hz
    have hz : (h ++ [y])[j]? = some z := hz
    by_cases hj : j < h.length
    · rw [List.getElem?_append_left hj] at hz
      exact hn j z hz
    · rw [List.getElem?_append_right (by omega)] at hz
      by_cases hj' : j - h.length = 0
      · rw [hj'] at hz
        cases hz
        have : j = h.length := by omega
        rw [this]
        rcases hy with hy | hy
        · rw [hy]; simp
        · rw [hy]; exact hnl
      · rw [List.getElem?_eq_none (by simp; omega)] at hz
        cases hz

/-! ## The states -/

/-- The lowest branch node on the path of `k` has a free position (or the root is a leaf). -/
def Roomy (c : Cfg K V) : (d : Nat) → Tree c.N K d → K → Prop
  | 0, _, _ => True
  | 1, b, _ => (Branch.bits (C := Nat) b).count ≠ c.N
  | d + 2, b, k => ∀ p ch, Branch.pos c.lim b k = .ok p → Branch.kid b p = .ok ch → Roomy c (d + 1) ch k

theorem roomy_kid {d : Nat} {b : Tree c.N K (d + 1)} {k : K} (h : Roomy c (d + 1) b k) {p : Nat} {ch : Tree c.N K d}
    (hp : Branch.pos c.lim b k = .ok p) (hch : Branch.kid b p = .ok ch) : Roomy c d ch k := by
  cases d with
  | zero => trivial
  | succ d => exact h p ch hp hch

/-- What a state of an insertion into a subtree looks like: a correct subtree with entries of before, and possibly the new
one; if the lowest branch node has room, then the entries of the other leaves are all there. -/
structure StPost (c : Cfg K V) (h h' : Heap M K V) (d : Nat) (t t' : Tree c.N K d) (R : K → Prop) (k : K) (v : V) : Prop where
  link : LinkOk h'
  noLoop : NoLoop h'
  len : h.length ≤ h'.length
  frame : ∀ i, i < h.length → i ∉ fp d t → core h' i = core h i
  sub : ∀ i ∈ fp d t', i ∈ fp d t ∨ h.length ≤ i
  ok : Ok h' d t' R
  has : ∀ y w, hasT h' d t' y w → hasT h d t y w ∨ (y = k ∧ w = v)
  keep : Roomy c d t k → ∀ y w, hasT h d t y w → findLeaf c d t y ≠ findLeaf c d t k → hasT h' d t' y w

/-- The states of a leaf, and the result. -/
theorem leafAt_law (F : Laws c adm) (hM : 2 ≤ M) (hm : c.move = false → M % 64 ≠ 0) {h : Heap M K V}
    (hL : LinkOk h) (hnl : NoLoop h) {id : Nat} {R : K → Prop} (hR : ∀ k, R k → adm k) (ho : Ok (N := c.N) h 0 id R) {k : K} (hk : R k)
    (v : V) : ∃ L sp, ∀ q, ∃ h', leafAt c h id k v q = .ok h' ∧ StPost c h h' 0 id id R k v ∧ (L ≤ q → insLeaf c h id k v = .ok (h', sp)) := by
  obtain ⟨x, h1, h2, h3⟩ := ho
  have h1 : h[id]? = some x := h1
  obtain ⟨hid, hx⟩ := List.getElem?_eq_some_iff.1 h1
  have hc0 : core h id = some x.leaf := core_of h1
  obtain ⟨p, ep, hp⟩ := pos_spec x.leaf k
  -- a heap with the leaf `a`
  have mk : ∀ (h' : Heap M K V) (a : Leaf M K V), LinkOk h' → NoLoop h' → h.length ≤ h'.length →
      (∀ i, i < h.length → i ≠ id → core h' i = core h i) → core h' id = some a → LOk a →
      (∀ y w, Has a y w → Has x.leaf y w ∨ (y = k ∧ w = v)) → StPost c h h' 0 id id R k v := by
    intro h' a g1 g2 g3 g4 g5 g6 g7
    refine ⟨g1, g2, g3, fun i hi hne => g4 i hi hne, fun i hi => Or.inl hi, ok_zero.2 ⟨a, g5, g6, fun y w hy => ?_⟩, fun y w hy => ?_, ?_⟩
    · rcases g7 y w hy with h' | ⟨rfl, _⟩
      · exact h3 y w h'
      · exact hk
    · obtain ⟨l, e, hl⟩ := hasT_zero.1 hy
      rw [g5] at e; cases e
      rcases g7 y w hl with h' | h'
      · exact Or.inl (hasT_zero.2 ⟨_, hc0, h'⟩)
      · exact Or.inr h'
    · intro _ y w _ hne
      exact absurd rfl hne
  by_cases hroom : p < M ∨ x.leaf.bits.getFreeZero ≠ M
  · have hr : LRoom x.leaf k := by
      rcases hroom with h' | h'
      · rcases hp with ⟨a, b, d⟩ | ⟨a, _⟩
        · exact Or.inl ⟨_, p, a, b, d, rfl⟩
        · omega
      · refine Or.inr ?_
        by_contra hno
        refine h' (free_full h2.clean fun q hq => ?_)
        by_contra hb
        exact hno ⟨q, hq, by simpa using hb⟩
    obtain ⟨ws, n, e1, _, _, hst, l', e2, e3⟩ := leaf_insert_crash (c := c) h2 v hr
    refine ⟨ws.length, none, fun q => ?_⟩
    obtain ⟨l1, e4, hl1, g1, g2⟩ := hst q
    refine ⟨h.set id { x with leaf := l1 }, ?_, ?_, fun hq => ?_⟩
    · unfold leafAt
      rw [h1, Res.ofOption_some, Res.ok_bind, ep, Res.ok_bind, if_pos hroom, e1, Res.ok_bind, e4]; rfl
    · refine mk _ l1 (linkOk_set hL h1 _) (noLoop_set hnl h1 _) (by simp) (fun i _ hne => ?_) ?_ hl1 (fun y w hy => ?_)
      · unfold core
        rw [List.getElem?_set_ne (Ne.symm hne)]
      · unfold core
        rw [List.getElem?_set_self hid]; rfl
      · rcases Nat.lt_or_ge q n with h' | h'
        · exact Or.inl ((g1 h' y w).1 hy)
        · rcases (g2 h' y w).1 hy with h'' | h''
          · exact Or.inr h''
          · exact Or.inl h''.2
    · rw [List.take_of_length_le hq, e2] at e4
      cases Res.ok.inj e4
      unfold insLeaf
      rw [h1, Res.ofOption_some, Res.ok_bind, e3]; rfl
  · have hno : ∀ w, ¬ Has x.leaf k w := by
      rcases hp with ⟨a, _⟩ | ⟨_, a⟩
      · exact absurd (Or.inl a) hroom
      · exact a
    have hfull : ∀ q, q < M → Bitmap.bit x.leaf.bits q = true := by
      intro q hq
      by_contra hb
      have := (free_of_zero ⟨q, hq, by simpa using hb⟩).1
      exact hroom (Or.inr (by omega))
    obtain ⟨sk, ws, e1, _, _, _, hst, s, e2⟩ := split_states F hM hm hL h1 h2 hfull
      (fun q hq => hR _ (h3 _ _ ⟨q, hq, hfull q hq, rfl, rfl⟩)) (hnl id x h1) hno v
    refine ⟨ws.length, some (s, h.length), fun q => ⟨applyAll h (ws.take q), ?_, ?_, fun hq => ?_⟩⟩
    · unfold leafAt
      rw [h1, Res.ofOption_some, Res.ok_bind, ep, Res.ok_bind, if_neg hroom, e1]; rfl
    · obtain ⟨a, o, hat⟩ := hst q
      refine mk _ a hat.st.link (noLoop_split hL hnl h1 e1 q) hat.st.len (fun i hi hne => (hat.st.others i hi hne).1) hat.st.leaf hat.lok (fun y w hy => ?_)
      rcases (hat.has y w).1 hy with h' | h'
      · exact Or.inl h'.1
      · exact Or.inr h'.2.2
    · rw [List.take_of_length_le hq, e2]

theorem ins_noLoop (F : Laws c adm) (hM : 2 ≤ M) (hm : c.move = false → M % 64 ≠ 0) (hN : 2 ≤ c.N) (hN64 : c.N % 64 ≠ 0) :
    ∀ (d : Nat) (h : Heap M K V) (t : Tree c.N K d) (R : K → Prop) (k : K) (v : V), LinkOk h → NoLoop h → (∀ k, R k → adm k) →
    Ok h d t R → R k → ∀ r, ins c d h t k v = .ok r → NoLoop r.1
  | 0, h, id, R, k, v, hL, hnl, hR, ho, hk, r, e => by
    obtain ⟨L, sp, hq⟩ := leafAt_law F hM hm hL hnl hR ho hk v
    obtain ⟨h', _, hp, he⟩ := hq L
    have hi : ins c 0 h id k v = .ok (h', id, sp) := by rw [ins, he (le_refl _)]; rfl
    rw [hi] at e
    rw [← Res.ok.inj e]
    exact hp.noLoop
  | d + 1, h, b, R, k, v, hL, hnl, hR, ho, hk, r, e => by
    obtain ⟨p, ep, hp, hr⟩ := pos_law (lim := c.lim) (sep_max F hR ho) hk
    obtain ⟨x, hx, hox⟩ := ho.kid p hp
    rw [ins, ep, Res.ok_bind, kid_ok (live_lt hp) hx, Res.ok_bind] at e
    obtain ⟨r1, e1, e⟩ := (Res.bind_eq_ok).1 e
    have h1 := ins_noLoop F hM hm hN hN64 d h x _ k v hL hnl (fun k hk => hR k hk.1) hox hr r1 e1
    have : r.1 = r1.1 := by
      simp only at e
      split at e
      · rw [← Res.ok.inj e]
      · obtain ⟨q, _, e⟩ := (Res.bind_eq_ok).1 e
        rw [← Res.ok.inj e]
    rw [this]
    exact h1

/-- With room in the lowest branch node no branch node is split. -/
theorem ins_roomy : ∀ (d : Nat) (h : Heap M K V) (t : Tree c.N K (d + 1)) (k : K) (v : V) (r), Roomy c (d + 1) t k →
    ins c (d + 1) h t k v = .ok r → r.2.2 = none
  | d, h, b, k, v, r, hroom, e => by
    rw [ins] at e
    obtain ⟨p, ep, e⟩ := (Res.bind_eq_ok).1 e
    obtain ⟨ch, ec, e⟩ := (Res.bind_eq_ok).1 e
    obtain ⟨r1, e1, e⟩ := (Res.bind_eq_ok).1 e
    simp only at e
    cases d with
    | zero =>
      split at e
      · rw [← Res.ok.inj e]
      · obtain ⟨q, eq, e⟩ := (Res.bind_eq_ok).1 e
        rw [← Res.ok.inj e]
        unfold Branch.addSplit at eq
        rw [if_neg (show ¬ _ from hroom)] at eq
        obtain ⟨b', _, eq⟩ := (Res.bind_eq_ok).1 eq
        rw [← Res.ok.inj eq]
        rfl
    | succ d =>
      have := ins_roomy d h ch k v r1 (hroom p ch ep ec) e1
      rw [this] at e
      rw [← Res.ok.inj e]

/-- All states of an insertion into a subtree. -/
theorem insAt_law (F : Laws c adm) (hM : 2 ≤ M) (hm : c.move = false → M % 64 ≠ 0) (hN : 2 ≤ c.N) (hN64 : c.N % 64 ≠ 0) :
    ∀ (d : Nat) (h : Heap M K V) (t : Tree c.N K d) (R : K → Prop) (k : K) (v : V) (j q : Nat), LinkOk h → NoLoop h → (∀ k, R k → adm k) →
    Ok h d t R → R k → ∃ h' t', insAt c d h t k v j q = .ok (h', t') ∧ StPost c h h' d t t' R k v
  | 0, h, id, R, k, v, j, q, hL, hnl, hR, ho, hk => by
    obtain ⟨L, sp, hq⟩ := leafAt_law F hM hm hL hnl hR ho hk v
    obtain ⟨h', e, hp, _⟩ := hq q
    refine ⟨h', id, ?_, hp⟩
    rw [insAt, e]; rfl
  | d + 1, h, b, R, k, v, j, q, hL, hnl, hR, ho, hk => by
    obtain ⟨p, ep, hp, hr⟩ := pos_law (lim := c.lim) (sep_max F hR ho) hk
    obtain ⟨x, hx, hox⟩ := ho.kid p hp
    have ekid := kid_ok (live_lt hp) hx
    rw [insAt, ep, Res.ok_bind, ekid, Res.ok_bind]
    -- keys below `p`
    have hfind : ∀ y w, hasT h d x y w → findLeaf c (d + 1) b y = findLeaf c d x y := by
      intro y w hy
      have hy' := hasT_range d x _ y w hox hy
      obtain ⟨p', ep', hp', hr'⟩ := pos_law (lim := c.lim) (sep_max F hR ho) hy'.1
      obtain rfl := rng_unique ho hp' hp hr' hy'
      rw [findLeaf, ep', Res.ok_bind, ekid, Res.ok_bind]
    have hfindk : findLeaf c (d + 1) b k = findLeaf c d x k := by
      rw [findLeaf, ep, Res.ok_bind, ekid, Res.ok_bind]
    -- a state of the child in the node
    have oth : ∀ (h' : Heap M K V), (∀ i, i < h.length → i ∉ fp d x → core h' i = core h i) →
        ∀ q y, live b q → q ≠ p → b.kids q = some y → ∀ i ∈ fp d y, i ∉ fp d x ∧ core h' i = core h i := by
      intro h' g3 q y hq hne hy i hi
      have hn : i ∉ fp d x := Set.disjoint_left.1 (ho.disj q p y x hq hp hne hy hx) hi
      obtain ⟨y', k1, k2⟩ := ho.kid q hq
      rw [hy] at k1; cases k1
      exact ⟨hn, g3 i (fp_lt d y _ k2 i hi) hn⟩
    have apart : ∀ (z : Tree c.N K d), (∀ i ∈ fp d z, i ∈ fp d x ∨ h.length ≤ i) → ∀ q y, live b q → q ≠ p → b.kids q = some y →
        Disjoint (fp d z) (fp d y) := by
      intro z hz q y hq hne hy
      rw [Set.disjoint_left]
      intro i hi hi'
      rcases hz i hi with h1 | h1
      · exact (oth h (fun _ _ _ => rfl) q y hq hne hy i hi').1 h1
      · obtain ⟨y', k1, k2⟩ := ho.kid q hq
        rw [hy] at k1; cases k1
        have := fp_lt d y _ k2 i hi'
        omega
    have up : ∀ (h' : Heap M K V) (x' : Tree c.N K d), (∀ i, i < h.length → i ∉ fp d x → core h' i = core h i) →
        (∀ i ∈ fp d x', i ∈ fp d x ∨ h.length ≤ i) → Ok h' d x' (rng b R p) →
        BOk (Ok h' d) (fp d) ({ b with kids := upd b.kids p (some x') } : Branch c.N K (Tree c.N K d)) R := by
      intro h' x' g1 g2 g3
      exact replace_law ho hp g3 (fun q y hq hne hy hoy => ok_frame d y _ (fun i hi => (oth h' g1 q y hq hne hy i hi).2) hoy) (apart x' g2)
    have kids : ∀ (x' z : Tree c.N K d), Kid ({ b with kids := upd b.kids p (some x') } : Branch c.N K (Tree c.N K d)) z ↔
        z = x' ∨ ∃ q, live b q ∧ q ≠ p ∧ b.kids q = some z := by
      intro x' z
      constructor
      · rintro ⟨q, hq, hz⟩
        simp only [upd] at hz
        by_cases hqp : q = p
        · rw [if_pos hqp] at hz; exact Or.inl (Option.some.inj hz).symm
        · rw [if_neg hqp] at hz; exact Or.inr ⟨q, hq, hqp, hz⟩
      · rintro (rfl | ⟨q, hq, hqp, hz⟩)
        · exact ⟨p, hp, by simp [upd]⟩
        · exact ⟨q, hq, by simp [upd, hqp, hz]⟩
    have hsubx : ∀ i, i ∈ fp d x ∨ h.length ≤ i → i ∈ fp (d + 1) b ∨ h.length ≤ i := by
      intro i hi
      rcases hi with hi | hi
      · exact Or.inl ⟨x, ⟨p, hp, hx⟩, hi⟩
      · exact Or.inr hi
    -- a node whose children are some of those of before, with `x'`, and possibly another one
    have build : ∀ (h' : Heap M K V) (b' : Branch c.N K (Tree c.N K d)), LinkOk h' → NoLoop h' → h.length ≤ h'.length →
        (∀ i, i < h.length → i ∉ fp d x → core h' i = core h i) → BOk (Ok h' d) (fp d) b' R →
        (∀ z, Kid b' z → ((∀ i ∈ fp d z, i ∈ fp d x ∨ h.length ≤ i) ∧ ∀ y w, hasT h' d z y w → hasT h d x y w ∨ (y = k ∧ w = v)) ∨
          ∃ q, live b q ∧ q ≠ p ∧ b.kids q = some z) →
        (Roomy c (d + 1) b k → (∀ q z, live b q → q ≠ p → b.kids q = some z → Kid b' z) ∧
          ∀ y w, hasT h d x y w → findLeaf c d x y ≠ findLeaf c d x k → ∃ z, Kid b' z ∧ hasT h' d z y w) →
        StPost c h h' (d + 1) b b' R k v := by
      intro h' b' g1 g2 g3 g4 g5 g6 g7
      refine ⟨g1, g2, g3, fun i hi hn => g4 i hi (fun hx' => hn ⟨x, ⟨p, hp, hx⟩, hx'⟩), ?_, g5, ?_, ?_⟩
      · rintro i ⟨z, hz, hi⟩
        rcases g6 z hz with ⟨a, _⟩ | ⟨q, hq, _, hz'⟩
        · exact hsubx i (a i hi)
        · exact Or.inl ⟨z, ⟨q, hq, hz'⟩, hi⟩
      · rintro y w ⟨z, hz, hy⟩
        rcases g6 z hz with ⟨_, a⟩ | ⟨q, hq, hne, hz'⟩
        · rcases a y w hy with h1 | h1
          · exact Or.inl ⟨x, ⟨p, hp, hx⟩, h1⟩
          · exact Or.inr h1
        · exact Or.inl ⟨z, ⟨q, hq, hz'⟩, (hasT_frame d z y w (fun i hi => (oth h' g4 q z hq hne hz' i hi).2)).1 hy⟩
      · rintro hroom y w ⟨z, ⟨q, hq, hz⟩, hy⟩ hne
        obtain ⟨k1, k2⟩ := g7 hroom
        by_cases hqp : q = p
        · subst hqp
          rw [hx] at hz; cases hz
          rw [hfindk, hfind y w hy] at hne
          exact k2 y w hy hne
        · exact ⟨z, k1 q z hq hqp hz, (hasT_frame d z y w (fun i hi => (oth h' g4 q z hq hqp hz i hi).2)).2 hy⟩
    by_cases hj : j ≤ d
    · rw [if_pos hj]
      obtain ⟨h', x', e1, post⟩ := insAt_law F hM hm hN hN64 d h x _ k v j q hL hnl (fun k hk => hR k hk.1) hox hr
      rw [e1, Res.ok_bind]
      refine ⟨_, _, rfl, build h' _ post.link post.noLoop post.len post.frame (up h' x' post.frame post.sub post.ok) ?_ ?_⟩
      · intro z hz
        rcases (kids x' z).1 hz with rfl | h1
        · exact Or.inl ⟨post.sub, post.has⟩
        · exact Or.inr h1
      · intro hroom
        refine ⟨fun q z hq hne hz => (kids x' z).2 (Or.inr ⟨q, hq, hne, hz⟩), fun y w hy hne => ⟨x', (kids x' x').2 (Or.inl rfl), ?_⟩⟩
        exact post.keep (roomy_kid hroom ep ekid) y w hy hne
    · rw [if_neg hj]
      obtain ⟨h', x', sp, e1, g1, g2, g3, g4, g5⟩ := ins_law F hM hm hN hN64 d h x _ k v hL (fun k hk => hR k hk.1) hox hr
      have hnl' := ins_noLoop F hM hm hN hN64 d h x _ k v hL hnl (fun k hk => hR k hk.1) hox hr _ e1
      rw [e1, Res.ok_bind]
      simp only
      have upsOr : ∀ y w, Ups (hasT h d x) k v y w → hasT h d x y w ∨ (y = k ∧ w = v) := by
        rintro y w (h1 | h1)
        · exact Or.inr h1
        · exact Or.inl h1.2
      match sp, g5 with
      | none, ⟨g5, g6⟩ =>
        refine ⟨_, _, rfl, build h' _ g1 hnl' g2 g3 (up h' x' g3 g4 g5) ?_ ?_⟩
        · intro z hz
          rcases (kids x' z).1 hz with rfl | h1
          · exact Or.inl ⟨g4, fun y w hy => upsOr y w ((g6 y w).1 hy)⟩
          · exact Or.inr h1
        · intro hroom
          refine ⟨fun q z hq hne hz => (kids x' z).2 (Or.inr ⟨q, hq, hne, hz⟩), fun y w hy hne => ⟨x', (kids x' x').2 (Or.inl rfl), ?_⟩⟩
          exact (g6 y w).2 (Or.inr ⟨fun e => hne (by rw [e]), hy⟩)
      | some (s, right), ⟨g5, ⟨k0, g6, g6'⟩, g7, g8, g9, g10, g11⟩ =>
        simp only
        have hb1ok := up h' x' g3 g4 (ok_mono d x' _ _ (fun k hk => hk.1) g7)
        have hdr : ∀ z, Kid ({ b with kids := upd b.kids p (some x') } : Branch c.N K (Tree c.N K d)) z → Disjoint (fp d right) (fp d z) := by
          intro z hz
          rcases (kids x' z).1 hz with rfl | ⟨q, hq, hqp, hz'⟩
          · exact g10.symm
          · exact apart right g9 q z hq hqp hz'
        have kid1p : ({ b with kids := upd b.kids p (some x') } : Branch c.N K (Tree c.N K d)).kids p = some x' := by simp [upd]
        obtain ⟨b', e2, r1, r2, _⟩ := addSplitAt_law (ok_mono d) hN hN64 (fun k hk => F.conv k (hR k hk))
          (fun a a' ha ha' => F.mono a a' (hR a ha) (hR a' ha')) (lim := c.lim) (fun k hk => (F.lim k (hR k hk)).2) hb1ok
          (p := p) hp (key := k) (s := s) (left := x') (right := right) hr kid1p g5 ⟨k0, g6, g6'⟩ g7 g8 hdr q
        rw [e2, Res.ok_bind]
        refine ⟨_, _, rfl, build h' b' g1 hnl' g2 g3 r1 ?_ ?_⟩
        · intro z hz
          rcases r2 z hz with h1 | rfl
          · rcases (kids x' z).1 h1 with rfl | h1
            · exact Or.inl ⟨g4, fun y w hy => upsOr y w ((g11 y w).1 (Or.inl hy))⟩
            · exact Or.inr h1
          · exact Or.inl ⟨g9, fun y w hy => upsOr y w ((g11 y w).1 (Or.inr hy))⟩
        · intro hroom
          cases d with
          | succ d =>
            have := ins_roomy d h x k v _ (roomy_kid hroom ep ekid) e1
            cases this
          | zero =>
            have hcnt : ¬ (({ b with kids := upd b.kids p (some x') } : Branch c.N K (Tree c.N K 0)).bits.count = c.N) := hroom
            unfold Branch.addSplitAt at e2
            rw [if_neg hcnt] at e2
            obtain ⟨b'', e3, _, _, r4⟩ := addAt_others (ok_mono 0) (lim := c.lim) (fun k hk => (F.lim k (hR k hk)).2) hb1ok
              (not_full hb1ok.clean hcnt) hp kid1p g5 ⟨k0, g6, g6'⟩ g7 g8 hdr q
            rw [e2] at e3
            cases Res.ok.inj e3
            refine ⟨fun q z hq hne hz => r4 q z hq hne (by simp [upd, hne, hz]), fun y w _ hne => absurd rfl hne⟩

/-! ## The lowest branch node -/

/-- What is found while the lowest branch node gets the separator `s`: until its third change the keys below `s` of the leaf,
after the third those from `s` on, after the fourth all. -/
def Half (s : K) (q : Nat) (y : K) : Prop := (q < 3 → y < s) ∧ (q = 3 → s ≤ y)

theorem insAt_one (F : Laws c adm) (hM : 2 ≤ M) (hm : c.move = false → M % 64 ≠ 0) (hN : 2 ≤ c.N) (hN64 : c.N % 64 ≠ 0) :
    ∀ (d : Nat) (h : Heap M K V) (t : Tree c.N K (d + 1)) (R : K → Prop) (k : K) (v : V) (q : Nat), LinkOk h → NoLoop h → (∀ k, R k → adm k) →
    Ok h (d + 1) t R → R k → Roomy c (d + 1) t k →
    ∀ (id : Nat) (h1 : Heap M K V) (s : K) (n : Nat), findLeaf c (d + 1) t k = .ok id → insLeaf c h id k v = .ok (h1, some (s, n)) →
    ∃ h' t', insAt c (d + 1) h t k v 1 q = .ok (h', t') ∧
      ∀ y w, hasT h' (d + 1) t' y w ↔ Ups (hasT h (d + 1) t) k v y w ∧ (findLeaf c (d + 1) t y = findLeaf c (d + 1) t k → Half s q y)
  | d, h, b, R, k, v, q, hL, hnl, hR, ho, hk, hroom, id, h1, s, n, hf, hsp => by
    have ho' : BOk (Ok h d) (fp d) b R := ho
    obtain ⟨p, ep, hp, hr⟩ := pos_law (lim := c.lim) (sep_max F hR ho') hk
    obtain ⟨x, hx, hox⟩ := ho'.kid p hp
    have ekid := kid_ok (live_lt hp) hx
    rw [findLeaf, ep, Res.ok_bind, ekid, Res.ok_bind] at hf
    have hfindk : findLeaf c (d + 1) b k = findLeaf c d x k := by
      rw [findLeaf, ep, Res.ok_bind, ekid, Res.ok_bind]
    have hfindz : ∀ q' z y w, live b q' → b.kids q' = some z → hasT h d z y w → findLeaf c (d + 1) b y = findLeaf c d z y := by
      intro q' z y w hq' hz hy
      obtain ⟨z', k1, k2⟩ := ho'.kid q' hq'
      rw [hz] at k1; cases k1
      have hy' := hasT_range d z _ y w k2 hy
      obtain ⟨p', ep', hp', hr'⟩ := pos_law (lim := c.lim) (sep_max F hR ho') hy'.1
      obtain rfl := rng_unique ho' hp' hq' hr' hy'
      rw [findLeaf, ep', Res.ok_bind, kid_ok (live_lt hp') hz, Res.ok_bind]
    have hidx : id ∈ fp d x := findLeaf_fp F _ _ _ _ _ (fun _ h => hR _ h.1) hox hr hf
    -- keys of other children are in other leaves
    have hother : ∀ q' z y w, live b q' → q' ≠ p → b.kids q' = some z → hasT h d z y w → findLeaf c (d + 1) b y ≠ findLeaf c (d + 1) b k := by
      intro q' z y w hq' hne hz hy he
      rw [hfindz q' z y w hq' hz hy, hfindk, hf] at he
      obtain ⟨z', k1, k2⟩ := ho'.kid q' hq'
      rw [hz] at k1; cases k1
      have := findLeaf_fp F _ _ _ _ _ (fun _ h => hR _ h.1) k2 (hasT_range d z _ y w k2 hy) he
      exact Set.disjoint_left.1 (ho'.disj q' p z x hq' hp hne hz hx) this hidx
    have hnek : ∀ q' z y w, live b q' → q' ≠ p → b.kids q' = some z → hasT h d z y w → y ≠ k := by
      rintro q' z y w hq' hne hz hy rfl
      exact hother q' z y w hq' hne hz hy rfl
    have oth : ∀ (h' : Heap M K V), (∀ i, i < h.length → i ∉ fp d x → core h' i = core h i) →
        ∀ q y, live b q → q ≠ p → b.kids q = some y → ∀ i ∈ fp d y, i ∉ fp d x ∧ core h' i = core h i := by
      intro h' g3 q y hq hne hy i hi
      have hn : i ∉ fp d x := Set.disjoint_left.1 (ho'.disj q p y x hq hp hne hy hx) hi
      obtain ⟨y', k1, k2⟩ := ho'.kid q hq
      rw [hy] at k1; cases k1
      exact ⟨hn, g3 i (fp_lt d y _ k2 i hi) hn⟩
    have kids : ∀ (x' z : Tree c.N K d), Kid ({ b with kids := upd b.kids p (some x') } : Branch c.N K (Tree c.N K d)) z ↔
        z = x' ∨ ∃ q, live b q ∧ q ≠ p ∧ b.kids q = some z := by
      intro x' z
      constructor
      · rintro ⟨q, hq, hz⟩
        simp only [upd] at hz
        by_cases hqp : q = p
        · rw [if_pos hqp] at hz; exact Or.inl (Option.some.inj hz).symm
        · rw [if_neg hqp] at hz; exact Or.inr ⟨q, hq, hqp, hz⟩
      · rintro (rfl | ⟨q, hq, hqp, hz⟩)
        · exact ⟨p, hp, by simp [upd]⟩
        · exact ⟨q, hq, by simp [upd, hqp, hz]⟩
    -- a node whose children are the others and a part `T` of what `x` has become
    have build : ∀ (h' : Heap M K V) (b' : Branch c.N K (Tree c.N K d)) (T : K → V → Prop),
        (∀ i, i < h.length → i ∉ fp d x → core h' i = core h i) →
        (∀ y w, (∃ z, Kid b' z ∧ hasT h' d z y w) ↔ T y w ∨ ∃ q z, live b q ∧ q ≠ p ∧ b.kids q = some z ∧ hasT h' d z y w) →
        (∀ y w, T y w ↔ Ups (hasT h d x) k v y w ∧ (findLeaf c d x y = findLeaf c d x k → Half s q y)) →
        ∀ y w, hasT h' (d + 1) b' y w ↔ Ups (hasT h (d + 1) b) k v y w ∧ (findLeaf c (d + 1) b y = findLeaf c (d + 1) b k → Half s q y) := by
      intro h' b' T g1 g2 g3 y w
      show (∃ z, Kid b' z ∧ hasT h' d z y w) ↔ _
      rw [g2, g3]
      constructor
      · rintro (⟨hu, hh⟩ | ⟨q', z, hq', hne, hz, hy⟩)
        · rcases hu with ⟨rfl, rfl⟩ | ⟨hyk, hy⟩
          · exact ⟨Or.inl ⟨rfl, rfl⟩, fun _ => hh rfl⟩
          · refine ⟨Or.inr ⟨hyk, x, ⟨p, hp, hx⟩, hy⟩, fun he => hh ?_⟩
            rw [hfindz p x y w hp hx hy, hfindk] at he
            exact he
        · have hy := (hasT_frame d z y w (fun i hi => (oth h' g1 q' z hq' hne hz i hi).2)).1 hy
          exact ⟨Or.inr ⟨hnek q' z y w hq' hne hz hy, z, ⟨q', hq', hz⟩, hy⟩, fun he => absurd he (hother q' z y w hq' hne hz hy)⟩
      · rintro ⟨hu, hh⟩
        rcases hu with ⟨rfl, rfl⟩ | ⟨hyk, z, ⟨q', hq', hz⟩, hy⟩
        · exact Or.inl ⟨Or.inl ⟨rfl, rfl⟩, fun _ => hh rfl⟩
        · by_cases hqp : q' = p
          · subst hqp
            rw [hx] at hz; cases hz
            refine Or.inl ⟨Or.inr ⟨hyk, hy⟩, fun he => hh ?_⟩
            rw [hfindz q' x y w hq' hx hy, hfindk]
            exact he
          · exact Or.inr ⟨q', z, hq', hqp, hz, (hasT_frame d z y w (fun i hi => (oth h' g1 q' z hq' hqp hz i hi).2)).2 hy⟩
    rw [insAt, ep, Res.ok_bind, ekid, Res.ok_bind]
    cases d with
    | succ d =>
      rw [if_pos (by omega)]
      obtain ⟨h', x', e1, hc⟩ := insAt_one F hM hm hN hN64 d h x _ k v q hL hnl (fun k hk => hR k hk.1) hox hr (roomy_kid hroom ep ekid) id h1 s n hf hsp
      obtain ⟨h2, x2, e2, post⟩ := insAt_law F hM hm hN hN64 (d + 1) h x _ k v 1 q hL hnl (fun k hk => hR k hk.1) hox hr
      rw [e1] at e2
      have e2 := Res.ok.inj e2
      simp only [Prod.mk.injEq] at e2
      obtain ⟨rfl, rfl⟩ := e2
      rw [e1, Res.ok_bind]
      refine ⟨_, _, rfl, build h' _ (hasT h' (d + 1) x') post.frame (fun y w => ?_) hc⟩
      constructor
      · rintro ⟨z, hz, hy⟩
        rcases (kids x' z).1 hz with rfl | ⟨q', hq', hne, hz'⟩
        · exact Or.inl hy
        · exact Or.inr ⟨q', z, hq', hne, hz', hy⟩
      · rintro (hy | ⟨q', z, hq', hne, hz', hy⟩)
        · exact ⟨x', (kids x' x').2 (Or.inl rfl), hy⟩
        · exact ⟨z, (kids x' z).2 (Or.inr ⟨q', hq', hne, hz'⟩), hy⟩
    | zero =>
      rw [if_neg (by omega)]
      have hxid : x = id := Res.ok.inj hf
      subst hxid
      obtain ⟨h', x', sp, e1, g1, g2, g3, g4, g5⟩ := ins_law F hM hm hN hN64 0 h x _ k v hL (fun k hk => hR k hk.1) hox hr
      have e1' := e1
      rw [ins, hsp, Res.ok_bind] at e1'
      have e1' := Res.ok.inj e1'
      simp only [Prod.mk.injEq] at e1'
      obtain ⟨rfl, rfl, rfl⟩ := e1'
      obtain ⟨g5, ⟨k0, g6, g6'⟩, g7, g8, g9, g10, g11⟩ := g5
      rw [e1, Res.ok_bind]
      simp only
      have hcnt : ¬ (({ b with kids := upd b.kids p (some x) } : Branch c.N K (Tree c.N K 0)).bits.count = c.N) := hroom
      have apart : ∀ (z : Tree c.N K 0), (∀ i ∈ fp 0 z, i ∈ fp 0 x ∨ h.length ≤ i) → ∀ q y, live b q → q ≠ p → b.kids q = some y →
          Disjoint (fp 0 z) (fp 0 y) := by
        intro z hz q y hq hne hy
        rw [Set.disjoint_left]
        intro i hi hi'
        rcases hz i hi with h1 | h1
        · exact (oth h (fun _ _ _ => rfl) q y hq hne hy i hi').1 h1
        · obtain ⟨y', k1, k2⟩ := ho'.kid q hq
          rw [hy] at k1; cases k1
          have := fp_lt 0 y _ k2 i hi'
          omega
      have hb1ok : BOk (Ok h1 0) (fp 0) ({ b with kids := upd b.kids p (some x) } : Branch c.N K (Tree c.N K 0)) R :=
        replace_law ho' hp (ok_mono 0 x _ _ (fun k hk => hk.1) g7)
          (fun q y hq hne hy hoy => ok_frame 0 y _ (fun i hi => (oth h1 g3 q y hq hne hy i hi).2) hoy) (apart x g4)
      have hdr : ∀ z, Kid ({ b with kids := upd b.kids p (some x) } : Branch c.N K (Tree c.N K 0)) z → Disjoint (fp (N := c.N) (K := K) 0 n) (fp 0 z) := by
        intro z hz
        rcases (kids x z).1 hz with rfl | ⟨q, hq, hqp, hz'⟩
        · exact g10.symm
        · exact apart n g9 q z hq hqp hz'
      have kid1p : ({ b with kids := upd b.kids p (some x) } : Branch c.N K (Tree c.N K 0)).kids p = some x := by simp [upd]
      obtain ⟨b', e3, _, r2, r3, r4⟩ := addAt_law (ok_mono 0) (lim := c.lim) (fun k hk => (F.lim k (hR k hk)).2) hb1ok
        (not_full hb1ok.clean hcnt) hp kid1p g5 ⟨k0, g6, g6'⟩ g7 g8 hdr q
      unfold Branch.addSplitAt
      rw [if_neg hcnt, e3, Res.ok_bind]
      have lowx : ∀ y w, hasT h1 0 x y w → y < s := fun y w hy => (hasT_range 0 x _ y w g7 hy).2
      have highn : ∀ y w, hasT (N := c.N) h1 0 n y w → s ≤ y := fun y w hy => (hasT_range 0 n _ y w g8 hy).2
      refine ⟨_, _, rfl, build h1 b' (fun y w => Ups (hasT h 0 x) k v y w ∧ Half s q y) g3 (fun y w => ?_) (fun y w => ?_)⟩
      · show _ ↔ (Ups (hasT h 0 x) k v y w ∧ Half s q y) ∨ _
        rw [← g11]
        have hleft : (∃ z, Kid ({ b with kids := upd b.kids p (some x) } : Branch c.N K (Tree c.N K 0)) z ∧ hasT h1 0 z y w) ↔
            hasT h1 0 x y w ∨ ∃ q z, live b q ∧ q ≠ p ∧ b.kids q = some z ∧ hasT h1 0 z y w := by
          constructor
          · rintro ⟨z, hz, hy⟩
            rcases (kids x z).1 hz with rfl | ⟨q', hq', hne, hz'⟩
            · exact Or.inl hy
            · exact Or.inr ⟨q', z, hq', hne, hz', hy⟩
          · rintro (hy | ⟨q', z, hq', hne, hz', hy⟩)
            · exact ⟨x, (kids x x).2 (Or.inl rfl), hy⟩
            · exact ⟨z, (kids x z).2 (Or.inr ⟨q', hq', hne, hz'⟩), hy⟩
        rcases Nat.lt_trichotomy q 3 with hq | hq | hq
        · have hcong : (∃ z, Kid b' z ∧ hasT h1 0 z y w) ↔ _ := (exists_congr fun z => and_congr_left fun _ => r2 hq z).trans hleft
          rw [hcong]
          refine or_congr_left ⟨fun hy => ⟨Or.inl hy, fun _ => lowx y w hy, fun h => by omega⟩, ?_⟩
          rintro ⟨hy | hy, hh⟩
          · exact hy
          · exact absurd (hh.1 hq) (not_lt.2 (highn y w hy))
        · constructor
          · rintro ⟨z, hz, hy⟩
            rcases (r3 hq z).1 hz with rfl | ⟨q', hq', hne, hz'⟩
            · exact Or.inl ⟨Or.inr hy, fun h => by omega, fun _ => highn y w hy⟩
            · simp only [upd, if_neg hne] at hz'
              exact Or.inr ⟨q', z, hq', hne, hz', hy⟩
          · rintro (⟨hy | hy, hh⟩ | ⟨q', z, hq', hne, hz', hy⟩)
            · exact absurd (lowx y w hy) (not_lt.2 (hh.2 hq))
            · exact ⟨n, (r3 hq n).2 (Or.inl rfl), hy⟩
            · exact ⟨z, (r3 hq z).2 (Or.inr ⟨q', hq', hne, by simp only [upd, if_neg hne]; exact hz'⟩), hy⟩
        · rw [(r4 hq).2 (fun z => hasT h1 0 z y w), hleft]
          have hH : Half s q y := ⟨fun h => by omega, fun h => by omega⟩
          constructor
          · rintro ((hy | hy) | hy)
            · exact Or.inl ⟨Or.inl hy, hH⟩
            · exact Or.inr hy
            · exact Or.inl ⟨Or.inr hy, hH⟩
          · rintro (⟨hy | hy, _⟩ | hy)
            · exact Or.inl (Or.inl hy)
            · exact Or.inr hy
            · exact Or.inl (Or.inr hy)
      · exact ⟨fun h => ⟨h.1, fun _ => h.2⟩, fun h => ⟨h.1, h.2 rfl⟩⟩

end Verif.BitTree
