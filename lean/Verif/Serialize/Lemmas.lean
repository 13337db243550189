import Verif.Serialize.Model
import Mathlib.Tactic.Ring
import Mathlib.Tactic.IntervalCases
import Mathlib.Data.List.Basic

/-! # Lemmas on serialization -/

namespace Verif.Ser

/-- All lengths fit in a `size_t` (always true in C++). -/
def Fits : (t : Ty) → Val t → Prop
  | .scalar _, _ => True
  | .str, s => List.length (α := Byte) s < 2 ^ 64
  | .vec t, v => List.length (α := Val t) v < 2 ^ 64 ∧ ∀ x ∈ (show List (Val t) from v), Fits t x
  | .tupLast t, v => Fits t v
  | .tupCons t r, v => Fits t v.1 ∧ Fits r v.2

/-- The encoding of a string (proof tool). -/
def encStr (s : List Byte) : List Byte := encSize s.length ++ s

/-- The encoding as a function (proof tool). -/
def enc : (t : Ty) → Val t → List Byte
  | .scalar _, v => v.1
  | .str, s => encStr s
  | .vec t, v => encSize (List.length (α := Val t) v) ++ ((show List (Val t) from v).flatMap (enc t))
  | .tupLast t, v => enc t v
  | .tupCons t r, v => enc t v.1 ++ enc r v.2

theorem encSize_length (n : Nat) : (encSize n).length = 8 := rfl

theorem encStr_length (s : List Byte) : (encStr s).length = 8 + s.length * 1 := by
  unfold encStr; rw [List.length_append, encSize_length, Nat.mul_one]

theorem decSize_encSize (n : Nat) (h : n < 2 ^ 64) : decSize (encSize n) = n := by
  have : encSize n = [UInt8.ofNat (n / 256 ^ 0), UInt8.ofNat (n / 256 ^ 1), UInt8.ofNat (n / 256 ^ 2),
    UInt8.ofNat (n / 256 ^ 3), UInt8.ofNat (n / 256 ^ 4), UInt8.ofNat (n / 256 ^ 5),
    UInt8.ofNat (n / 256 ^ 6), UInt8.ofNat (n / 256 ^ 7)] := rfl
  rw [this]
  simp only [decSize, List.foldr, UInt8.toNat_ofNat']
  omega

theorem foldl_add_eq {α : Type} (f : α → Nat) (l : List α) (c : Nat) :
    l.foldl (fun acc x => acc + f x) c = c + (l.map f).sum := by
  induction l generalizing c with
  | nil => simp
  | cons x xs ih => simp [ih, Nat.add_assoc]

theorem getSize_eq : ∀ (t : Ty) (v : Val t), getSize t v = (enc t v).length
  | .scalar n, v => v.2.symm
  | .str, s => by
    exact (encStr_length s).symm
  | .vec t, v => by
    rw [getSize, enc, List.length_append, encSize_length, foldl_add_eq, List.length_flatMap]
    congr 2
    apply List.map_congr_left
    intro x _
    exact getSize_eq t x
  | .tupLast t, v => getSize_eq t v
  | .tupCons t r, v => by
    rw [getSize, enc, List.length_append, getSize_eq t, getSize_eq r]

theorem writeBytes_spec (bs pre hole post : List Byte) (h : hole.length = bs.length) :
    writeBytes bs (pre ++ hole ++ post, pre.length) = .ok (pre ++ bs ++ post, pre.length + bs.length) := by
  unfold writeBytes
  simp only
  rw [if_pos (by simp; omega)]
  have e1 : (pre ++ hole ++ post).take pre.length = pre := by
    rw [List.append_assoc, List.take_left]
  have e2 : (pre ++ hole ++ post).drop (pre.length + bs.length) = post := by
    rw [← h, ← List.length_append, List.drop_left]
  rw [e1, e2]

/-- Writing the elements of a list one after the other. -/
theorem foldlM_spec {α : Type} (f : α → Stream × Nat → Res (Stream × Nat)) (g : α → List Byte)
    (l : List α)
    (hf : ∀ x ∈ l, ∀ (pre hole post : List Byte), hole.length = (g x).length →
      f x (pre ++ hole ++ post, pre.length) = .ok (pre ++ g x ++ post, pre.length + (g x).length)) :
    ∀ (pre hole post : List Byte), hole.length = (l.flatMap g).length →
      l.foldlM (fun st x => f x st) (pre ++ hole ++ post, pre.length) =
        .ok (pre ++ l.flatMap g ++ post, pre.length + (l.flatMap g).length) := by
  induction l with
  | nil =>
    intro pre hole post h
    have : hole = [] := List.eq_nil_of_length_eq_zero h
    subst this
    simp
  | cons x xs ih =>
    intro pre hole post h
    rw [List.flatMap_cons, List.length_append] at h
    have hd : hole = hole.take (g x).length ++ hole.drop (g x).length := (List.take_append_drop _ _).symm
    have h1 : (hole.take (g x).length).length = (g x).length := by rw [List.length_take]; omega
    have h2 : (hole.drop (g x).length).length = (xs.flatMap g).length := by rw [List.length_drop]; omega
    rw [List.foldlM_cons]
    have e1 := hf x (List.mem_cons_self ..) pre (hole.take (g x).length)
      (hole.drop (g x).length ++ post) h1
    have e0 : pre ++ hole.take (g x).length ++ (hole.drop (g x).length ++ post) = pre ++ hole ++ post := by
      conv_rhs => rw [hd]
      simp only [List.append_assoc]
    rw [e0] at e1
    rw [e1, Res.ok_bind]
    have e2 := ih (fun y hy => hf y (List.mem_cons_of_mem _ hy)) (pre ++ g x) (hole.drop (g x).length) post h2
    rw [List.length_append] at e2
    have e3 : pre ++ g x ++ (hole.drop (g x).length ++ post) = pre ++ g x ++ hole.drop (g x).length ++ post := by
      simp only [List.append_assoc]
    rw [e3, e2]
    simp only [List.flatMap_cons, List.length_append, List.append_assoc, Nat.add_assoc]

theorem flatMap_single (s : List Byte) : s.flatMap (fun c => [c]) = s := by simp

theorem serStr_spec (s pre hole post : List Byte) (h : hole.length = (encStr s).length) :
    serStr s (pre ++ hole ++ post, pre.length) =
      .ok (pre ++ encStr s ++ post, pre.length + (encStr s).length) := by
  unfold serStr
  unfold encStr at h ⊢
  rw [List.length_append] at h
  set L := encSize s.length with hL
  have hd : hole = hole.take L.length ++ hole.drop L.length := (List.take_append_drop _ _).symm
  have h1 : (hole.take L.length).length = L.length := by rw [List.length_take]; omega
  have h2 : (hole.drop L.length).length = s.length := by rw [List.length_drop]; omega
  have e1 := writeBytes_spec L pre (hole.take L.length) (hole.drop L.length ++ post) h1
  have e0 : pre ++ hole.take L.length ++ (hole.drop L.length ++ post) = pre ++ hole ++ post := by
    conv_rhs => rw [hd]
    simp only [List.append_assoc]
  rw [e0] at e1
  rw [e1, Res.ok_bind]
  have e2 := foldlM_spec (fun c st => writeBytes [c] st) (fun c => [c]) s
    (fun x _ pre hole post h => writeBytes_spec [x] pre hole post h)
    (pre ++ L) (hole.drop L.length) post (by rw [flatMap_single]; exact h2)
  rw [flatMap_single, List.length_append] at e2
  have e3 : pre ++ L ++ (hole.drop L.length ++ post) = pre ++ L ++ hole.drop L.length ++ post := by
    simp only [List.append_assoc]
  rw [e3]
  refine Eq.trans e2 ?_
  simp only [List.length_append, List.append_assoc, Nat.add_assoc]

theorem serializer_spec : ∀ (t : Ty) (v : Val t) (pre hole post : List Byte),
    hole.length = (enc t v).length →
    serializer t v (pre ++ hole ++ post, pre.length) =
      .ok (pre ++ enc t v ++ post, pre.length + (enc t v).length)
  | .scalar _, v, pre, hole, post, h => by
    rw [serializer]; exact writeBytes_spec _ _ _ _ h
  | .str, s, pre, hole, post, h => by
    rw [serializer]; exact serStr_spec s pre hole post h
  | .vec t, v, pre, hole, post, h => by
    have hw : ∀ x ∈ (show List (Val t) from v), ∀ (pre hole post : List Byte),
        hole.length = (enc t x).length →
        serializer t x (pre ++ hole ++ post, pre.length) =
          .ok (pre ++ enc t x ++ post, pre.length + (enc t x).length) :=
      fun x _ pre hole post h => serializer_spec t x pre hole post h
    rw [serializer]
    rw [enc] at h ⊢
    rw [List.length_append] at h
    set L := encSize (List.length (α := Val t) v) with hL
    have hd : hole = hole.take L.length ++ hole.drop L.length := (List.take_append_drop _ _).symm
    have h1 : (hole.take L.length).length = L.length := by rw [List.length_take]; omega
    have h2 : (hole.drop L.length).length = ((show List (Val t) from v).flatMap (enc t)).length := by
      rw [List.length_drop]; omega
    have e1 := writeBytes_spec L pre (hole.take L.length) (hole.drop L.length ++ post) h1
    have e0 : pre ++ hole.take L.length ++ (hole.drop L.length ++ post) = pre ++ hole ++ post := by
      conv_rhs => rw [hd]
      simp only [List.append_assoc]
    rw [e0] at e1
    rw [e1, Res.ok_bind]
    have e2 := foldlM_spec (fun c st => serializer t c st) (enc t) (show List (Val t) from v) hw
      (pre ++ L) (hole.drop L.length) post h2
    rw [List.length_append] at e2
    have e3 : pre ++ L ++ (hole.drop L.length ++ post) = pre ++ L ++ hole.drop L.length ++ post := by
      simp only [List.append_assoc]
    rw [e3]
    refine Eq.trans e2 ?_
    simp only [List.length_append, List.append_assoc, Nat.add_assoc]
  | .tupLast t, v, pre, hole, post, h => by
    rw [serializer]; exact serializer_spec t v pre hole post h
  | .tupCons t r, v, pre, hole, post, h => by
    rw [serializer]
    rw [enc] at h ⊢
    rw [List.length_append] at h
    set L := enc t v.1 with hL
    have hd : hole = hole.take L.length ++ hole.drop L.length := (List.take_append_drop _ _).symm
    have h1 : (hole.take L.length).length = L.length := by rw [List.length_take]; omega
    have h2 : (hole.drop L.length).length = (enc r v.2).length := by rw [List.length_drop]; omega
    have e1 := serializer_spec t v.1 pre (hole.take L.length) (hole.drop L.length ++ post) h1
    have e0 : pre ++ hole.take L.length ++ (hole.drop L.length ++ post) = pre ++ hole ++ post := by
      conv_rhs => rw [hd]
      simp only [List.append_assoc]
    rw [e0] at e1
    rw [e1, Res.ok_bind]
    have e2 := serializer_spec r v.2 (pre ++ L) (hole.drop L.length) post h2
    rw [List.length_append] at e2
    have e3 : pre ++ L ++ (hole.drop L.length ++ post) = pre ++ L ++ hole.drop L.length ++ post := by
      simp only [List.append_assoc]
    rw [← hL, e3, e2]
    simp only [List.length_append, List.append_assoc, Nat.add_assoc]

theorem readBytes_spec (bs pre post : List Byte) (n : Nat) (h : bs.length = n) :
    readBytes n (pre ++ bs ++ post) pre.length = .ok (bs, pre.length + n) := by
  unfold readBytes
  rw [if_pos (by simp; omega), List.append_assoc, List.drop_left, ← h, List.take_left]

theorem readBytes_short (n : Nat) (pre p : List Byte) (h : p.length < n) :
    readBytes n (pre ++ p) pre.length = .assertFail := by
  unfold readBytes
  rw [if_neg (by simp; omega)]

theorem readMany_spec {α : Type} (f : Stream → Nat → Res (α × Nat)) (g : α → List Byte) (l : List α)
    (hf : ∀ x ∈ l, ∀ pre post : List Byte,
      f (pre ++ g x ++ post) pre.length = .ok (x, pre.length + (g x).length)) :
    ∀ pre post : List Byte, readMany (f (pre ++ l.flatMap g ++ post)) l.length pre.length =
      .ok (l, pre.length + (l.flatMap g).length) := by
  induction l with
  | nil => intro pre post; simp [readMany]
  | cons x xs ih =>
    intro pre post
    rw [List.length_cons, readMany]
    have e0 : pre ++ (x :: xs).flatMap g ++ post = pre ++ g x ++ (xs.flatMap g ++ post) := by
      simp [List.flatMap_cons]
    rw [e0, hf x (List.mem_cons_self ..), Res.ok_bind]
    have e1 := ih (fun y hy => hf y (List.mem_cons_of_mem _ hy)) (pre ++ g x) post
    rw [List.length_append] at e1
    have e2 : pre ++ g x ++ xs.flatMap g ++ post = pre ++ g x ++ (xs.flatMap g ++ post) := by
      simp only [List.append_assoc]
    rw [e2] at e1
    simp only
    rw [e1, Res.ok_bind]
    simp only [List.flatMap_cons, List.length_append, Nat.add_assoc, Res.pure_eq]

/-- Reading a strict prefix of a sequence of encodings fails. -/
theorem readMany_short {α : Type} (f : Stream → Nat → Res (α × Nat)) (g : α → List Byte) (l : List α)
    (hf : ∀ x ∈ l, ∀ pre post : List Byte,
      f (pre ++ g x ++ post) pre.length = .ok (x, pre.length + (g x).length))
    (hs : ∀ x ∈ l, ∀ pre p q : List Byte, g x = p ++ q → q ≠ [] → f (pre ++ p) pre.length = .assertFail) :
    ∀ pre p q : List Byte, l.flatMap g = p ++ q → q ≠ [] →
      readMany (f (pre ++ p)) l.length pre.length = .assertFail := by
  induction l with
  | nil => intro pre p q h hq; simp at h; exact absurd h.2 hq
  | cons x xs ih =>
    intro pre p q h hq
    rw [List.flatMap_cons] at h
    rw [List.length_cons, readMany]
    rcases List.append_eq_append_iff.1 h with ⟨p', hp, hxs⟩ | ⟨q', hgx, hq'⟩
    · subst hp
      have e := hf x (List.mem_cons_self ..) pre p'
      rw [← List.append_assoc, e, Res.ok_bind]
      have e1 := ih (fun y hy => hf y (List.mem_cons_of_mem _ hy)) (fun y hy => hs y (List.mem_cons_of_mem _ hy))
        (pre ++ g x) p' q hxs hq
      rw [List.length_append] at e1
      simp only
      rw [e1, Res.assertFail_bind]
    · by_cases hq0 : q' = []
      · subst hq0
        rw [List.append_nil] at hgx
        rw [List.nil_append] at hq'
        subst hgx
        have e := hf x (List.mem_cons_self ..) pre []
        rw [List.append_nil] at e
        rw [e, Res.ok_bind]
        have e1 := ih (fun y hy => hf y (List.mem_cons_of_mem _ hy)) (fun y hy => hs y (List.mem_cons_of_mem _ hy))
          (pre ++ g x) [] q (by rw [← hq']; rfl) hq
        rw [List.append_nil, List.length_append] at e1
        simp only
        rw [e1, Res.assertFail_bind]
      · rw [hs x (List.mem_cons_self ..) pre p q' hgx hq0, Res.assertFail_bind]

theorem readChar_spec (x : Byte) (pre post : List Byte) :
    readChar (pre ++ [x] ++ post) pre.length = .ok (x, pre.length + ([x] : List Byte).length) := by
  unfold readChar
  rw [readBytes_spec [x] pre post 1 rfl, Res.ok_bind]
  rfl

theorem readChar_short (x : Byte) (pre p q : List Byte) (h : [x] = p ++ q) (hq : q ≠ []) :
    readChar (pre ++ p) pre.length = .assertFail := by
  have hl : p.length < 1 := by
    have := congrArg List.length h
    rw [List.length_append, List.length_singleton] at this
    have := List.length_pos_iff.2 hq
    omega
  unfold readChar
  rw [readBytes_short 1 pre p hl, Res.assertFail_bind]

theorem deserStr_spec (s : List Byte) (hfit : s.length < 2 ^ 64) (pre post : List Byte) :
    deserStr (pre ++ encStr s ++ post) pre.length = .ok (s, pre.length + (encStr s).length) := by
  unfold deserStr encStr
  have e0 : pre ++ (encSize s.length ++ s) ++ post = pre ++ encSize s.length ++ (s ++ post) := by
    simp only [List.append_assoc]
  rw [e0, readBytes_spec _ _ _ 8 (encSize_length _), Res.ok_bind]
  simp only
  rw [decSize_encSize _ hfit]
  by_cases h0 : s.length = 0
  · rw [if_pos h0]
    have : s = [] := List.eq_nil_of_length_eq_zero h0
    subst this
    rfl
  · rw [if_neg h0]
    have e1 := readMany_spec readChar (fun c => [c]) s
      (fun x _ pre post => readChar_spec x pre post) (pre ++ encSize s.length) post
    rw [flatMap_single, List.length_append, encSize_length, List.append_assoc] at e1
    rw [e1, List.length_append, encSize_length, Nat.add_assoc]

theorem deserStr_short (s : List Byte) (hfit : s.length < 2 ^ 64) (pre p q : List Byte)
    (h : encStr s = p ++ q) (hq : q ≠ []) : deserStr (pre ++ p) pre.length = .assertFail := by
  unfold encStr at h
  unfold deserStr
  have main : ∀ p', s = p' ++ q → s.length ≠ 0 ∧
      readMany (readChar (pre ++ encSize s.length ++ p')) s.length (pre.length + 8) = .assertFail := by
    intro p' hs
    refine ⟨?_, ?_⟩
    · have := congrArg List.length hs
      rw [List.length_append] at this
      have h2 := List.length_pos_iff.2 hq
      omega
    · have e1 := readMany_short readChar (fun c => [c]) s (fun x _ pre post => readChar_spec x pre post)
        (fun x _ pre p q h hq => readChar_short x pre p q h hq) (pre ++ encSize s.length) p' q
        (by rw [flatMap_single]; exact hs) hq
      rw [List.length_append, encSize_length] at e1
      exact e1
  rcases List.append_eq_append_iff.1 h with ⟨p', hp, hs⟩ | ⟨q', hgx, hq'⟩
  · subst hp
    rw [← List.append_assoc, readBytes_spec _ _ _ 8 (encSize_length _), Res.ok_bind]
    simp only
    rw [decSize_encSize _ hfit, if_neg (main p' hs).1, (main p' hs).2]
  · by_cases hq0 : q' = []
    · subst hq0
      rw [List.append_nil] at hgx
      rw [List.nil_append] at hq'
      rw [← hgx]
      have e2 := readBytes_spec (encSize s.length) pre [] 8 (encSize_length _)
      rw [List.append_nil] at e2
      rw [e2, Res.ok_bind]
      simp only
      have m := main [] (by rw [hq']; rfl)
      rw [List.append_nil] at m
      rw [decSize_encSize _ hfit, if_neg m.1, m.2]
    · have hl : p.length < 8 := by
        have := congrArg List.length hgx
        rw [encSize_length, List.length_append] at this
        have := List.length_pos_iff.2 hq0
        omega
      rw [readBytes_short 8 pre p hl, Res.assertFail_bind]

theorem deserializer_spec : ∀ (t : Ty) (v : Val t), Fits t v → ∀ pre post : List Byte,
    deserializer t (pre ++ enc t v ++ post) pre.length = .ok (v, pre.length + (enc t v).length)
  | .scalar n, v, _, pre, post => by
    rw [deserializer, enc, readBytes_spec v.1 pre post n v.2, Res.ok_bind, dif_pos v.2, Res.pure_eq]
    rw [v.2]; rfl
  | .str, s, hfit, pre, post => by
    rw [deserializer]; exact deserStr_spec s hfit pre post
  | .vec t, v, hfit, pre, post => by
    rw [deserializer, enc]
    have e0 : pre ++ (encSize (List.length (α := Val t) v) ++ (show List (Val t) from v).flatMap (enc t)) ++ post =
        pre ++ encSize (List.length (α := Val t) v) ++ ((show List (Val t) from v).flatMap (enc t) ++ post) := by
      simp only [List.append_assoc]
    rw [e0, readBytes_spec _ _ _ 8 (encSize_length _), Res.ok_bind]
    simp only
    rw [decSize_encSize _ hfit.1]
    have e1 := readMany_spec (deserializer t) (enc t) (show List (Val t) from v)
      (fun x hx pre post => deserializer_spec t x (hfit.2 x hx) pre post)
      (pre ++ encSize (List.length (α := Val t) v)) post
    rw [List.length_append, encSize_length, List.append_assoc] at e1
    rw [e1, List.length_append, encSize_length, Nat.add_assoc]
    rfl
  | .tupLast t, v, hfit, pre, post => by
    rw [deserializer]; exact deserializer_spec t v hfit pre post
  | .tupCons t r, v, hfit, pre, post => by
    rw [deserializer, enc]
    have e0 : pre ++ (enc t v.1 ++ enc r v.2) ++ post = pre ++ enc t v.1 ++ (enc r v.2 ++ post) := by
      simp only [List.append_assoc]
    rw [e0, deserializer_spec t v.1 hfit.1, Res.ok_bind]
    have e1 := deserializer_spec r v.2 hfit.2 (pre ++ enc t v.1) post
    rw [List.length_append, List.append_assoc] at e1
    simp only
    rw [e1, Res.ok_bind, Res.pure_eq, List.length_append, Nat.add_assoc]
    rfl

theorem deserializer_short : ∀ (t : Ty) (v : Val t), Fits t v → ∀ pre p q : List Byte,
    enc t v = p ++ q → q ≠ [] → deserializer t (pre ++ p) pre.length = .assertFail
  | .scalar n, v, _, pre, p, q, h, hq => by
    rw [enc] at h
    have hl : p.length < n := by
      have := congrArg List.length h
      rw [v.2, List.length_append] at this
      have := List.length_pos_iff.2 hq
      omega
    rw [deserializer, readBytes_short n pre p hl, Res.assertFail_bind]
  | .str, s, hfit, pre, p, q, h, hq => by
    rw [deserializer]; exact deserStr_short s hfit pre p q h hq
  | .vec t, v, hfit, pre, p, q, h, hq => by
    rw [enc] at h
    rw [deserializer]
    have main : ∀ p', ((show List (Val t) from v).flatMap (enc t)) = p' ++ q →
        readMany (deserializer t (pre ++ encSize (List.length (α := Val t) v) ++ p'))
          (List.length (α := Val t) v) (pre.length + 8) = .assertFail := by
      intro p' hs
      have e1 := readMany_short (deserializer t) (enc t) (show List (Val t) from v)
        (fun x hx pre post => deserializer_spec t x (hfit.2 x hx) pre post)
        (fun x hx pre p q h hq => deserializer_short t x (hfit.2 x hx) pre p q h hq)
        (pre ++ encSize (List.length (α := Val t) v)) p' q hs hq
      rw [List.length_append, encSize_length] at e1
      exact e1
    rcases List.append_eq_append_iff.1 h with ⟨p', hp, hs⟩ | ⟨q', hgx, hq'⟩
    · subst hp
      rw [← List.append_assoc, readBytes_spec _ _ _ 8 (encSize_length _), Res.ok_bind]
      simp only
      rw [decSize_encSize _ hfit.1, main p' hs]
      rfl
    · by_cases hq0 : q' = []
      · subst hq0
        rw [List.append_nil] at hgx
        rw [List.nil_append] at hq'
        rw [← hgx]
        have e2 := readBytes_spec (encSize (List.length (α := Val t) v)) pre [] 8 (encSize_length _)
        rw [List.append_nil] at e2
        rw [e2, Res.ok_bind]
        simp only
        have m := main [] (by rw [hq']; rfl)
        rw [List.append_nil] at m
        rw [decSize_encSize _ hfit.1, m]
        rfl
      · have hl : p.length < 8 := by
          have := congrArg List.length hgx
          rw [encSize_length, List.length_append] at this
          have := List.length_pos_iff.2 hq0
          omega
        rw [readBytes_short 8 pre p hl, Res.assertFail_bind]
        rfl
  | .tupLast t, v, hfit, pre, p, q, h, hq => by
    rw [deserializer]; exact deserializer_short t v hfit pre p q h hq
  | .tupCons t r, v, hfit, pre, p, q, h, hq => by
    rw [enc] at h
    rw [deserializer]
    rcases List.append_eq_append_iff.1 h with ⟨p', hp, hs⟩ | ⟨q', hgx, hq'⟩
    · subst hp
      rw [← List.append_assoc, deserializer_spec t v.1 hfit.1, Res.ok_bind]
      have e1 := deserializer_short r v.2 hfit.2 (pre ++ enc t v.1) p' q hs hq
      rw [List.length_append] at e1
      simp only
      rw [e1, Res.assertFail_bind]
    · by_cases hq0 : q' = []
      · subst hq0
        rw [List.append_nil] at hgx
        rw [List.nil_append] at hq'
        have e := deserializer_spec t v.1 hfit.1 pre []
        rw [List.append_nil] at e
        rw [← hgx, e, Res.ok_bind]
        have e1 := deserializer_short r v.2 hfit.2 (pre ++ enc t v.1) [] q (by rw [hq']; rfl) hq
        rw [List.append_nil, List.length_append] at e1
        simp only
        rw [e1, Res.assertFail_bind]
      · rw [deserializer_short t v.1 hfit.1 pre p q' hgx hq0, Res.assertFail_bind]

theorem serialize_eq (t : Ty) (v : Val t) (res : Stream) : serialize t v res = .ok (res ++ enc t v) := by
  unfold serialize
  simp only
  have e := serializer_spec t v res (List.replicate (getSize t v) 0) [] (by
    rw [List.length_replicate, getSize_eq])
  rw [List.append_nil] at e
  rw [e, Res.ok_bind]
  simp only
  rw [if_pos (by rw [getSize_eq]), List.append_nil]
  rfl

end Verif.Ser
