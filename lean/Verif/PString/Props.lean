import Verif.PString.Model
import Mathlib.Tactic.Common

/-!
# Properties of `PString`
-/

namespace Verif.PString

open Verif

/-- A call. -/
inductive Call where
  | set (v : List UInt8)
  | reset

/-- The calls on one object, in order. -/
def run : List Call → Heap × Str → Res (Heap × Str)
  | [], x => .ok x
  | .set v :: cs, x => do
    let y ← set x.1 x.2 v
    run cs y
  | .reset :: cs, x => do
    let y ← reset x.1 x.2
    run cs y

/-! ### Specification -/

/-- The value after a sequence of calls (`none` before the first one). -/
def last : Option (List UInt8) → List Call → Option (List UInt8)
  | o, [] => o
  | _, .set v :: cs => last (some v) cs
  | _, .reset :: cs => last (some []) cs

/-- C68: after every sequence of calls, starting with a new object, no call fails and `data()` is the value of the last `set`, or
the empty string after `reset`. -/
def C68_statement : Prop :=
  ∀ (sso : List UInt8), sso.length = 16 → ∀ (h : Heap) (cs : List Call) (v : List UInt8), last none cs = some v →
    ∃ x, run cs (h, ⟨sso, none⟩) = .ok x ∧ data x.1 x.2 = .ok v

/-- What a sequence of calls comes to: a value (with its full length), or a pointer to memory that has been freed. -/
inductive Fate where
  | fresh
  | value (v : List UInt8)
  | dangling

/-- `none`: a call uses freed memory. -/
def fate : Fate → List Call → Option Fate
  | f, [] => some f
  | .dangling, _ :: _ => none
  | _, .set v :: cs => fate (.value v) cs
  | .fresh, .reset :: cs => fate (.value []) cs
  | .value v, .reset :: cs => if v.length ≤ 15 then fate (.value []) cs else fate .dangling cs

/-! ### Proofs -/

/-- The state of an object of fate `f`, on a heap whose other arrays are those of `h0`. -/
def Ok (h0 : Heap) (f : Fate) (x : Heap × Str) : Prop :=
  x.2.sso.length = 16 ∧ h0.next ≤ x.1.next ∧
  match f with
  | .fresh => x.2.str = none ∧ ∀ q < x.1.next, x.1.block q = if q < h0.next then h0.block q else none
  | .value v =>
    if v.length ≤ 15 then x.2.str = none ∧ cstr x.2.sso = .ok (v.takeWhile (· ≠ 0)) ∧
      ∀ q < x.1.next, x.1.block q = if q < h0.next then h0.block q else none
    else ∃ p a, x.2.str = some p ∧ h0.next ≤ p ∧ p < x.1.next ∧ x.1.block p = some a ∧ cstr a = .ok (v.takeWhile (· ≠ 0)) ∧
      ∀ q < x.1.next, q ≠ p → x.1.block q = if q < h0.next then h0.block q else none
  | .dangling => ∃ p, x.2.str = some p ∧ h0.next ≤ p ∧ p < x.1.next ∧ ∀ q < x.1.next, x.1.block q = if q < h0.next then h0.block q else none

theorem takeWhile_le (l : List UInt8) : (l.takeWhile (· ≠ 0)).length ≤ l.length := (List.takeWhile_prefix _).length_le

theorem takeWhile_self (l t : List UInt8) : (l.takeWhile (· ≠ 0) ++ 0 :: t).takeWhile (· ≠ 0) = l.takeWhile (· ≠ 0) := by
  induction l with
  | nil => simp
  | cons a l ih =>
    by_cases h : a = 0
    · simp [h]
    · rw [List.takeWhile_cons_of_pos (by simpa using h), List.cons_append, List.takeWhile_cons_of_pos (by simpa using h), ih]

theorem strcpy_ok {dst src : List UInt8} (h : src.length < dst.length) :
    ∃ a, strcpy dst src = .ok a ∧ a.length = dst.length ∧ cstr a = .ok (src.takeWhile (· ≠ 0)) := by
  have hl := takeWhile_le src
  have h1 : (src.takeWhile (· ≠ 0) ++ [0]).length ≤ dst.length := by simp only [List.length_append, List.length_singleton]; omega
  refine ⟨_, by rw [strcpy]; exact if_pos h1, ?_, ?_⟩
  · rw [List.length_append, List.length_drop]
    omega
  · rw [List.append_assoc, List.singleton_append, cstr, if_pos (by simp), takeWhile_self]

theorem delete_ok {h : Heap} {p : Nat} {a s : List UInt8} (h1 : h.block p = some a) (h2 : cstr a = .ok s) :
    h.delete p = .ok { h with block := fun q => if q = p then none else h.block q } := by
  simp [Heap.delete, Heap.get, h1, h2]

theorem set_short {h0 h : Heap} {s : Str} {v : List UInt8} (hs : s.sso.length = 16) (h1 : h0.next ≤ h.next) (hv : v.length ≤ 15)
    (hh : ∃ h', release h s = .ok h' ∧ h0.next ≤ h'.next ∧
      ∀ q < h'.next, h'.block q = if q < h0.next then h0.block q else none) :
    ∃ y, set h s v = .ok y ∧ Ok h0 (.value v) y := by
  obtain ⟨h', e, hn, hb⟩ := hh
  obtain ⟨a, ea, la, ca⟩ := strcpy_ok (dst := s.sso) (src := v) (by omega)
  refine ⟨(h', ⟨a, none⟩), ?_, ?_⟩
  · unfold set
    rw [if_pos (show v.length ≤ ssoChars from hv)]
    simp [e, ea]
  · refine ⟨by rw [la, hs], hn, ?_⟩
    simp only [hv, if_true]
    exact ⟨trivial, ca, hb⟩

theorem set_long {h0 h : Heap} {s : Str} {v : List UInt8} (hs : s.sso.length = 16) (hv : ¬ v.length ≤ 15)
    (hh : ∃ h', release h s = .ok h' ∧ h0.next ≤ h'.next ∧
      ∀ q < h'.next, h'.block q = if q < h0.next then h0.block q else none) :
    ∃ y, set h s v = .ok y ∧ Ok h0 (.value v) y := by
  obtain ⟨h', e, hn, hb⟩ := hh
  obtain ⟨a, ea, la, ca⟩ := strcpy_ok (dst := List.replicate (v.length + 1) 0) (src := v) (by simp)
  refine ⟨({ (h'.alloc (v.length + 1)).1 with block := fun q => if q = h'.next then some a else (h'.alloc (v.length + 1)).1.block q },
    { s with str := some h'.next }), ?_, ?_⟩
  · unfold set
    rw [if_neg (show ¬ v.length ≤ ssoChars from hv), e]
    simp [Heap.alloc, Heap.get, ea]
    rfl
  · refine ⟨hs, Nat.le_succ_of_le hn, ?_⟩
    simp only [hv, if_false]
    refine ⟨h'.next, a, rfl, hn, Nat.lt_succ_self _, by simp, ca, fun q hq hne => ?_⟩
    have : q < h'.next := by simp only [Heap.alloc] at hq; omega
    simp [Heap.alloc, hne, hb q this]

theorem del_of {h0 : Heap} {f : Fate} {x : Heap × Str} (hf : ∀ (_ : f = .dangling), False) (hx : Ok h0 f x) :
    ∃ h', release x.1 x.2 = .ok h' ∧ h0.next ≤ h'.next ∧ h'.next = x.1.next ∧
      ∀ q < h'.next, h'.block q = if q < h0.next then h0.block q else none := by
  obtain ⟨hs, hn, hx⟩ := hx
  cases f with
  | dangling => exact (hf rfl).elim
  | fresh =>
    obtain ⟨e, hb⟩ := hx
    exact ⟨x.1, by simp [release, e], hn, rfl, hb⟩
  | value v =>
    by_cases hv : v.length ≤ 15
    · simp only [hv, if_true] at hx
      exact ⟨x.1, by simp [release, hx.1], hn, rfl, hx.2.2⟩
    · simp only [hv, if_false] at hx
      obtain ⟨p, a, e, hp, hp', hblk, hc, hb⟩ := hx
      refine ⟨{ x.1 with block := fun q => if q = p then none else x.1.block q }, by simp only [release, e]; exact delete_ok hblk hc, hn, rfl, fun q hq => ?_⟩
      by_cases hqp : q = p
      · subst hqp
        have : ¬ q < h0.next := by omega
        simp [this]
      · simp only [hqp, if_false]
        exact hb q hq hqp

theorem reset_of {h0 : Heap} {f : Fate} {x : Heap × Str} (hf : ∀ (_ : f = .dangling), False) (hx : Ok h0 f x) :
    ∃ y, reset x.1 x.2 = .ok y ∧ Ok h0 (match f with | .value v => if v.length ≤ 15 then .value [] else .dangling | _ => .value []) y := by
  have hl : (x.2.sso.set 0 0).length = 16 := by simp [hx.1]
  have hc : cstr (x.2.sso.set 0 0) = .ok [] := by
    obtain ⟨sso, e⟩ : ∃ l, l = x.2.sso := ⟨_, rfl⟩
    rw [← e] at hl ⊢
    cases sso with
    | nil => simp at hl
    | cons a l => simp [cstr]
  obtain ⟨h', e, hn, hnn, hb⟩ := del_of hf hx
  refine ⟨(h', { x.2 with sso := x.2.sso.set 0 0 }), ?_, ?_⟩
  · simp [reset, e]
  · cases f with
    | dangling => exact (hf rfl).elim
    | fresh => exact ⟨hl, hn, by simpa using ⟨hx.2.2.1, hc, hb⟩⟩
    | value v =>
      by_cases hv : v.length ≤ 15
      · have hx2 := hx.2.2
        simp only [hv, if_true] at hx2 ⊢
        exact ⟨hl, hn, by simpa using ⟨hx2.1, hc, hb⟩⟩
      · have hx2 := hx.2.2
        simp only [hv, if_false] at hx2 ⊢
        obtain ⟨p, _, ep, hp, hp', _⟩ := hx2
        exact ⟨hl, hn, p, ep, hp, by rw [hnn]; exact hp', hb⟩

theorem dangling_ub {h0 : Heap} {x : Heap × Str} (hx : Ok h0 .dangling x) :
    data x.1 x.2 = .ub ∧ reset x.1 x.2 = .ub ∧ ∀ v, set x.1 x.2 v = .ub := by
  obtain ⟨_, _, p, e, hp, hp', hb⟩ := hx
  have h1 : x.1.block p = none := by rw [hb p hp', if_neg (by omega)]
  have h2 : x.1.delete p = .ub := by simp [Heap.delete, Heap.get, h1, Res.ofOption]
  refine ⟨?_, ?_, fun v => ?_⟩
  · simp [data, e, Heap.get, h1, Res.ofOption]
  · simp [reset, release, e, h2]
  · unfold set
    split <;> simp [release, e, h2]

theorem data_of {h0 : Heap} {v : List UInt8} {x : Heap × Str} (hx : Ok h0 (.value v) x) : data x.1 x.2 = .ok (v.takeWhile (· ≠ 0)) := by
  obtain ⟨_, _, hx⟩ := hx
  by_cases hv : v.length ≤ 15
  · simp only [hv, if_true] at hx
    simp only [data, hx.1, hx.2.1]
  · simp only [hv, if_false] at hx
    obtain ⟨p, a, e, _, _, hb, hc, _⟩ := hx
    simp only [data, e, Heap.get, hb, Res.ofOption_some, Res.ok_bind, hc]

theorem run_law : ∀ (cs : List Call) (h0 : Heap) (f : Fate) (x : Heap × Str), Ok h0 f x →
    match fate f cs with
    | some f' => ∃ y, run cs x = .ok y ∧ Ok h0 f' y
    | none => run cs x = .ub
  | [], h0, f, x, hx => ⟨x, rfl, hx⟩
  | c :: cs, h0, f, x, hx => by
    by_cases hf : f = .dangling
    · subst hf
      obtain ⟨_, h2, h3⟩ := dangling_ub hx
      cases c with
      | set v => simp [fate, run, h3]
      | reset => simp [fate, run, h2]
    · cases c with
      | set v =>
        obtain ⟨h', e, hn, hnn, hb⟩ := del_of (fun h => hf h) hx
        obtain ⟨y, ey, oy⟩ : ∃ y, set x.1 x.2 v = .ok y ∧ Ok h0 (.value v) y := by
          by_cases hv : v.length ≤ 15
          · exact set_short hx.1 hx.2.1 hv ⟨h', e, hn, hb⟩
          · exact set_long hx.1 hv ⟨h', e, hn, hb⟩
        have := run_law cs h0 (.value v) y oy
        have e1 : fate f (.set v :: cs) = fate (.value v) cs := by
          cases f with
          | dangling => exact (hf rfl).elim
          | _ => simp [fate]
        have e2 : run (.set v :: cs) x = run cs y := by simp [run, ey]
        rw [e1, e2]
        exact this
      | reset =>
        obtain ⟨y, ey, oy⟩ := reset_of (fun h => hf h) hx
        have := run_law cs h0 _ y oy
        have e2 : run (.reset :: cs) x = run cs y := by simp [run, ey]
        rw [e2]
        cases f with
        | dangling => exact (hf rfl).elim
        | fresh => simpa [fate] using this
        | value v =>
          by_cases hv : v.length ≤ 15
          · simpa [fate, hv] using this
          · simpa [fate, hv] using this

theorem ok_new (h : Heap) {sso : List UInt8} (hs : sso.length = 16) : Ok h .fresh (h, ⟨sso, none⟩) :=
  ⟨hs, Nat.le_refl _, rfl, fun q hq => by simp only at hq ⊢; rw [if_pos hq]⟩

/-- **C68**, partial: exactly what a sequence of calls does.  A call has undefined behaviour iff it follows a `reset` of a string of more
than 15 characters (not counting the NUL).  Otherwise `data()` is the last value up to its first NUL byte; right after such a `reset`
reading `data()` is undefined behaviour. -/
theorem C68_partial (sso : List UInt8) (hs : sso.length = 16) (h : Heap) (cs : List Call) :
    match fate .fresh cs with
    | none => run cs (h, ⟨sso, none⟩) = .ub
    | some f => ∃ x, run cs (h, ⟨sso, none⟩) = .ok x ∧
      match f with
      | .fresh => x.2 = ⟨sso, none⟩
      | .value v => data x.1 x.2 = .ok (v.takeWhile (· ≠ 0))
      | .dangling => data x.1 x.2 = .ub := by
  have := run_law cs h .fresh _ (ok_new h hs)
  cases hf : fate .fresh cs with
  | none => rw [hf] at this; exact this
  | some f =>
    rw [hf] at this
    obtain ⟨y, e, oy⟩ := this
    refine ⟨y, e, ?_⟩
    cases f with
    | value v => exact data_of oy
    | dangling => exact (dangling_ub oy).1
    | fresh =>
      cases cs with
      | nil => simp only [run, Res.ok.injEq] at e; rw [← e]
      | cons c cs =>
        exfalso
        have : ∀ (cs : List Call) (f : Fate), fate f cs = some .fresh → f = .fresh ∧ cs = [] := by
          intro cs
          induction cs with
          | nil => intro f h; simp only [fate, Option.some.injEq] at h; exact ⟨h, rfl⟩
          | cons c cs ih =>
            intro f h
            cases f with
            | dangling => simp [fate] at h
            | fresh =>
              cases c with
              | set v => rw [fate] at h <;> [exact absurd (ih _ h).1 (by simp); simp]
              | reset => rw [fate] at h; exact absurd (ih _ h).1 (by simp)
            | value v =>
              cases c with
              | set v => rw [fate] at h <;> [exact absurd (ih _ h).1 (by simp); simp]
              | reset =>
                rw [fate] at h
                split at h <;> exact absurd (ih _ h).1 (by simp)
        exact absurd (this _ _ hf).2 (by simp)

/-- The arrays of other objects are never changed, and apart from the array of the current value nothing new stays allocated. -/
theorem C68_frame (sso : List UInt8) (hs : sso.length = 16) (h : Heap) (hh : ∀ q, h.next ≤ q → h.block q = none) (cs : List Call) (x : Heap × Str)
    (e : run cs (h, ⟨sso, none⟩) = .ok x) (q : Nat) (hq : q < x.1.next) (hne : x.2.str ≠ some q) : x.1.block q = h.block q := by
  have := run_law cs h .fresh _ (ok_new h hs)
  have ho : ∀ q, (if q < h.next then h.block q else none) = h.block q := fun q => by
    split
    · rfl
    · rw [hh q (by omega)]
  cases hf : fate .fresh cs with
  | none => rw [hf] at this; simp only at this; rw [this] at e; exact absurd e (by simp)
  | some f =>
    rw [hf] at this
    obtain ⟨y, e', _, _, oy⟩ := this
    rw [e', Res.ok.injEq] at e
    subst e
    cases f with
    | fresh => rw [oy.2 q hq, ho]
    | value v =>
      by_cases hv : v.length ≤ 15
      · simp only [hv, if_true] at oy
        rw [oy.2.2 q hq, ho]
      · simp only [hv, if_false] at oy
        obtain ⟨p, a, ep, _, _, _, _, hb⟩ := oy
        rw [hb q hq (fun e => hne (by rw [ep, e])), ho]
    | dangling =>
      obtain ⟨p, ep, _, _, hb⟩ := oy
      rw [hb q hq, ho]

/-- A `reset` of any string of more than 15 characters, with whatever calls before it, leaves an object that can neither be read nor set. -/
theorem C68_reset (sso : List UInt8) (hs : sso.length = 16) (h : Heap) (cs : List Call) (v : List UInt8)
    (hv : 15 < v.length) (x : Heap × Str) (e : run (cs ++ [.set v, .reset]) (h, ⟨sso, none⟩) = .ok x) :
    data x.1 x.2 = .ub ∧ ∀ w, set x.1 x.2 w = .ub := by
  have := run_law (cs ++ [.set v, .reset]) h .fresh _ (ok_new h hs)
  have app : ∀ (cs : List Call) (f : Fate), fate f (cs ++ [.set v, .reset]) = none ∨ fate f (cs ++ [.set v, .reset]) = some .dangling := by
    have hv' : ¬ v.length ≤ 15 := by omega
    intro cs
    induction cs with
    | nil => intro f; cases f <;> simp [fate, hv']
    | cons c cs ih =>
      intro f
      rw [List.cons_append]
      cases f with
      | dangling => simp [fate]
      | fresh =>
        cases c with
        | set w => rw [fate] <;> [exact ih _; simp]
        | reset => rw [fate]; exact ih _
      | value u =>
        cases c with
        | set w => rw [fate] <;> [exact ih _; simp]
        | reset =>
          rw [fate]
          split <;> exact ih _
  rcases app cs .fresh with hf | hf
  · rw [hf] at this; simp only at this; rw [this] at e; exact absurd e (by simp)
  · rw [hf] at this
    obtain ⟨y, e', oy⟩ := this
    rw [e', Res.ok.injEq] at e
    subst e
    exact ⟨(dangling_ub oy).1, (dangling_ub oy).2.2⟩

/-- C68 is false: after `reset` of a string of 16 characters `data()` reads freed memory. -/
theorem C68_refuted : ¬ C68_statement := by
  intro h
  obtain ⟨x, e, hd⟩ := h (List.replicate 16 0) rfl ⟨fun _ => none, 0⟩ [.set (List.replicate 16 0x61), .reset] [] rfl
  have := C68_reset (List.replicate 16 0) rfl ⟨fun _ => none, 0⟩ [] (List.replicate 16 0x61) (by simp) x e
  rw [this.1] at hd
  exact absurd hd (by simp)

/-- A sequence of calls with short and long strings and a `reset` that `C68_partial` covers, and its value. -/
example : fate .fresh [.set (List.replicate 20 0x61), .set [0x62], .reset, .set (List.replicate 16 0x63)] = some (.value (List.replicate 16 0x63)) := rfl

end Verif.PString
