import Verif.Serialize.Lemmas

/-! # Property theorems for serialization (C14, C15, C51)

`Fits t v` says that all string and vector lengths in `v` are below `2^64`, which is automatic for
C++ objects. -/

namespace Verif.SerProps

open Verif Ser

/-- C14. Serializing a value and deserializing the bytes yields the value. -/
theorem C14_roundtrip (t : Ty) (v : Val t) (h : Fits t v) :
    ∃ s, serialize t v [] = .ok s ∧ deserialize t s = .ok v := by
  refine ⟨enc t v, by rw [serialize_eq]; rfl, ?_⟩
  unfold deserialize
  have e := deserializer_spec t v h [] []
  rw [List.nil_append, List.append_nil, List.length_nil] at e
  rw [e]
  rfl

/-- C15. `serialize` appends exactly `get_size(v)` bytes and leaves the earlier bytes unchanged;
deserializing at the position where the encoding starts returns the value and advances the read
position to the end of the encoding, whatever follows. -/
theorem C15_self_delimiting (t : Ty) (v : Val t) (h : Fits t v) (pre suf : Stream) :
    ∃ bytes, serialize t v pre = .ok (pre ++ bytes) ∧ bytes.length = getSize t v ∧
      deserializer t (pre ++ bytes ++ suf) pre.length = .ok (v, pre.length + getSize t v) := by
  refine ⟨enc t v, serialize_eq t v pre, (getSize_eq t v).symm, ?_⟩
  rw [getSize_eq]
  exact deserializer_spec t v h pre suf

/-- C15, consequence: values written one after the other are read back one after the other. -/
theorem C15_sequence (t u : Ty) (v : Val t) (w : Val u) (hv : Fits t v) (hw : Fits u w) :
    ∃ s1 s2, serialize t v [] = .ok s1 ∧ serialize u w s1 = .ok s2 ∧
      ∃ p, deserializer t s2 0 = .ok (v, p) ∧ deserializer u s2 p = .ok (w, s2.length) := by
  refine ⟨enc t v, enc t v ++ enc u w, by rw [serialize_eq]; rfl, serialize_eq u w _, (enc t v).length, ?_, ?_⟩
  · have e := deserializer_spec t v hv [] (enc u w)
    rw [List.nil_append, List.length_nil, Nat.zero_add] at e
    exact e
  · have e := deserializer_spec u w hw (enc t v) []
    rw [List.append_nil] at e
    rw [e, List.length_append]

/-- C51. Deserializing a truncated encoding never returns a value: the bounds assertion fails. -/
theorem C51_truncated (t : Ty) (v : Val t) (h : Fits t v) (s : Stream) (hs : serialize t v [] = .ok s)
    (n : Nat) (hn : n < s.length) : deserialize t (s.take n) = .assertFail := by
  rw [serialize_eq] at hs
  have hs : enc t v = s := Res.ok.inj hs
  have hq : s.drop n ≠ [] := by
    intro e
    have := congrArg List.length e
    rw [List.length_drop, List.length_nil] at this
    omega
  have e := deserializer_short t v h [] (s.take n) (s.drop n) (by rw [hs, List.take_append_drop]) hq
  rw [List.nil_append, List.length_nil] at e
  unfold deserialize
  rw [e]
  rfl

/-- A nested shape: `tuple<int32, string, vector<tuple<uint8, string>>>`. -/
def exTy : Ty := .tupCons (.scalar 4) (.tupCons .str (.tupLast (.vec (.tupCons (.scalar 1) (.tupLast .str)))))

/-- A value of it. -/
def exVal : Val exTy :=
  (⟨[1, 2, 3, 4], rfl⟩, ([65, 66] : List Byte),
    ([(⟨[7], rfl⟩, ([] : List Byte)), (⟨[8], rfl⟩, ([67] : List Byte))] :
      List (Val (.tupCons (.scalar 1) (.tupLast .str)))))

theorem exFits : Fits exTy exVal := by
  refine ⟨trivial, (by decide : (2 : Nat) < 2 ^ 64), (by decide : (2 : Nat) < 2 ^ 64), ?_⟩
  intro x hx
  rcases List.mem_cons.1 hx with rfl | hx
  · exact ⟨trivial, (by decide : (0 : Nat) < 2 ^ 64)⟩
  rcases List.mem_cons.1 hx with rfl | hx
  · exact ⟨trivial, (by decide : (1 : Nat) < 2 ^ 64)⟩
  · cases hx

example : getSize exTy exVal = 41 ∧ serialize exTy exVal [] =
    .ok [1, 2, 3, 4, 2, 0, 0, 0, 0, 0, 0, 0, 65, 66, 2, 0, 0, 0, 0, 0, 0, 0,
      7, 0, 0, 0, 0, 0, 0, 0, 0, 8, 1, 0, 0, 0, 0, 0, 0, 0, 67] := by decide +kernel
example := C14_roundtrip exTy exVal exFits
example := C15_self_delimiting exTy exVal exFits [9, 9] [5]

end Verif.SerProps
