import Verif.PString.Model
import Mathlib.Tactic.Common

/-!
# Model of the table metadata (ptable/core/VTableInfo.hpp, PTableInfo.hpp, PTableInfo.cpp)

A name is a `std::string`, that is any list of bytes; persistent names are C strings.  Only what the constructors store and
the accessors return is modelled; the name of the table is a `PString` (`Model.lean`).
-/

namespace Verif.PString

open Verif

/-- VTableInfo.hpp:31 `ColumnType`. -/
inductive ColType where
  | void | int | double | string
deriving DecidableEq

/-- A `std::string`. -/
abbrev Name := List UInt8

/-- VTableInfo.hpp:170-183 `ColumnsConstructor<Tuple, N>::apply`: `types` are the column types of the tuple, the first `n` are appended to `cv`. -/
def columnsCtor (types : List ColType) (sv : List Name) : Nat → List (Name × ColType) → Res (List (Name × ColType))
  | 0, cv => .ok cv
  | n + 1, cv => do
    let cv ← columnsCtor types sv n cv
    let s ← Res.ofOption sv[n]?
    let t ← Res.ofOption types[n]?
    pure (cv ++ [(s, t)])

/-- VTableInfo.hpp:190-196: the constructor of `VTableInfo`; the columns. -/
def vTableInfo (types : List ColType) (names : List Name) : Res (List (Name × ColType)) :=
  if names.length ≠ types.length then .throws else columnsCtor types names types.length []

/-- PTableInfo.cpp:26-36: the constructor of `PColumnInfo`; `make_persistent<char[]>(n.length() + 1)` and `strcpy`. -/
def pColumnInfo (c : Name × ColType) : Res (Name × ColType) := do
  let a ← strcpy (List.replicate (c.1.length + 1) 0) c.1
  pure (a, c.2)

/-- `push_back` in a loop. -/
def pColumns : List (Name × ColType) → Res (List (Name × ColType))
  | [] => .ok []
  | c :: cs => do
    let x ← pColumnInfo c
    let xs ← pColumns cs
    pure (x :: xs)

/-- PTableInfo.hpp:69-71: `PTableInfo` from a `VTableInfo`; 85-98 `initPTableInfo`.  The result is the persistent column vector. -/
def pTableInfo (types : List ColType) (names : List Name) : Res (List (Name × ColType)) := do
  let cv ← vTableInfo types names
  pColumns cv

/-- PTableInfo.hpp:73-77: `PTableInfo` from a list of names. -/
def pTableInfoFromList (types : List ColType) (names : List Name) : Res (List (Name × ColType)) := do
  let cv ← columnsCtor types names types.length []
  pColumns cv

/-- PTableInfo.hpp:104 `columnInfo(pos)` followed by `getName()` and `getType()` (51-52); `at` throws. -/
def columnInfo (cols : List (Name × ColType)) (pos : Nat) : Res (Name × ColType) :=
  match cols[pos]? with
  | none => .throws
  | some c => do
    let n ← cstr c.1
    pure (n, c.2)

/-- PTableInfo.hpp:119-125 `findColumnByName` from column `i` on. -/
def findFrom (colName : Name) : List (Name × ColType) → Int → Res Int
  | [], _ => .ok (-1)
  | c :: cs, i => do
    let n ← cstr c.1
    if n = colName then pure i else findFrom colName cs (i + 1)

/-- PTableInfo.hpp:119-125 `findColumnByName`. -/
def findColumnByName (cols : List (Name × ColType)) (colName : Name) : Res Int := findFrom colName cols 0

/-- C69: a table described by as many names as the tuple has columns reports these names and types, and finds a column by name: the first of
that name, −1 if there is none. -/
def C69_statement : Prop :=
  ∀ (types : List ColType) (names : List Name), names.length = types.length →
    ∃ cols, pTableInfo types names = .ok cols ∧ cols.length = types.length ∧
      (∀ i n t, names[i]? = some n → types[i]? = some t → columnInfo cols i = .ok (n, t)) ∧
      ∀ n, ∃ r, findColumnByName cols n = .ok r ∧
        ((n ∉ names ∧ r = -1) ∨ ∃ i : Nat, r = i ∧ names[i]? = some n ∧ ∀ j < i, names[j]? ≠ some n)

theorem columnsCtor_ok {types : List ColType} {sv : List Name} (h : types.length ≤ sv.length) :
    ∀ n ≤ types.length, columnsCtor types sv n [] = .ok ((sv.zip types).take n)
  | 0, _ => by simp [columnsCtor]
  | n + 1, hn => by
    have hz : n < (sv.zip types).length := by simp; omega
    rw [columnsCtor, columnsCtor_ok h n (by omega), List.take_succ_eq_append_getElem hz]
    simp [List.getElem?_eq_getElem (show n < sv.length by omega), List.getElem?_eq_getElem (show n < types.length by omega)]

/-- A C string cut at its first NUL. -/
def cut (n : Name) : Name := n.takeWhile (· ≠ 0)

theorem cut_append (l t : List UInt8) : (cut l ++ 0 :: t).takeWhile (· ≠ 0) = cut l := by
  induction l with
  | nil => simp [cut]
  | cons a l ih =>
    by_cases h : a = 0
    · simp [cut, h]
    · simp only [cut] at ih ⊢
      rw [List.takeWhile_cons_of_pos (by simpa using h), List.cons_append, List.takeWhile_cons_of_pos (by simpa using h), ih]

theorem cut_self {n : Name} (h : 0 ∉ n) : cut n = n := by
  induction n with
  | nil => rfl
  | cons a n ih =>
    simp only [List.mem_cons, not_or] at h
    rw [cut, List.takeWhile_cons_of_pos (by simpa using Ne.symm h.1)]
    exact congrArg _ (ih h.2)

theorem pColumnInfo_ok (c : Name × ColType) : ∃ a, pColumnInfo c = .ok (a, c.2) ∧ cstr a = .ok (cut c.1) := by
  have hl : (c.1.takeWhile (· ≠ 0)).length ≤ c.1.length := (List.takeWhile_prefix _).length_le
  have h1 : (c.1.takeWhile (· ≠ 0) ++ [0]).length ≤ (List.replicate (c.1.length + 1) (0 : UInt8)).length := by
    simp only [List.length_append, List.length_singleton, List.length_replicate]; omega
  have h2 : strcpy (List.replicate (c.1.length + 1) 0) c.1 = .ok (c.1.takeWhile (· ≠ 0) ++ [0] ++
      (List.replicate (c.1.length + 1) 0).drop (c.1.takeWhile (· ≠ 0) ++ [0]).length) := by
    rw [strcpy]
    exact if_pos h1
  refine ⟨_, by rw [pColumnInfo, h2]; rfl, ?_⟩
  rw [List.append_assoc, List.singleton_append, cstr, if_pos (by simp)]
  exact congrArg _ (cut_append _ _)

theorem pColumns_ok : ∀ cv : List (Name × ColType), ∃ cols, pColumns cv = .ok cols ∧ cols.length = cv.length ∧
    ∀ i : Nat, ∀ c, cv[i]? = some c → ∃ a, cols[i]? = some (a, c.2) ∧ cstr a = .ok (cut c.1)
  | [] => ⟨[], rfl, rfl, by simp⟩
  | c :: cv => by
    obtain ⟨a, e, ha⟩ := pColumnInfo_ok c
    obtain ⟨cols, e', hl, h⟩ := pColumns_ok cv
    refine ⟨(a, c.2) :: cols, by simp [pColumns, e, e'], by simp [hl], fun i c' hi => ?_⟩
    cases i with
    | zero =>
      simp only [List.getElem?_cons_zero, Option.some.injEq] at hi
      subst hi
      exact ⟨a, rfl, ha⟩
    | succ i => exact h i c' hi

theorem findFrom_ok (n : Name) : ∀ (cols : List (Name × ColType)) (names : List Name) (k : Int), cols.length = names.length →
    (∀ i : Nat, ∀ m, names[i]? = some m → ∃ a t, cols[i]? = some (a, t) ∧ cstr a = .ok m) →
    ∃ r, findFrom n cols k = .ok r ∧ ((n ∉ names ∧ r = -1) ∨ ∃ i : Nat, r = k + i ∧ names[i]? = some n ∧ ∀ j < i, names[j]? ≠ some n)
  | [], [], _, _, _ => ⟨-1, rfl, .inl ⟨by simp, rfl⟩⟩
  | [], _ :: _, _, h, _ => by simp at h
  | _ :: _, [], _, h, _ => by simp at h
  | c :: cols, m :: names, k, hl, h => by
    obtain ⟨a, t, e, ha⟩ := h 0 m rfl
    simp only [List.getElem?_cons_zero, Option.some.injEq] at e
    subst e
    by_cases hm : m = n
    · exact ⟨k, by simp [findFrom, ha, hm], .inr ⟨0, by simp, by simp [hm], by simp⟩⟩
    · obtain ⟨r, er, hr⟩ := findFrom_ok n cols names (k + 1) (by simpa using hl) (fun i m' hi => by simpa using h (i + 1) m' (by simpa using hi))
      refine ⟨r, by simp [findFrom, ha, hm, er], ?_⟩
      rcases hr with ⟨h1, h2⟩ | ⟨i, h1, h2, h3⟩
      · exact .inl ⟨by simp [h1, Ne.symm hm], h2⟩
      · refine .inr ⟨i + 1, by rw [h1]; push_cast; omega, by simpa using h2, fun j hj => ?_⟩
        cases j with
        | zero => simpa using hm
        | succ j => simpa using h3 j (by omega)

/-- **C69**, partial: for names of any content the table reports each name up to its first NUL byte, and finds columns by the names cut in this
way.  For names without NUL bytes this is `C69_statement`, see `C69_no_nul_partial`. -/
theorem C69_partial (types : List ColType) (names : List Name) (hl : names.length = types.length) :
    ∃ cols, pTableInfo types names = .ok cols ∧ cols.length = types.length ∧
      (∀ i n t, names[i]? = some n → types[i]? = some t → columnInfo cols i = .ok (cut n, t)) ∧
      ∀ n, ∃ r, findColumnByName cols n = .ok r ∧
        ((n ∉ names.map cut ∧ r = -1) ∨ ∃ i : Nat, r = i ∧ (names.map cut)[i]? = some n ∧ ∀ j < i, (names.map cut)[j]? ≠ some n) := by
  have h1 := columnsCtor_ok (types := types) (sv := names) (by omega) types.length (Nat.le_refl _)
  obtain ⟨cols, e, hlen, hc⟩ := pColumns_ok ((names.zip types).take types.length)
  have hz : (names.zip types).take types.length = names.zip types := List.take_of_length_le (by simp; omega)
  rw [hz] at h1 e hlen hc
  have hlen' : cols.length = types.length := by rw [hlen]; simp [hl]
  have hcol : ∀ i n t, names[i]? = some n → types[i]? = some t → ∃ a, cols[i]? = some (a, t) ∧ cstr a = .ok (cut n) := fun i n t hn ht =>
    hc i (n, t) (by rw [List.getElem?_zip_eq_some]; exact ⟨hn, ht⟩)
  refine ⟨cols, by simp [pTableInfo, vTableInfo, hl, h1, e], hlen', fun i n t hn ht => ?_, fun n => ?_⟩
  · obtain ⟨a, ea, ha⟩ := hcol i n t hn ht
    simp [columnInfo, ea, ha]
  · obtain ⟨r, er, hr⟩ := findFrom_ok n cols (names.map cut) 0 (by simp [hlen', hl]) (fun i m hm => by
      rw [List.getElem?_map, Option.map_eq_some_iff] at hm
      obtain ⟨n', hn', rfl⟩ := hm
      have hi : i < types.length := by rw [← hl]; exact (List.getElem?_eq_some_iff.1 hn').1
      obtain ⟨a, ea, ha⟩ := hcol i n' _ hn' (List.getElem?_eq_getElem hi)
      exact ⟨a, _, ea, ha⟩)
    refine ⟨r, er, ?_⟩
    simpa using hr

/-- **C69**, partial: the statement for names without NUL bytes. -/
theorem C69_no_nul_partial (types : List ColType) (names : List Name) (hl : names.length = types.length) (h0 : ∀ n ∈ names, 0 ∉ n) :
    ∃ cols, pTableInfo types names = .ok cols ∧ cols.length = types.length ∧
      (∀ i n t, names[i]? = some n → types[i]? = some t → columnInfo cols i = .ok (n, t)) ∧
      ∀ n, ∃ r, findColumnByName cols n = .ok r ∧
        ((n ∉ names ∧ r = -1) ∨ ∃ i : Nat, r = i ∧ names[i]? = some n ∧ ∀ j < i, names[j]? ≠ some n) := by
  have hm : names.map cut = names := by
    conv_rhs => rw [← List.map_id names]
    exact List.map_congr_left fun n hn => cut_self (h0 n hn)
  obtain ⟨cols, e, h1, h2, h3⟩ := C69_partial types names hl
  rw [hm] at h3
  exact ⟨cols, e, h1, fun i n t hn ht => by rw [h2 i n t hn ht, cut_self (h0 n (List.mem_of_getElem? hn))], h3⟩

/-- C69 is false: a name is reported only up to its first NUL byte. -/
theorem C69_refuted : ¬ C69_statement := by
  intro h
  obtain ⟨cols, e, _, hc, _⟩ := h [.int] [[0x61, 0, 0x62]] rfl
  obtain ⟨cols', e', _, hc', _⟩ := C69_partial [.int] [[0x61, 0, 0x62]] rfl
  rw [e, Res.ok.injEq] at e'
  subst e'
  have h1 := hc 0 _ _ rfl rfl
  rw [hc' 0 _ _ rfl rfl] at h1
  exact absurd h1 (by decide)

/-- A wrong number of names is rejected by `VTableInfo`. -/
theorem C69_mismatch (types : List ColType) (names : List Name) (h : names.length ≠ types.length) : pTableInfo types names = .throws := by
  simp [pTableInfo, vTableInfo, h]

/-- The constructor of `PTableInfo` from a list does not check: with too few names it reads behind the end of the list. -/
theorem C69_too_few (types : List ColType) (names : List Name) (h : names.length < types.length) : pTableInfoFromList types names = .ub := by
  have : ∀ n, names.length < n → columnsCtor types names n [] = .ub := by
    intro n
    induction n with
    | zero => intro h; omega
    | succ n ih =>
      intro hn
      by_cases hh : names.length < n
      · simp [columnsCtor, ih hh]
      · have : n = names.length := by omega
        subst this
        rw [columnsCtor]
        by_cases hl : names.length ≤ types.length
        · have hok : ∃ r, columnsCtor types names names.length [] = .ok r := by
            have : ∀ n, n ≤ names.length → ∃ r, columnsCtor types names n [] = .ok r := by
              intro n
              induction n with
              | zero => exact fun _ => ⟨[], rfl⟩
              | succ n ih =>
                intro hn
                obtain ⟨r, e⟩ := ih (by omega)
                exact ⟨_, by
                  rw [columnsCtor, e]
                  simp [List.getElem?_eq_getElem (show n < names.length by omega), List.getElem?_eq_getElem (show n < types.length by omega)]
                  rfl⟩
            exact this _ (Nat.le_refl _)
          obtain ⟨r, e⟩ := hok
          simp [e, Res.ofOption]
        · omega
  simp [pTableInfoFromList, this types.length h]

/-- Three columns, two of them with the same name. -/
example : (pTableInfo [.int, .string, .double] [[0x61], [0x62], [0x61]] >>= fun c => findColumnByName c [0x61]) = .ok 0 := by decide +kernel

end Verif.PString
