import Verif.Res

/-!
# Model of `dbis::Random` (src/utils/Random.hpp)

The object is its only member `uint32_t seed` (line 27). `uint32_t`, `uint64_t` and `size_t` are bit
vectors of 32, 64 and 64 bits.
-/

namespace Verif.Rand

/-- Random.hpp:27, the object state. -/
abbrev State := BitVec 32

/-- Random.hpp:30-34, constructor. -/
def init (s : BitVec 32) : State :=
  let seed := s &&& 0x7fffffff#32
  if seed = 0#32 ∨ seed = 2147483647#32 then 1#32 else seed

/-- Random.hpp:36-44 `Next`: the new state, which is also the returned value. -/
def next (seed : State) : State :=
  let product : BitVec 64 := seed.setWidth 64 * 16807#64
  let seed' : BitVec 32 := ((product >>> 31) + (product &&& 2147483647#64)).setWidth 32
  if 2147483647#32 < seed' then seed' - 2147483647#32 else seed'

/-- Random.hpp:46-48 `Uniform(n)`: new state and returned value; `% 0` is undefined behaviour.
The modulus is a `size_t`, the result is truncated to `uint32_t`. -/
def uniform (seed : State) (n : BitVec 64) : Res (State × BitVec 32) :=
  if n = 0#64 then .ub
  else .ok (next seed, ((next seed).setWidth 64 % n).setWidth 32)

/-- Random.hpp:50-52 `OneIn(n)`. -/
def oneIn (seed : State) (n : BitVec 64) : Res (State × Bool) :=
  if n = 0#64 then .ub
  else .ok (next seed, (next seed).setWidth 64 % n == 0#64)

/-- Random.hpp:54-56 `Skewed(max_log)`. `1 << k` is an `int` shift: for `k ≥ 32` it is undefined; for
`k = 31` the result is the negative number `INT_MIN`, sign-extended by the conversion to `size_t`. -/
def skewed (seed : State) (maxLog : BitVec 64) : Res (State × BitVec 32) := do
  let (s1, k) ← uniform seed (maxLog + 1#64)
  if k.toNat ≥ 32 then .ub
  else uniform s1 ((1#32 <<< k.toNat).signExtend 64)

/-- State after `k` calls of `Next` on a generator constructed with seed `s`. -/
def after (s : BitVec 32) : Nat → State
  | 0 => init s
  | k + 1 => next (after s k)

end Verif.Rand
