/-!
# The mapper: table geometry and hash to slot mapping (`base_linear_config::mapper_type`)

`size_t` values are natural numbers; where a computation can overflow or is done in 32 bits in
the code, the model reduces explicitly (see `computeCapacity`).
-/

namespace Growt

/-- `base_linear_config::mapper_type` with its three data members and the two template
flags, `data-structures/base_linear.hpp:54-97`. -/
structure Mapper where
  /-- `cyclic_mapping`, line 85 -/
  cm : Bool
  /-- `cyclic_probing`, line 86 -/
  cp : Bool
  /-- `_probe_helper`, line 74 -/
  probeHelper : Nat
  /-- `_map_helper`, line 75 -/
  mapHelper : Nat
  /-- `_grow_helper`, line 76 -/
  growHelper : Nat
  deriving DecidableEq, Repr

/-- `lp_buffer`, `data-structures/base_linear.hpp:87`. -/
def lpBuffer : Nat := 1024

/-- Loop `while (capacity >>= 1) log_size++`, `data-structures/base_linear.hpp:67-68`. -/
def logLoop : Nat → Nat
  | c => if _h : c / 2 = 0 then 0 else logLoop (c / 2) + 1
  termination_by c => c
  decreasing_by omega

/-- `compute_right_shift`, `data-structures/base_linear.hpp:65-70`.  For `capacity = 2^64` or
more (impossible in a `size_t`) the subtraction would wrap; natural subtraction is used. -/
def computeRightShift (capacity : Nat) : Nat := 64 - logLoop capacity

/-- One iteration of the doubling loop on a 32 bit unsigned (`auto temp = 256u`),
`data-structures/base_linear.hpp:60-61`; `fuel` bounds the number of iterations, `none` means
that the loop has not ended within them. -/
def capLoop (desired : Nat) : Nat → Nat → Option Nat
  | 0, _ => none
  | fuel + 1, temp =>
    if temp < desired then capLoop desired fuel ((temp <<< 1) % 2 ^ 32) else some temp

/-- `compute_capacity`, `data-structures/base_linear.hpp:58-63`: both the loop and the final
`temp << 1` are computed on a 32 bit `unsigned`. -/
def computeCapacity (fuel desired : Nat) : Option Nat :=
  (capLoop desired fuel 256).map fun t => (t <<< 1) % 2 ^ 32

/-- `mapper_type(capacity, grow_helper)` together with `init_helper`,
`data-structures/base_linear.hpp:1309-1330`. -/
def Mapper.mk' (cm cp : Bool) (capacity growHelper : Nat) : Mapper where
  cm := cm
  cp := cp
  probeHelper := if cp then capacity - 1 else capacity + lpBuffer
  mapHelper := if cm then capacity - 1 else computeRightShift capacity
  growHelper := growHelper

namespace Mapper

/-- `total_slots`, `data-structures/base_linear.hpp:1335-1341`. -/
def total (M : Mapper) : Nat := if M.cp then M.probeHelper + 1 else M.probeHelper

/-- `addressable_slots`, `data-structures/base_linear.hpp:1345-1351`. -/
def addr (M : Mapper) : Nat := if M.cp then M.probeHelper + 1 else M.probeHelper - lpBuffer

/-- `bitmask`, `data-structures/base_linear.hpp:1355-1363`. -/
def bitmask (M : Mapper) : Nat :=
  if M.cp then M.probeHelper else if M.cm then M.mapHelper else M.probeHelper - lpBuffer - 1

/-- `map`, `data-structures/base_linear.hpp:1374-1380`. -/
def map (M : Mapper) (hashed : Nat) : Nat :=
  if M.cm then hashed &&& M.mapHelper else hashed >>> M.mapHelper

/-- `remap`, `data-structures/base_linear.hpp:1384-1390`. -/
def remap (M : Mapper) (i : Nat) : Nat := if M.cp then i &&& M.probeHelper else i

/-- `fill_rate > 0.3` with `fill_rate = double(inserted - deleted) / double(nsize)`,
`data-structures/base_linear.hpp:1398-1400`.  The literal `0.3` is the double
`5404319552844595 / 2^54`; for a divisor that is a power of two the division of doubles is
exact, so the comparison is the exact comparison below (`live / n > 5404319552844595 / 2^54`);
the conversion of `live` to double is exact below `2^53` and above that far on the same side of
the threshold for every table that fits in memory. -/
def fillAboveExact (live n : Nat) : Bool := decide (live * 2 ^ 54 > 5404319552844595 * n)

/-- `inserted - deleted` on `size_t`, `data-structures/base_linear.hpp:1398`: wraps modulo `2^64`
when more deletions than insertions have been counted. -/
def sub64 (a b : Nat) : Nat := (a + (2 ^ 64 - b % 2 ^ 64)) % 2 ^ 64

/-- `resize(inserted, deleted)`, `data-structures/base_linear.hpp:1394-1407`. -/
def resize (M : Mapper) (inserted deleted : Nat) : Mapper :=
  let n := M.addr
  let big := fillAboveExact (sub64 inserted deleted) n
  let nsize := if big then n <<< 1 else n
  let temp := if M.cm then M.addr else if big then 1 else 0
  Mapper.mk' M.cm M.cp nsize temp

/-- The number of addressable slots is the power of two `2^k` and the helpers are the ones the
constructor computes for it (`data-structures/base_linear.hpp:1317-1330`); `k ≤ 63` because a
`size_t` holds it. -/
def WF (M : Mapper) (k : Nat) : Prop :=
  9 ≤ k ∧ k ≤ 63 ∧ M = Mapper.mk' M.cm M.cp (2 ^ k) M.growHelper

end Mapper
end Growt
