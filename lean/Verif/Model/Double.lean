import Verif.Model.Distribution
import Mathlib.Data.Rat.Floor
/-
The type `double` of the C++ code: IEEE 754 binary64 with rounding to nearest, ties to even, as on every
platform the library is built for.  The rest of the model works for any `DoubleOps`; this file gives the operations their
real meaning.

Simplified: the two zeros are one number.  They differ only as divisors, and the divisors in the code are counts (converted from
integers, where zero is `+0`), the constant `1000.0`, and the width of a linear layout, where a quotient by either zero is
an infinity or NaN and the conversion to `int` that follows is undefined in all cases.
-/
namespace Verif.Ieee

/-- A `double`.  The code computes with values `fin q` where `q` is a double, see `IsDouble`. -/
inductive F64 where
  | nan
  | inf (neg : Bool)
  | fin (q : Rat)
  deriving DecidableEq, Repr

/-- `2 ^ k`. -/
def pow2 : Int → Rat
  | .ofNat n => ((2 ^ n : Nat) : Rat)
  | .negSucc n => 1 / ((2 ^ (n + 1) : Nat) : Rat)

/-- The exponent of a positive number: `2 ^ expo q ≤ q < 2 ^ (expo q + 1)`. -/
def expo (q : Rat) : Int :=
  let e := (Nat.log2 q.num.natAbs : Int) - (Nat.log2 q.den : Int)
  if pow2 e ≤ q then e else e - 1

/-- The exponent of the unit in the last place: 52 bits behind the first one, at least -1074. -/
def ulpExp (q : Rat) : Int := max (expo q - 52) (-1074)

/-- Rounding to an integer, ties to even. -/
def roundEven (x : Rat) : Int :=
  let f := ⌊x⌋
  if x - f < 1 / 2 then f
  else if 1 / 2 < x - f then f + 1
  else if f % 2 = 0 then f else f + 1

/-- Rounding of a positive number, without an upper limit. -/
def rndPos (q : Rat) : Rat := (roundEven (q / pow2 (ulpExp q)) : Rat) * pow2 (ulpExp q)

/-- Rounding, without an upper limit. -/
def rnd (q : Rat) : Rat := if 0 < q then rndPos q else if q < 0 then -rndPos (-q) else 0

/-- Rounding to a double. -/
def fl (q : Rat) : F64 :=
  if pow2 1024 ≤ rnd q then .inf false else if rnd q ≤ -pow2 1024 then .inf true else .fin (rnd q)

/-- A number that a double can represent. -/
def IsDouble (q : Rat) : Prop := ∃ (m : Int) (k : Int), -1074 ≤ k ∧ m.natAbs ≤ 2 ^ 53 ∧ q = m * pow2 k ∧ -pow2 1024 < q ∧ q < pow2 1024

/-- A value a variable of type `double` can have. -/
def F64.Ok : F64 → Prop
  | .fin q => IsDouble q
  | _ => True

namespace F64

/-- Is the sign bit set?  (Zero counts as positive.) -/
def negative : F64 → Bool
  | .nan => false
  | .inf s => s
  | .fin q => decide (q < 0)

/-- `-x`. -/
def neg : F64 → F64
  | .nan => .nan
  | .inf s => .inf (!s)
  | .fin q => .fin (-q)

/-- `x + y`. -/
def add : F64 → F64 → F64
  | .nan, _ | _, .nan => .nan
  | .inf s, .inf t => if s = t then .inf s else .nan
  | .inf s, .fin _ => .inf s
  | .fin _, .inf t => .inf t
  | .fin x, .fin y => fl (x + y)

/-- `x - y`. -/
def sub (x y : F64) : F64 := add x (neg y)

/-- `x * y`. -/
def mul : F64 → F64 → F64
  | .nan, _ | _, .nan => .nan
  | .inf s, .inf t => .inf (s != t)
  | .inf s, .fin y => if y = 0 then .nan else .inf (s != decide (y < 0))
  | .fin x, .inf t => if x = 0 then .nan else .inf (t != decide (x < 0))
  | .fin x, .fin y => fl (x * y)

/-- `x / y`. -/
def div : F64 → F64 → F64
  | .nan, _ | _, .nan => .nan
  | .inf _, .inf _ => .nan
  | .inf s, .fin y => .inf (s != decide (y < 0))
  | .fin _, .inf _ => .fin 0
  | .fin x, .fin y => if y = 0 then (if x = 0 then .nan else .inf (decide (x < 0))) else fl (x / y)

/-- `std::abs(x)`. -/
def abs : F64 → F64
  | .nan => .nan
  | .inf _ => .inf false
  | .fin q => .fin (if q < 0 then -q else q)

/-- `x < y`. -/
def lt : F64 → F64 → Bool
  | .nan, _ | _, .nan => false
  | .inf s, .inf t => s && !t
  | .inf s, .fin _ => s
  | .fin _, .inf t => !t
  | .fin x, .fin y => decide (x < y)

/-- `x == y`. -/
def eq : F64 → F64 → Bool
  | .nan, _ | _, .nan => false
  | .inf s, .inf t => s == t
  | .fin x, .fin y => decide (x = y)
  | _, _ => false

/-- `x <= y`. -/
def le (x y : F64) : Bool := lt x y || eq x y

/-- `std::isnan(x)`. -/
def isNaN : F64 → Bool
  | .nan => true
  | _ => false

/-- `std::isinf(x)`. -/
def isInf : F64 → Bool
  | .inf _ => true
  | _ => false

/-- The integral part, truncated towards zero. -/
def trunc (q : Rat) : Int := if q < 0 then -⌊-q⌋ else ⌊q⌋

/-- A conversion to an integer type with the values `[lo, hi]`: `none` if it is undefined. -/
def toInt (lo hi : Int) : F64 → Option Int
  | .fin q => if lo ≤ trunc q ∧ trunc q ≤ hi then some (trunc q) else none
  | _ => none

/-- A conversion of an integer. -/
def ofInt (n : Int) : F64 := fl n

end F64

/-- The operations of `double`.  The result of `log2` is up to the C library. -/
def ops (log2 : F64 → F64) : DoubleOps F64 where
  zero := .fin 0
  one := .fin 1
  epsilon := fl (1 / 100000)
  add := F64.add
  sub := F64.sub
  mul := F64.mul
  div := F64.div
  abs := F64.abs
  log2 := log2
  lt := F64.lt
  le := F64.le
  eq := F64.eq
  isNaN := F64.isNaN
  ofInt := F64.ofInt
  toInt32 := F64.toInt (-(2 ^ 31)) (2 ^ 31 - 1)

/-- `std::numeric_limits<int64_t>::max()`. -/
def int64Max : Int := 2 ^ 63 - 1

/-- The number of cycles `SetTimeout` uses, utils/simple_lru_cache_inl.h:596-598, 619-626 with `Frequency()` = 1000000 (:83): `none` for no
limit.  Converting NaN to `int64_t` is undefined. -/
def timeoutCycles (seconds : F64) : Res (Option Int) :=
  if seconds.lt (.fin 0) || seconds.isInf then .ok none
  else
    let timeout := seconds.mul (.ofInt 1000000)
    if (F64.ofInt int64Max).le timeout then .ok (some int64Max)
    else match timeout.toInt (-(2 ^ 63)) int64Max with
      | some i => .ok (some i)
      | none => .error .badCast

/-- The argument `ms / 1000.0` of `SetMaxIdleSeconds` and `SetAgeBasedEviction`, check_aggregator_impl.cc:73,
quota_aggregator_impl.cc:80, report_aggregator_impl.cc:64. -/
def seconds (ms : Int) : F64 := (F64.ofInt ms).div (.ofInt 1000)

end Verif.Ieee
