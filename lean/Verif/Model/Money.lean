import Verif.Model.Basic
/-
Model of `/repo/src/money_utils.cc`.
-/
namespace Verif.Money

/-- `google::type::Money`: `currency_code`, `units` (int64), `nanos` (int32), money_utils.cc:26-43. -/
structure Money where
  currency : Bytes
  units : Int
  nanos : Int
  deriving DecidableEq, Repr

/-- `ValidateMoney`, src/money_utils.cc:26-43. -/
def validateMoney (m : Money) : Status :=
  if m.currency.isEmpty || m.currency.length != 3 then .invalidArgument
  else if (m.units > 0 && m.nanos < 0) || (m.units < 0 && m.nanos > 0) then .invalidArgument
  else if m.nanos < -999999999 || m.nanos > 999999999 then .invalidArgument
  else .ok

/-- `GetAmountSign`, src/money_utils.cc:45-57. -/
def getAmountSign (m : Money) : Int :=
  if m.units > 0 then 1
  else if m.units < 0 then -1
  else if m.nanos > 0 then 1
  else if m.nanos < 0 then -1
  else 0

/-- money_utils.cc:73. -/
def kBillion : Int := 1000000000

/-- The carry out of the nanos addition, src/money_utils.cc:69-80: `(carry, sum_nanos)`. -/
def carryNanos (n : Int) : Int × Int :=
  if n ≥ kBillion then (1, n - kBillion)
  else if n ≤ -kBillion then (-1, n + kBillion)
  else (0, n)

/-- The sign adjustment, src/money_utils.cc:88-94: new `(sum_units, sum_nanos)`.
`--sum_units`/`++sum_units` move towards zero and `sum_nanos ± kBillion` stays below a billion
in magnitude, so plain arithmetic is exact. -/
def adjustSigns (units nanos : Int) : Int × Int :=
  if units > 0 ∧ nanos < 0 then (units - 1, nanos + kBillion)
  else if units < 0 ∧ nanos > 0 then (units + 1, nanos - kBillion)
  else (units, nanos)

/-- Overflow detection and the final assignment, src/money_utils.cc:97-121. -/
def finishAdd (a b : Money) (noCarry units nanos : Int) : Status × Money :=
  if getAmountSign a > 0 ∧ getAmountSign b > 0 ∧ units ≤ 0 then    -- 97-105
    (.outOfRange, ⟨a.currency, int64Max, kBillion - 1⟩)
  else if getAmountSign a < 0 ∧ getAmountSign b < 0 ∧ (noCarry ≥ 0 ∨ units ≥ 0) then -- 112-116
    (.outOfRange, ⟨a.currency, int64Min, -kBillion + 1⟩)
  else (.ok, ⟨a.currency, units, nanos⟩)                           -- 119-121

/-- `TryAddMoney`, src/money_utils.cc:59-122.  Returns the status and the new value of `*sum`
(every path overwrites all three fields, so the old value of `*sum` is not an input).
`A` is the reading of signed addition. -/
def tryAddMoney (A : SignedAdd) (a b : Money) : Res (Status × Money) :=
  if a.currency ≠ b.currency then                                   -- 60-66
    .ok (.invalidArgument, ⟨[], 0, 0⟩)
  else do
    let nanos0 ← A.i32 a.nanos b.nanos                              -- 72
    let cn := carryNanos nanos0                                     -- 74-80
    let noCarry ← A.i64 a.units b.units                             -- 83
    let units0 ← A.i64 noCarry cn.1                                 -- 84
    let un := adjustSigns units0 cn.2                               -- 88-94
    .ok (finishAdd a b noCarry un.1 un.2)

/-- `SaturatedAddMoney`, src/money_utils.cc:124-130. -/
def saturatedAddMoney (A : SignedAdd) (a b : Money) : Res Money := do
  let (st, sum) ← tryAddMoney A a b
  if st = .ok ∨ st = .outOfRange then .ok sum else .error .assertFail

end Verif.Money
