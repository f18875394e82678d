import Verif.Model.Money
/-
Specification of money amounts, independent of the C++ control flow.
-/
namespace Verif.Money

/-- The amount in nanos. -/
def Money.value (m : Money) : Int := m.units * 1000000000 + m.nanos

/-- A message that can exist: protobuf fields are in machine range. -/
def Money.Typed (m : Money) : Prop := InI64 m.units ∧ InI32 m.nanos

/-- The documented validity condition (google/type/money.proto). -/
def Money.Valid (m : Money) : Prop :=
  m.currency.length = 3 ∧ (-999999999 ≤ m.nanos ∧ m.nanos ≤ 999999999) ∧
  (0 < m.units → 0 ≤ m.nanos) ∧ (m.units < 0 → m.nanos ≤ 0)

instance (m : Money) : Decidable m.Valid := by unfold Money.Valid; infer_instance
instance (m : Money) : Decidable m.Typed := by unfold Money.Typed; infer_instance

/-- Amounts a valid message can express. -/
def maxValue : Int := 9223372036854775807 * 1000000000 + 999999999
def minValue : Int := -9223372036854775808 * 1000000000 - 999999999

def Representable (v : Int) : Prop := minValue ≤ v ∧ v ≤ maxValue

/-- The most positive / most negative amount of a currency. -/
def maxMoney (c : Bytes) : Money := ⟨c, 9223372036854775807, 999999999⟩
def minMoney (c : Bytes) : Money := ⟨c, -9223372036854775808, -999999999⟩

/-- The inputs on which the code wrongly reports overflow: two strictly positive amounts that add
up to less than one unit, or two strictly negative amounts each of less than one unit. -/
def SpuriousOverflow (a b : Money) : Prop :=
  (0 < a.value ∧ 0 < b.value ∧ a.value + b.value < 1000000000) ∨
  (a.value < 0 ∧ b.value < 0 ∧ -1000000000 < a.value ∧ -1000000000 < b.value)

end Verif.Money
