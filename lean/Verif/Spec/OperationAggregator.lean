import Verif.Model.OperationAggregator
/-
What aggregating a list of operations should give, in terms of the operations themselves.
-/
namespace Verif
variable {D : Type}

/-- All values reported under metric `name` with label signature `sig`, in order. -/
def reported (H : Bytes → Bytes) (ops : List (Operation D)) (name sig : Bytes) : List (MetricValue D) :=
  ops.flatMap fun o => (o.metricValueSets.filter fun s => decide (s.name = name)).flatMap fun s =>
    s.values.filter fun v => decide (metricValueSig H v = sig)

/-- All metric names mentioned, in order, with repetitions. -/
def namesOf (ops : List (Operation D)) : List Bytes :=
  ops.flatMap fun o => o.metricValueSets.map (·.name)

/-- `t` is the earliest of the times present in `ts`. -/
def IsEarliest (ts : List (Option Timestamp)) : Option Timestamp → Prop
  | none => ∀ t ∈ ts, t = none
  | some t => some t ∈ ts ∧ ∀ u, some u ∈ ts →
      t.seconds < u.seconds ∨ (t.seconds = u.seconds ∧ t.nanos ≤ u.nanos)

/-- `t` is the latest of the times present in `ts`. -/
def IsLatest (ts : List (Option Timestamp)) : Option Timestamp → Prop
  | none => ∀ t ∈ ts, t = none
  | some t => some t ∈ ts ∧ ∀ u, some u ∈ ts →
      u.seconds < t.seconds ∨ (u.seconds = t.seconds ∧ u.nanos ≤ t.nanos)

/-- The values a message lists under a metric name (all sets of that name together). -/
def listed (o : Operation D) (name : Bytes) : List (MetricValue D) :=
  (o.metricValueSets.filter fun s => decide (s.name = name)).flatMap (·.values)

/-- A metric is a delta unless the kind map, if there is one, lists it as something else. -/
def IsDelta (kinds : MetricKinds) (name : Bytes) : Prop :=
  ∀ m, kinds = some m → ∀ k, m.lookup name = some k → k = .delta

/-- `a` is earlier than `b`, an absent time counting as the epoch. -/
def Earlier (a b : Option Timestamp) : Prop :=
  let (s, n) := match a with | none => ((0, 0) : Int × Int) | some t => (t.seconds, t.nanos)
  let (s', n') := match b with | none => ((0, 0) : Int × Int) | some t => (t.seconds, t.nanos)
  s < s' ∨ (s = s' ∧ n < n')

end Verif
