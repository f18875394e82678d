import Verif.Lemmas.Signature
import Mathlib.Data.List.Forall2
/-
What the signatures are documented to depend on (src/signature.h), written without reference to
hashing or ordering: maps are compared as maps, i.e. up to permutation of their entries.
-/
namespace Verif
variable {D : Type}

/-- Same map. -/
def SameLabels (l l' : Labels) : Prop := IsMap l ∧ IsMap l' ∧ l.Perm l'

/-- Same metric names, and metric by metric the same label maps value by value; the order in
which the metrics are listed is irrelevant. -/
def SameMetrics (s s' : List (MetricValueSet D)) : Prop :=
  (s.map (·.name)).Nodup ∧ ∃ t, s.Perm t ∧
    List.Forall₂ (fun a b => a.name = b.name ∧
      List.Forall₂ (fun v w : MetricValue D => SameLabels v.labels w.labels) a.values b.values) t s'

/-- The identity of a report operation. -/
def SameReportIdentity (a b : Operation D) : Prop :=
  a.consumerId = b.consumerId ∧ a.operationName = b.operationName ∧ SameLabels a.labels b.labels

/-- The identity of a check request. -/
def SameCheckIdentity (a b : Operation D) : Prop :=
  a.operationName = b.operationName ∧ a.consumerId = b.consumerId ∧ SameLabels a.labels b.labels ∧
  SameMetrics a.metricValueSets b.metricValueSets

/-- The identity of a quota operation. -/
def SameQuotaIdentity (a b : QuotaOperation D) : Prop :=
  a.methodName = b.methodName ∧ a.consumerId = b.consumerId ∧
  ∀ n, n ∈ a.quotaMetrics.map (·.name) ↔ n ∈ b.quotaMetrics.map (·.name)

/-- Strings without NUL bytes and proper maps, for report operations. -/
def Operation.Clean (a : Operation D) : Prop :=
  NulFree a.consumerId ∧ NulFree a.operationName ∧ IsMap a.labels ∧ LabelsNulFree a.labels

/-- The same for everything a check signature covers. -/
def Operation.CleanMetrics (a : Operation D) : Prop :=
  a.Clean ∧ (a.metricValueSets.map (·.name)).Nodup ∧
  ∀ s ∈ a.metricValueSets, NulFree s.name ∧ ∀ v ∈ s.values, IsMap v.labels ∧ LabelsNulFree v.labels

/-- The same for quota operations. -/
def QuotaOperation.Clean (a : QuotaOperation D) : Prop :=
  NulFree a.methodName ∧ NulFree a.consumerId ∧ ∀ s ∈ a.quotaMetrics, NulFree s.name

end Verif
