import Verif.Model.OperationAggregator
/-
Model of `/repo/src/quota_operation_aggregator.cc`.
-/
namespace Verif
variable {D : Type}

/-- `MergeDeltaMetricValue`, src/quota_operation_aggregator.cc:47-76. -/
def quotaMergeDelta («from» to : MetricValue D) : Res (MetricValue D) :=
  if valueCase to.value ≠ valueCase «from».value then .ok to
  else do
    let v ← match to.value, «from».value with
      | .int64 t, .int64 f => do
        let s ← addI64 t f
        .ok (Value.int64 s)
      | t, _ => .ok t
    .ok { to with
      startTime := mergeStart «from».startTime to.startTime
      endTime := mergeEnd «from».endTime to.endTime
      value := v }

/-- `class QuotaOperationAggregator`: `operation_`, `metric_value_sets_` (quota_operation_aggregator.h:54-61). -/
structure QuotaAgg (D : Type) where
  op : QuotaOperation D
  sets : List (Bytes × MetricValue D)
  deriving DecidableEq

/-- `GOOGLE_DCHECK(metric_values_size() == 1)` and `metric_values(0)`,
src/quota_operation_aggregator.cc:88-96.  `dbg`: DCHECKs are compiled in. -/
def quotaFirstValue (dbg : Bool) (s : MetricValueSet D) : Res (MetricValue D) :=
  if dbg = true ∧ s.values.length ≠ 1 then .error .assertFail
  else match s.values with
    | [] => .error .outOfBounds
    | v :: _ => .ok v

/-- Loop of `MergeOperation`, src/quota_operation_aggregator.cc:86-98. -/
def quotaMergeSets (dbg : Bool) : List (MetricValueSet D) → List (Bytes × MetricValue D) →
    Res (List (Bytes × MetricValue D))
  | [], m => .ok m
  | s :: ss, m => do
    let v ← quotaFirstValue dbg s
    match umFind s.name m with
    | none => quotaMergeSets dbg ss (umSet s.name v m)
    | some old => do
      let w ← quotaMergeDelta v old
      quotaMergeSets dbg ss (umSet s.name w m)

/-- `MergeOperation`, quota_operation_aggregator.cc:86-98. -/
def QuotaAgg.mergeOperation (dbg : Bool) (a : QuotaAgg D) (o : QuotaOperation D) : Res (QuotaAgg D) := do
  let sets ← quotaMergeSets dbg o.quotaMetrics a.sets
  .ok { a with sets := sets }

/-- Constructor, src/quota_operation_aggregator.cc:80-84. -/
def QuotaAgg.new (dbg : Bool) (o : QuotaOperation D) : Res (QuotaAgg D) :=
  QuotaAgg.mergeOperation dbg ⟨o, []⟩ o

/-- `ToOperationProto`, src/quota_operation_aggregator.cc:100-112. -/
def QuotaAgg.toProto (U : UMapOrder) (a : QuotaAgg D) : QuotaOperation D :=
  { a.op with quotaMetrics := (U.ord _ a.sets).map fun s => ⟨s.1, [s.2]⟩ }

/-- A first operation (quota_operation_aggregator.cc:80-84) and any number of later ones
(quota_operation_aggregator.cc:86-98). -/
def QuotaAgg.aggregate (dbg : Bool) (o : QuotaOperation D) (os : List (QuotaOperation D)) : Res (QuotaAgg D) := do
  let a ← QuotaAgg.new dbg o
  os.foldlM (QuotaAgg.mergeOperation dbg) a

end Verif
