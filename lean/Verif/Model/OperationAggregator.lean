import Verif.Model.Signature
import Verif.Model.Distribution
/-
Model of `/repo/src/operation_aggregator.cc`.
-/
namespace Verif

/-! ### `std::unordered_map<string, α>`: an association list in insertion order with distinct keys -/

/-- `FindWithDefault` (operation_aggregator.cc:180) / `FindOrNull` (stl_util.h:262-281). -/
def umFind {α : Type} (k : Bytes) : List (Bytes × α) → Option α
  | [] => none
  | (k', v) :: t => if k' = k then some v else umFind k t

/-- `m[k] = v` (operation_aggregator.cc:174-176, 187) / assignment through a pointer obtained by `find` / `emplace` of a missing key. -/
def umSet {α : Type} (k : Bytes) (v : α) : List (Bytes × α) → List (Bytes × α)
  | [] => [(k, v)]
  | (k', v') :: t => if k' = k then (k, v) :: t else (k', v') :: umSet k v t

/-- Iteration order of `std::unordered_map` (operation_aggregator.cc:153-160): some permutation of the contents, a function of the
insertion history that does not look at the mapped values. -/
structure UMapOrder where
  ord : (α : Type) → List (Bytes × α) → List (Bytes × α)
  perm : ∀ α l, (ord α l).Perm l
  natural : ∀ (α β : Type) (f : α → β) l, ord β (l.map (Prod.map id f)) = (ord α l).map (Prod.map id f)

/-- Iteration in insertion order (an instance, used in examples). -/
def UMapOrder.insertion : UMapOrder := ⟨fun _ l => l, fun _ _ => .refl _, fun _ _ _ _ => rfl⟩

/-! ### Merging -/

/-- `google::api::MetricDescriptor::MetricKind`, used in operation_aggregator.cc:105-112. -/
inductive MetricKind where
  | unspecified | gauge | delta | cumulative
  deriving DecidableEq, Repr

/-- The metric kind map (`MetricKindMap`, aggregation_options.h:29-31), possibly a null pointer. -/
abbrev MetricKinds := Option (List (Bytes × MetricKind))

/-- src/operation_aggregator.cc:177-182 (`FindWithDefault`). -/
def metricKindOf (kinds : MetricKinds) (name : Bytes) : MetricKind :=
  match kinds with
  | none => .delta
  | some m => (umFind name m).getD .delta

/-- `TimestampBefore`, src/operation_aggregator.cc:42-45. -/
def timestampBefore (a b : Timestamp) : Bool :=
  a.seconds < b.seconds || (a.seconds == b.seconds && a.nanos < b.nanos)

/-- An accessor on an unset message field returns the default message (operation_aggregator.cc:53, 74, 81). -/
def tsGet (t : Option Timestamp) : Timestamp := t.getD ⟨0, 0⟩

/-- src/operation_aggregator.cc:73-78 and 128-133. -/
def mergeStart («from» to : Option Timestamp) : Option Timestamp :=
  match «from» with
  | none => to
  | some f =>
    match to with
    | none => some f
    | some t => if timestampBefore f t then some f else some t

/-- src/operation_aggregator.cc:80-85 and 135-140. -/
def mergeEnd («from» to : Option Timestamp) : Option Timestamp :=
  match «from» with
  | none => to
  | some f =>
    match to with
    | none => some f
    | some t => if timestampBefore t f then some f else some t

/-- `value_case()`, operation_aggregator.cc:67, 87. -/
def valueCase {D : Type} : Value D → Nat
  | .unset => 0
  | .bool _ => 1
  | .int64 _ => 2
  | .double _ => 3
  | .string _ => 4
  | .distribution _ => 5

section
variable {D : Type} [DoubleOps D]

/-- The switch of `MergeDeltaMetricValue`, src/operation_aggregator.cc:87-101; called with equal
`value_case`s.  The result of `DistributionHelper::Merge` is discarded. -/
def mergeDeltaValue («from» to : Value D) : Res (Value D) :=
  match to, «from» with
  | .int64 t, .int64 f => do
    let s ← addI64 t f
    .ok (.int64 s)
  | .double t, .double f => .ok (.double (DoubleOps.add t f))
  | .distribution t, .distribution f => do
    let r ← Dist.merge f t
    .ok (.distribution r.2)
  | t, _ => .ok t

/-- `MergeDeltaMetricValue`, src/operation_aggregator.cc:66-102. -/
def mergeDelta («from» to : MetricValue D) : Res (MetricValue D) :=
  if valueCase to.value ≠ valueCase «from».value then .ok to
  else do
    let v ← mergeDeltaValue «from».value to.value
    .ok { to with
      startTime := mergeStart «from».startTime to.startTime
      endTime := mergeEnd «from».endTime to.endTime
      value := v }

/-- `MergeCumulativeOrGaugeMetricValue`, src/operation_aggregator.cc:51-56. -/
def mergeGauge («from» to : MetricValue D) : MetricValue D :=
  if timestampBefore (tsGet «from».endTime) (tsGet to.endTime) then to else «from»

/-- `MergeMetricValue`, src/operation_aggregator.cc:105-112. -/
def mergeMetricValue (kind : MetricKind) («from» to : MetricValue D) : Res (MetricValue D) :=
  if kind = .delta then mergeDelta «from» to else .ok (mergeGauge «from» to)

/-! ### The aggregator -/

/-- `class OperationAggregator` (operation_aggregator.h:63-77): `operation_`, `metric_value_sets_`.
The metric kinds are a parameter of the functions. -/
structure OpAgg (D : Type) where
  op : Operation D
  sets : List (Bytes × List (Bytes × MetricValue D))
  deriving DecidableEq

/-- Inner loop of `MergeMetricValueSets`, src/operation_aggregator.cc:183-191. -/
def mergeValues (H : Bytes → Bytes) (kind : MetricKind) :
    List (MetricValue D) → List (Bytes × MetricValue D) → Res (List (Bytes × MetricValue D))
  | [], m => .ok m
  | v :: vs, m =>
    let sig := metricValueSig H v
    match umFind sig m with
    | none => mergeValues H kind vs (umSet sig v m)
    | some existing => do
      let w ← mergeMetricValue kind v existing
      mergeValues H kind vs (umSet sig w m)

/-- `MergeMetricValueSets`, src/operation_aggregator.cc:171-193. -/
def mergeSets (H : Bytes → Bytes) (kinds : MetricKinds) :
    List (MetricValueSet D) → List (Bytes × List (Bytes × MetricValue D)) →
      Res (List (Bytes × List (Bytes × MetricValue D)))
  | [], m => .ok m
  | s :: ss, m => do
    let vals ← mergeValues H (metricKindOf kinds s.name) s.values ((umFind s.name m).getD [])
    mergeSets H kinds ss (umSet s.name vals m)

/-- Constructor, src/operation_aggregator.cc:116-125. -/
def OpAgg.new (H : Bytes → Bytes) (kinds : MetricKinds) (o : Operation D) : Res (OpAgg D) := do
  let sets ← mergeSets H kinds o.metricValueSets []
  .ok ⟨{ o with metricValueSets := [] }, sets⟩

/-- `MergeOperation`, src/operation_aggregator.cc:127-144 (with `MergeLogEntries`, 165-169). -/
def OpAgg.mergeOperation (H : Bytes → Bytes) (kinds : MetricKinds) (a : OpAgg D) (o : Operation D) :
    Res (OpAgg D) := do
  let sets ← mergeSets H kinds o.metricValueSets a.sets
  .ok ⟨{ a.op with
          startTime := mergeStart o.startTime a.op.startTime
          endTime := mergeEnd o.endTime a.op.endTime
          logEntries := a.op.logEntries ++ o.logEntries }, sets⟩

/-- `kMaxLogEntries`, src/operation_aggregator.cc:39. -/
def kMaxLogEntries : Nat := 100

/-- `TooBig`, src/operation_aggregator.cc:146-148. -/
def OpAgg.tooBig (a : OpAgg D) : Bool := decide (kMaxLogEntries ≤ a.op.logEntries.length)

/-- `ToOperationProto`, src/operation_aggregator.cc:150-163. -/
def OpAgg.toProto (U : UMapOrder) (a : OpAgg D) : Operation D :=
  { a.op with metricValueSets := a.op.metricValueSets ++
      (U.ord _ a.sets).map fun s => ⟨s.1, (U.ord _ s.2).map Prod.snd⟩ }

/-- A first operation (operation_aggregator.cc:116-125) and any number of later ones
(operation_aggregator.cc:127-144). -/
def OpAgg.aggregate (H : Bytes → Bytes) (kinds : MetricKinds) (o : Operation D) (os : List (Operation D)) :
    Res (OpAgg D) := do
  let a ← OpAgg.new H kinds o
  os.foldlM (OpAgg.mergeOperation H kinds) a

end
end Verif
