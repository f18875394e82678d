import Verif.Model.Basic
/-
The protobuf messages of google.api.servicecontrol.v1, as records of the fields the library reads
or writes.  The `.proto` files are not part of /repo; the lines cited are where the fields are
used.  All other fields of a message are the single opaque field `rest`.
`D` is the type of `double`.  A proto3 enum is open, hence an `Int`.
A protobuf `map<string,string>` is an association list in iteration order, see `IsMap`.
-/
namespace Verif

/-- `google.protobuf.Timestamp`, operation_aggregator.cc:42-45. -/
structure Timestamp where
  seconds : Int
  nanos : Int
  deriving DecidableEq, Repr

/-- A protobuf map: association list with distinct keys, in iteration order (signature.cc:36-38). -/
abbrev Labels := List (Bytes × Bytes)

/-- Well-formedness of a map: keys are distinct (signature.cc:36-38). -/
def IsMap {α : Type} (l : List (Bytes × α)) : Prop := (l.map Prod.fst).Nodup

instance {α : Type} (l : List (Bytes × α)) : Decidable (IsMap l) := by unfold IsMap; infer_instance

/-- `Distribution.bucket_option` (oneof), distribution_helper.cc:78-131. -/
inductive BucketOption (D : Type) where
  | unset
  | linear (n : Int) (width offset : D)
  | exponential (n : Int) (growth scale : D)
  | explicit (bounds : List D)
  deriving DecidableEq

/-- `Distribution`, distribution_helper.cc:42-66. -/
structure Distribution (D : Type) where
  count : Int
  mean : D
  minimum : D
  maximum : D
  ssd : D
  bucketCounts : List Int
  buckets : BucketOption D
  deriving DecidableEq

/-- `MetricValue.value` (oneof), operation_aggregator.cc:87-101. -/
inductive Value (D : Type) where
  | unset
  | bool (b : Bool)
  | int64 (i : Int)
  | double (d : D)
  | string (s : Bytes)
  | distribution (d : Distribution D)
  deriving DecidableEq

/-- `MetricValue`, operation_aggregator.cc:66-102. -/
structure MetricValue (D : Type) where
  labels : Labels
  startTime : Option Timestamp
  endTime : Option Timestamp
  value : Value D
  deriving DecidableEq

/-- `MetricValueSet`, operation_aggregator.cc:171-193. -/
structure MetricValueSet (D : Type) where
  name : Bytes
  values : List (MetricValue D)
  deriving DecidableEq

/-- `Operation`, operation_aggregator.cc:127-163, signature.cc:56-65.  A log entry is opaque. -/
structure Operation (D : Type) where
  operationId : Bytes
  operationName : Bytes
  consumerId : Bytes
  startTime : Option Timestamp
  endTime : Option Timestamp
  labels : Labels
  metricValueSets : List (MetricValueSet D)
  logEntries : List Bytes
  importance : Int
  rest : Bytes
  deriving DecidableEq

/-- `Operation::LOW`, check_aggregator_impl.cc:100. -/
def importanceLow : Int := 0

/-- `CheckRequest`, check_aggregator_impl.cc:90-104. -/
structure CheckRequest (D : Type) where
  serviceName : Bytes
  operation : Option (Operation D)
  serviceConfigId : Bytes
  rest : Bytes
  deriving DecidableEq

/-- `CheckResponse`, check_aggregator_impl.cc:130. -/
structure CheckResponse where
  checkErrors : List Bytes
  rest : Bytes
  deriving DecidableEq

/-- `ReportRequest`, report_aggregator_impl.cc:82-136. -/
structure ReportRequest (D : Type) where
  serviceName : Bytes
  operations : List (Operation D)
  serviceConfigId : Bytes
  deriving DecidableEq

/-- `ReportResponse` (opaque to the library, service_control_client_impl.cc:331). -/
structure ReportResponse where
  rest : Bytes
  deriving DecidableEq

/-- `QuotaOperation`, quota_operation_aggregator.cc:80-112, signature.cc:109-129. -/
structure QuotaOperation (D : Type) where
  operationId : Bytes
  methodName : Bytes
  consumerId : Bytes
  labels : Labels
  quotaMetrics : List (MetricValueSet D)
  quotaMode : Int
  rest : Bytes
  deriving DecidableEq

/-- `QuotaOperation::NORMAL`, `QuotaOperation::BEST_EFFORT`, quota_aggregator_impl.cc:164-168. -/
def quotaModeNormal : Int := 1
def quotaModeBestEffort : Int := 2

/-- `AllocateQuotaRequest`, quota_aggregator_impl.cc:107-124. -/
structure AllocateQuotaRequest (D : Type) where
  serviceName : Bytes
  allocateOperation : Option (QuotaOperation D)
  serviceConfigId : Bytes
  rest : Bytes
  deriving DecidableEq

/-- `AllocateQuotaResponse`, quota_aggregator_impl.h:128-130. -/
structure AllocateQuotaResponse where
  allocateErrors : List Bytes
  rest : Bytes
  deriving DecidableEq

/-- The default instances returned by accessors of unset sub-messages (signature.cc:77, 112), and the
`dummy_response` of service_control_client_impl.cc:147, 280. -/
def Operation.default {D : Type} : Operation D := ⟨[], [], [], none, none, [], [], [], 0, []⟩
def QuotaOperation.default {D : Type} : QuotaOperation D := ⟨[], [], [], [], [], 0, []⟩
def AllocateQuotaResponse.default : AllocateQuotaResponse := ⟨[], []⟩
def CheckResponse.default : CheckResponse := ⟨[], []⟩

/-- `request.operation()`, signature.cc:77. -/
def CheckRequest.op {D : Type} (r : CheckRequest D) : Operation D := r.operation.getD .default
/-- `request.allocate_operation()`, signature.cc:112. -/
def AllocateQuotaRequest.op {D : Type} (r : AllocateQuotaRequest D) : QuotaOperation D :=
  r.allocateOperation.getD .default

end Verif
