import Verif.Model.RemovedItems
/-
Model of `/repo/src/report_aggregator_impl.cc`.  Locking is in `Model/Concurrency.lean`: here a
method runs from acquiring the cache lock to its return without interference.
-/
namespace Verif

/-- The constructor arguments of an aggregator (report_aggregator_impl.cc:51-54, check_aggregator_impl.cc:57-60,
quota_aggregator_impl.cc:69-71) and what it takes from its environment. -/
structure AggConfig where
  serviceName : Bytes
  serviceConfigId : Bytes
  /-- `options.num_entries`, `options.flush_interval_ms`, `options.expiration_ms` -/
  numEntries : Int
  flushMs : Int
  expirationMs : Int
  kinds : MetricKinds
  /-- MD5 -/
  H : Bytes → Bytes
  /-- iteration order of the hash tables of `OperationAggregator` -/
  U : UMapOrder
  /-- `ms / 1000.0` seconds converted to cycles by `SetTimeout`
  (utils/simple_lru_cache_inl.h:594-629), for `ms ≥ 0` -/
  cyc : Nat → Nat

/-- The argument of `SetTimeout` for `ms / 1000.0` seconds; negative means no limit. -/
def AggConfig.timeout (cfg : AggConfig) (ms : Int) : Option Int := 
  if ms < 0 then none else some (Int.ofNat (cfg.cyc ms.toNat))

namespace Report
open Lru
variable {D : Type} [DoubleOps D]

/-- `kMaxOperationsToSend`, report_aggregator_impl.cc:37. -/
def kMaxOperationsToSend : Nat := 10

/-- `HasHighImportantOperation`, report_aggregator_impl.cc:40-47. -/
def hasHighImportant (r : ReportRequest D) : Bool := r.operations.any (fun o => o.importance != importanceLow)

/-- `MergeItem`, report_aggregator_impl.cc:138-147.  `MergeFrom` appends the operations and overwrites a string field
that is not empty in the new item. -/
def mergeItem (new old : ReportRequest D) : Option (ReportRequest D) :=
  if old.serviceName ≠ new.serviceName ∨
      old.operations.length + new.operations.length > kMaxOperationsToSend then none
  else some
    { serviceName := if new.serviceName = [] then old.serviceName else new.serviceName
      operations := old.operations ++ new.operations
      serviceConfigId := if new.serviceConfigId = [] then old.serviceConfigId else new.serviceConfigId }

/-- `OnCacheEntryDelete`, report_aggregator_impl.cc:124-136. -/
def onDelete (cfg : AggConfig) : Deleter (Slot (ReportRequest D)) (OpAgg D) := fun e w =>
  let request : ReportRequest D := ⟨cfg.serviceName, [e.val.toProto cfg.U], cfg.serviceConfigId⟩
  .ok { w with ext := addRemovedItem mergeItem request w.ext }

/-- Constructor, report_aggregator_impl.cc:51-66. -/
def new (E : Env) (cfg : AggConfig) : Res (AggState (OpAgg D)) :=
  if cfg.numEntries > 0 then do
    let w ← setTimeout E (onDelete cfg) (cfg.timeout cfg.flushMs) false
      { cache := Cache.new cfg.numEntries, tick := 0, ext := none }
    .ok { cache := some w.cache, tick := w.tick, callback := false }
  else .ok { cache := none, tick := 0, callback := false }

/-- The body of the loop of `Report`, report_aggregator_impl.cc:100-120.  The address of a new aggregator is the
cache's next fresh address. -/
def reportOp (E : Env) (cfg : AggConfig) (w : World (Slot (ReportRequest D)) (OpAgg D)) (o : Operation D) :
    Res (World (Slot (ReportRequest D)) (OpAgg D)) := do
  let sig := reportOperationSig cfg.H o
  let (w, found) ← lookup E (onDelete cfg) true sig w
  match found with
  | some e => do
    let a ← e.val.mergeOperation cfg.H cfg.kinds o
    let w ← release E (onDelete cfg) true sig e.ptr (setVal e.ptr a w)
    if a.tooBig then remove E (onDelete cfg) sig w else .ok w
  | none => do
    let a ← OpAgg.new cfg.H cfg.kinds o
    insert E (onDelete cfg) sig w.cache.nextId a 1 w

/-- `Report`, report_aggregator_impl.cc:82-122. -/
def report (E : Env) (cfg : AggConfig) (r : ReportRequest D) (s : AggState (OpAgg D)) :
    Res (AggState (OpAgg D) × Status × List (ReportRequest D)) :=
  if r.serviceName ≠ cfg.serviceName then .ok (s, .invalidArgument, [])
  else if hasHighImportant r || s.cache.isNone then .ok (s, .notFound, [])
  else withBuffer s .notFound fun w => do
    let w ← r.operations.foldlM (reportOp E cfg) w
    .ok (w, .ok)

/-- `GetNextFlushInterval`, report_aggregator_impl.cc:151-154. -/
def nextFlushInterval (cfg : AggConfig) (s : AggState (OpAgg D)) : Int :=
  if s.cache.isNone then -1 else cfg.flushMs

/-- `Flush`, report_aggregator_impl.cc:158-167. -/
def flush (E : Env) (cfg : AggConfig) (s : AggState (OpAgg D)) :
    Res (AggState (OpAgg D) × Status × List (ReportRequest D)) :=
  withBuffer s .ok fun w => do
    let w ← removeExpired E (onDelete cfg) w
    .ok (w, .ok)

/-- `FlushAll`, report_aggregator_impl.cc:171-180. -/
def flushAll (E : Env) (cfg : AggConfig) (s : AggState (OpAgg D)) :
    Res (AggState (OpAgg D) × Status × List (ReportRequest D)) :=
  withBuffer s .ok fun w => do
    let w ← removeAll E (onDelete cfg) w
    .ok (w, .ok)

end Report
end Verif
