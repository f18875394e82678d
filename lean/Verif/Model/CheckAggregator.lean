import Verif.Model.ReportAggregator
/-
Model of `/repo/src/check_aggregator_impl.{h,cc}`.  Locking is in `Model/Concurrency.lean`.
Times are mathematical integers: the subtraction in `ShouldFlush` cannot overflow for clock readings
between 0 and 2^63 microseconds.
-/
namespace Verif.Check
open Lru
variable {D : Type} [DoubleOps D]

/-- `CheckAggregationOptions(cache_entries, flush_interval, expiration)`,
include/aggregation_options.h:76-81, giving `(num_entries, flush_interval_ms, expiration_ms)`. -/
def options (entries flushMs expirationMs : Int) : Res (Int × Int × Int) := do
  let m ← if flushMs + 1 > int32Max then .error .signedOverflow else .ok (flushMs + 1)
  .ok (entries, flushMs, max m expirationMs)

/-- `CacheElem`, check_aggregator_impl.h:126-199. -/
structure Elem (D : Type) where
  response : CheckResponse
  lastCheck : Int
  quotaScale : Int
  isFlushing : Bool
  /-- `operation_aggregator_` -/
  agg : Option (OpAgg D)
  deriving DecidableEq

/-- `CacheElem::Aggregate`, check_aggregator_impl.cc:34-42. -/
def Elem.aggregate (cfg : AggConfig) (v : Elem D) (o : Operation D) : Res (Elem D) := do
  let a ← match v.agg with
    | none => OpAgg.new cfg.H cfg.kinds o
    | some a => a.mergeOperation cfg.H cfg.kinds o
  .ok { v with agg := some a }

/-- `CacheElem::ReturnCheckRequestAndClear`, check_aggregator_impl.cc:44-55 (the element is deleted by the only
caller). -/
def Elem.returnRequest (cfg : AggConfig) (v : Elem D) : CheckRequest D :=
  ⟨cfg.serviceName, v.agg.map (fun a => a.toProto cfg.U), cfg.serviceConfigId, []⟩

/-- `OnCacheEntryDelete`, check_aggregator_impl.cc:226-236. -/
def onDelete (cfg : AggConfig) : Deleter (Slot (CheckRequest D)) (Elem D) := fun e w =>
  match e.val.agg with
  | none => .ok w
  | some _ => .ok { w with ext := addRemovedItem noMerge (e.val.returnRequest cfg) w.ext }

/-- `flush_interval_in_cycle_`, check_aggregator_impl.cc:66-67: `ms * 1000000 / 1000` with truncating division. -/
def interval (cfg : AggConfig) : Int := Int.tdiv (cfg.flushMs * 1000000) 1000

/-- Constructor, check_aggregator_impl.cc:57-75. -/
def new (E : Env) (cfg : AggConfig) : Res (AggState (Elem D)) :=
  if cfg.numEntries > 0 then do
    let w ← setTimeout E (onDelete cfg) (cfg.timeout cfg.expirationMs) true
      { cache := Cache.new cfg.numEntries, tick := 0, ext := none }
    .ok { cache := some w.cache, tick := w.tick, callback := false }
  else .ok { cache := none, tick := 0, callback := false }

/-- What `Check` returns (check_aggregator_impl.cc:90-91): a status and, if it wrote one, the response. -/
structure Out where
  status : Status
  response : Option CheckResponse
  deriving DecidableEq

/-- `ShouldFlush`, check_aggregator_impl.cc:166-175, at the clock reading `t`. -/
def shouldFlush (E : Env) (cfg : AggConfig) (v : Elem D) (t : Nat) : Bool :=
  decide (E.clk t - v.lastCheck ≥ interval cfg)

/-- Part of `Check`, check_aggregator_impl.cc:130-163, from the clock reading `t`: the updated element, the next clock
reading and the result. -/
def checkElem (E : Env) (cfg : AggConfig) (o : Operation D) (v : Elem D) (t : Nat) : Res (Elem D × Nat × Out) :=
  if v.response.checkErrors.length > 0 then
    if shouldFlush E cfg v t then
      .ok ({ v with lastCheck := E.clk (t + 1) }, t + 2, ⟨.notFound, none⟩)
    else .ok (v, t + 1, ⟨.ok, some v.response⟩)
  else do
    let v ← v.aggregate cfg o
    if shouldFlush E cfg v t then
      .ok ({ v with isFlushing := true, lastCheck := E.clk (t + 1) }, t + 2, ⟨.notFound, none⟩)
    else .ok (v, t + 1, ⟨.ok, some v.response⟩)

/-- `Check`, check_aggregator_impl.cc:90-164. -/
def check (E : Env) (cfg : AggConfig) (r : CheckRequest D) (s : AggState (Elem D)) :
    Res (AggState (Elem D) × Out × List (CheckRequest D)) :=
  if r.serviceName ≠ cfg.serviceName then .ok (s, ⟨.invalidArgument, none⟩, [])
  else match r.operation with
  | none => .ok (s, ⟨.invalidArgument, none⟩, [])
  | some o =>
    if o.importance ≠ importanceLow || s.cache.isNone then .ok (s, ⟨.notFound, none⟩, [])
    else withBuffer s ⟨.notFound, none⟩ fun w => do
      let sig := checkRequestSig cfg.H r
      let (w, found) ← lookup E (onDelete cfg) true sig w
      match found with
      | none => .ok (w, ⟨.notFound, none⟩)
      | some e => do
        let (v, t, out) ← checkElem E cfg o e.val w.tick
        let w ← release E (onDelete cfg) true sig e.ptr { setVal e.ptr v w with tick := t }
        .ok (w, out)

/-- `CacheResponse`, check_aggregator_impl.cc:177-203.  The address of a new element is the cache's next fresh
address. -/
def cacheResponse (E : Env) (cfg : AggConfig) (r : CheckRequest D) (resp : CheckResponse)
    (s : AggState (Elem D)) : Res (AggState (Elem D) × Out × List (CheckRequest D)) :=
  withBuffer s ⟨.ok, none⟩ fun w => do
    let sig := checkRequestSig cfg.H r
    let (w, found) ← lookup E (onDelete cfg) true sig w
    let now := E.clk w.tick
    let w := w.ticked
    match found with
    | some e => do
      let v := { e.val with lastCheck := now, response := resp, quotaScale := 0, isFlushing := false }
      let w ← release E (onDelete cfg) true sig e.ptr (setVal e.ptr v w)
      .ok (w, ⟨.ok, none⟩)
    | none => do
      let w ← insert E (onDelete cfg) sig w.cache.nextId ⟨resp, now, 0, false, none⟩ 1 w
      .ok (w, ⟨.ok, none⟩)

/-- `GetNextFlushInterval`, check_aggregator_impl.cc:207-210. -/
def nextFlushInterval (cfg : AggConfig) (s : AggState (Elem D)) : Int :=
  if s.cache.isNone then -1 else cfg.expirationMs

/-- `Flush`, check_aggregator_impl.cc:214-224. -/
def flush (E : Env) (cfg : AggConfig) (s : AggState (Elem D)) :
    Res (AggState (Elem D) × Out × List (CheckRequest D)) :=
  withBuffer s ⟨.ok, none⟩ fun w => do
    let w ← removeExpired E (onDelete cfg) w
    .ok (w, ⟨.ok, none⟩)

/-- `FlushAll`, check_aggregator_impl.cc:240-250. -/
def flushAll (E : Env) (cfg : AggConfig) (s : AggState (Elem D)) :
    Res (AggState (Elem D) × Out × List (CheckRequest D)) :=
  withBuffer s ⟨.ok, none⟩ fun w => do
    let w ← removeAll E (onDelete cfg) w
    .ok (w, ⟨.ok, none⟩)

end Verif.Check
