import Verif.Model.ReportAggregator
import Verif.Model.QuotaOperationAggregator
/-
Model of `/repo/src/quota_aggregator_impl.{h,cc}`.  Locking is in `Model/Concurrency.lean`.

The deleter of this aggregator calls back into the cache (`cache_->Insert` in `OnCacheEntryDelete`),
which may call the deleter again.  `depth` bounds how deep these calls nest; a call that needs more
is `Fault.outOfFuel`.  A call that does so for every `depth` recurses for ever.

`AggConfig.flushMs` stands for `options.refresh_interval_ms` and `expirationMs` for
`options.expiration_interval_ms`; `kinds` is not used.
-/
namespace Verif.Quota
open Lru
variable {D : Type}

/-- `CacheElem`, quota_aggregator_impl.h:74-157. -/
structure Elem (D : Type) where
  /-- `quota_request_` -/
  request : AllocateQuotaRequest D
  /-- `quota_response_` -/
  response : AllocateQuotaResponse
  sig : Bytes
  lastRefresh : Int
  inFlight : Bool
  /-- `operation_aggregator_` -/
  agg : Option (QuotaAgg D)
  deriving DecidableEq

/-- `is_positive_response`, quota_aggregator_impl.h:128-130. -/
abbrev Elem.positive (v : Elem D) : Prop := v.response.allocateErrors = []

/-- `set_quota_response`, quota_aggregator_impl.h:98-106. -/
def Elem.setResponse (v : Elem D) (r : AllocateQuotaResponse) : Elem D :=
  { v with response := r, agg := if r.allocateErrors.length > 0 then none else v.agg }

/-- `CacheElem::Aggregate`, quota_aggregator_impl.cc:38-46. -/
def Elem.aggregate (E : Env) (v : Elem D) (r : AllocateQuotaRequest D) : Res (Elem D) := do
  let a ← match v.agg with
    | none => QuotaAgg.new E.dbg r.op
    | some a => a.mergeOperation E.dbg r.op
  .ok { v with agg := some a }

/-- `CacheElem::ReturnAllocateQuotaRequestAndClear`, quota_aggregator_impl.cc:48-67: the request and the element. -/
def Elem.returnRequest (cfg : AggConfig) (v : Elem D) : AllocateQuotaRequest D × Elem D :=
  match v.agg with
  | some a => (⟨cfg.serviceName, some (a.toProto cfg.U), cfg.serviceConfigId, []⟩, { v with agg := none })
  | none => (v.request, v)

/-- `refresh_interval_in_cycle_` and `expiration_interval_in_cycle_`, quota_aggregator_impl.cc:83-87. -/
def refreshInterval (cfg : AggConfig) : Int := Int.tdiv (cfg.flushMs * 1000000) 1000
def expirationInterval (cfg : AggConfig) : Int := Int.tdiv (cfg.expirationMs * 1000000) 1000

/-- `ShouldRefresh`, quota_aggregator_impl.cc:216-219, at clock reading `t`. -/
def shouldRefresh (E : Env) (cfg : AggConfig) (v : Elem D) (t : Nat) : Bool :=
  decide (E.clk t - v.lastRefresh ≥ refreshInterval cfg)
/-- `ShouldDrop`, quota_aggregator_impl.cc:222-225, at clock reading `t`. -/
def shouldDrop (E : Env) (cfg : AggConfig) (v : Elem D) (t : Nat) : Bool :=
  decide (E.clk t - v.lastRefresh ≥ expirationInterval cfg)

/-- Reading through a `CacheElem*` (quota_aggregator_impl.cc:263-270): the object is alive while the cache owns it. -/
def deref {σ β : Type} (p : Nat) (w : World σ β) : Res β :=
  match (w.cache.nodes ++ w.cache.defer).find? (fun e => e.ptr == p) with
  | some e => .ok e.val
  | none => .error .useAfterFree

/-- `OnCacheEntryDelete`, quota_aggregator_impl.cc:261-275; `inAll` is `in_flush_all_`. -/
def onDelete (E : Env) (cfg : AggConfig) (inAll : Bool) :
    Nat → Deleter (Slot (AllocateQuotaRequest D)) (Elem D)
  | 0 => fun _ _ => .error .outOfFuel
  | depth + 1 => fun e w =>
    if inAll then .ok w
    else if shouldDrop E cfg e.val w.tick then .ok w.ticked
    else do
      let w ← insert E (onDelete E cfg inAll depth) e.val.sig e.ptr e.val 1 w.ticked
      let v ← deref e.ptr w
      if v.inFlight = false ∧ v.agg.isSome = true then
        let (request, v') := { v with inFlight := true, lastRefresh := E.clk w.tick }.returnRequest cfg
        .ok { setVal e.ptr v' w.ticked with ext := addRemovedItem noMerge request w.ext }
      else .ok w

/-- The state of a quota aggregator, quota_aggregator_impl.h:187-206. -/
structure State (D : Type) where
  base : AggState (Elem D)
  /-- `in_flush_all_` -/
  inFlushAll : Bool
  deriving DecidableEq

/-- Constructor, quota_aggregator_impl.cc:69-88. -/
def new (E : Env) (cfg : AggConfig) (depth : Nat) : Res (State D) :=
  if cfg.numEntries > 0 then do
    let w ← setTimeout E (onDelete E cfg false depth) (cfg.timeout cfg.flushMs) false
      { cache := Cache.new cfg.numEntries, tick := 0, ext := none }
    .ok ⟨{ cache := some w.cache, tick := w.tick, callback := false }, false⟩
  else .ok ⟨{ cache := none, tick := 0, callback := false }, false⟩

/-- What `Quota` returns (quota_aggregator_impl.cc:107-109): a status and, if it wrote one, the response. -/
structure Out where
  status : Status
  response : Option AllocateQuotaResponse
  deriving DecidableEq

/-- Part of `Quota`, quota_aggregator_impl.cc:154-173, from clock reading `t`: the element, the next clock reading and the
request triggered. -/
def refresh (E : Env) (cfg : AggConfig) (v : Elem D) (t : Nat) :
    Elem D × Nat × List (AllocateQuotaRequest D) :=
  if v.inFlight = false then
    if shouldRefresh E cfg v t then
      let (q, v') := { v with inFlight := true, lastRefresh := E.clk (t + 1) }.returnRequest cfg
      let q := if v.positive then q
        else { q with allocateOperation := some { q.op with quotaMode := quotaModeNormal } }
      (v', t + 2, [q])
    else (v, t + 1, [])
  else (v, t, [])

/-- `Quota`, quota_aggregator_impl.cc:107-182. -/
def quota (E : Env) (cfg : AggConfig) (depth : Nat) (r : AllocateQuotaRequest D) (s : State D) :
    Res (State D × Out × List (AllocateQuotaRequest D)) :=
  if r.serviceName ≠ cfg.serviceName then .ok (s, ⟨.invalidArgument, none⟩, [])
  else if r.allocateOperation = none then .ok (s, ⟨.invalidArgument, none⟩, [])
  else do
    let (b, out, fl) ← withBuffer s.base ⟨.notFound, none⟩ fun w => do
      let del := onDelete E cfg s.inFlushAll depth
      let sig := allocateQuotaSig cfg.H r
      let (w, found) ← lookup E del true sig w
      match found with
      | none => do
        let v : Elem D := ⟨r, .default, sig, E.clk w.tick, true, none⟩
        let p := w.cache.nextId
        let w ← insert E del sig p v 1 w.ticked
        let w := { w with ext := addRemovedItem noMerge r w.ext }
        let v ← deref p w
        .ok (w, ⟨.ok, some v.response⟩)
      | some e => do
        let (v, t, qs) := refresh E cfg e.val w.tick
        let w := { w with ext := qs.foldl (fun x q => addRemovedItem noMerge q x) w.ext }
        let v ← if v.positive then v.aggregate E r else .ok v
        let w ← release E del true sig e.ptr { setVal e.ptr v w with tick := t }
        .ok (w, ⟨.ok, some v.response⟩)
    .ok (⟨b, s.inFlushAll⟩, out, fl)

/-- `CacheResponse`, quota_aggregator_impl.cc:185-206. -/
def cacheResponse (E : Env) (cfg : AggConfig) (depth : Nat) (r : AllocateQuotaRequest D)
    (resp : AllocateQuotaResponse) (s : State D) : Res (State D × Out × List (AllocateQuotaRequest D)) := do
  let (b, out, fl) ← withBuffer s.base ⟨.ok, none⟩ fun w => do
    let del := onDelete E cfg s.inFlushAll depth
    let sig := allocateQuotaSig cfg.H r
    let (w, found) ← lookup E del true sig w
    match found with
    | none => .ok (w, ⟨.ok, none⟩)
    | some e => do
      let v := { e.val with inFlight := false }.setResponse resp
      let w ← release E del true sig e.ptr (setVal e.ptr v w)
      .ok (w, ⟨.ok, none⟩)
  .ok (⟨b, s.inFlushAll⟩, out, fl)

/-- `GetNextFlushInterval`, quota_aggregator_impl.cc:210-213. -/
def nextFlushInterval (cfg : AggConfig) (s : State D) : Int :=
  if s.base.cache.isNone then -1 else cfg.flushMs

/-- `Flush`, quota_aggregator_impl.cc:229-240. -/
def flush (E : Env) (cfg : AggConfig) (depth : Nat) (s : State D) :
    Res (State D × Out × List (AllocateQuotaRequest D)) := do
  let (b, out, fl) ← withBuffer s.base ⟨.ok, none⟩ fun w => do
    let w ← removeExpired E (onDelete E cfg s.inFlushAll depth) w
    .ok (w, ⟨.ok, none⟩)
  .ok (⟨b, s.inFlushAll⟩, out, fl)

/-- `FlushAll`, quota_aggregator_impl.cc:244-257. -/
def flushAll (E : Env) (cfg : AggConfig) (depth : Nat) (s : State D) :
    Res (State D × Out × List (AllocateQuotaRequest D)) := do
  let (b, out, fl) ← withBuffer s.base ⟨.ok, none⟩ fun w => do
    let w ← removeAll E (onDelete E cfg true depth) w
    .ok (w, ⟨.ok, none⟩)
  .ok (⟨b, true⟩, out, fl)

end Verif.Quota
