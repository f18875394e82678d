import Verif.Model.CheckAggregator
import Verif.Model.QuotaAggregator
import Verif.Model.ReportAggregator
/-
Model of `/repo/src/service_control_client_impl.cc`: the client on top of the three aggregators.

A transport is called with a request and a completion callback.  It either completes the call in
place or keeps the callback and calls it later; `Setup.answer` says which calls are completed in
place, a later completion is an operation of its own (`Op.complete`).  The model runs one operation
of the client at a time; user callbacks are recorded and do not call the client back.

Simplified: `std::function` objects, status messages and logging are left out; a request copied to
the heap is kept as a value, its heap cell is an address in `Client.heap`; the response a transport
writes is part of the completion.  Each aggregator has its own clock: since it reads its own
subsequence of the one clock, this covers a shared clock.
-/
namespace Verif.Client
open Lru
variable {D : Type}

/-- A call of `Check`, `Quota` or `Report` (service_control_client.h:288-364), or the request given to a
transport (service_control_client.h:42-59). -/
inductive Call (D : Type) where
  | check (r : CheckRequest D)
  | quota (r : AllocateQuotaRequest D)
  | report (r : ReportRequest D)
  deriving DecidableEq

/-- The response object a caller gets back (`check_response`, service_control_client_impl.cc:192), if it was
written. -/
inductive Reply where
  | none
  | check (p : CheckResponse)
  | quota (p : AllocateQuotaResponse)
  deriving DecidableEq

/-- What a transport passes to the completion callback (`TransportDoneFunc`, service_control_client.h:37-38),
and what it wrote into the response. -/
structure Answer where
  status : Status
  check : CheckResponse
  quota : AllocateQuotaResponse
  deriving DecidableEq

/-- What can be observed of a client from the outside, in order: the calls of the functions given to it
(service_control_client.h:37-76, 262-263) and by its user. -/
inductive Ev (D : Type) where
  /-- the user makes the call number `i`; `transport`: the transport for it is not empty -/
  | called (i : Nat) (c : Call D) (transport : Bool)
  /-- a transport is called, for the `id`-th time, on behalf of call `by_` or by a flush callback -/
  | sent (id : Nat) (by_ : Option Nat) (c : Call D)
  /-- the transport completes that call -/
  | completed (id : Nat) (by_ : Option Nat) (c : Call D) (a : Answer)
  /-- the done callback of call number `i` is invoked; `via`: the transport call it waited for -/
  | done (i : Nat) (c : Call D) (status : Status) (reply : Reply) (via : Option Nat)
  /-- the periodic timer fires -/
  | fired
  /-- the client is destroyed -/
  | destroyed
  deriving DecidableEq

/-- `Statistics`, service_control_client.h:121-148; the counters behind it
(service_control_client_impl.h:135-146) are of type `atomic_int_fast64_t`, whose overflow is not modelled. -/
structure Stats where
  totalChecks : Nat
  checksByFlush : Nat
  checksInFlight : Nat
  totalQuotas : Nat
  quotasByFlush : Nat
  quotasInFlight : Nat
  totalReports : Nat
  reportsByFlush : Nat
  reportsInFlight : Nat
  reportOperations : Nat
  deriving DecidableEq

/-- The counters of a new client, service_control_client_impl.cc:57-68. -/
def Stats.zero : Stats := ⟨0, 0, 0, 0, 0, 0, 0, 0, 0, 0⟩

/-- A completion callback a transport holds (service_control_client_impl.cc:142, 166, 180, 208-209, 271-272,
342): the number of the transport call, the call of the user
it belongs to, the request sent, and the heap objects it captured. -/
structure Pend (D : Type) where
  id : Nat
  by_ : Option Nat
  req : Call D
  own : List Nat
  deriving DecidableEq

/-- `ServiceControlClientImpl`, service_control_client_impl.h:122-158, with what the outside world holds for it. -/
structure Client (D : Type) where
  check : AggState (Check.Elem D)
  quota : Quota.State D
  report : AggState (OpAgg D)
  stats : Stats
  pend : List (Pend D)
  /-- live objects allocated by the client with `new` -/
  heap : List Nat
  nextAddr : Nat
  /-- calls of transports so far -/
  sends : Nat
  /-- calls of `Check`, `Quota` and `Report` so far -/
  calls : Nat
  alive : Bool
  /-- the interval of the periodic timer, if there is one -/
  timer : Option Int
  trace : List (Ev D)
  deriving DecidableEq

/-- The options (`ServiceControlClientOptions`, service_control_client.h:79-118) and the environment of a client.  The aggregator configurations carry the service
name and the (clamped) aggregation options. -/
structure Setup where
  cfgC : AggConfig
  cfgQ : AggConfig
  cfgR : AggConfig
  envC : Env
  envQ : Env
  envR : Env
  /-- the deleter of the quota cache may nest to this depth and one more -/
  depth : Nat
  /-- `options.check_transport`, `quota_transport`, `report_transport` are not empty -/
  hasC : Bool
  hasQ : Bool
  hasR : Bool
  /-- `options.periodic_timer` is not empty -/
  hasTimer : Bool
  /-- which transport calls complete in place, and how -/
  answer : Nat → Option Answer

/-! ### Basic actions -/

/-- Something observable happens; stands for no line of the code. -/
def Client.log (s : Client D) (e : Ev D) : Client D := { s with trace := s.trace ++ [e] }

/-- `new`, service_control_client_impl.cc:138-139, 164, 178, 205, 267. -/
def Client.alloc (s : Client D) : Nat × Client D :=
  (s.nextAddr, { s with heap := s.heap ++ [s.nextAddr], nextAddr := s.nextAddr + 1 })

/-- An access to an object on the heap, as in service_control_client_impl.cc:149, 152, 212, 276, 282. -/
def Client.touch (ps : List Nat) (s : Client D) : Res Unit :=
  if ps.all (· ∈ s.heap) then .ok () else .error .useAfterFree

/-- `delete`, service_control_client_impl.cc:155-156, 167, 181, 217, 288. -/
def Client.free (s : Client D) (p : Nat) : Res (Client D) :=
  if p ∈ s.heap then .ok { s with heap := s.heap.erase p } else .error .useAfterFree

/-- Several of these. -/
def Client.freeAll (ps : List Nat) (s : Client D) : Res (Client D) := ps.foldlM Client.free s

/-- The call of a transport (service_control_client_impl.cc:141, 165, 179, 207, 270, 342): it now holds the
completion callback. -/
def Client.send (s : Client D) (by_ : Option Nat) (c : Call D) (own : List Nat) : Client D :=
  { s.log (.sent s.sends by_ c) with pend := s.pend ++ [⟨s.sends, by_, c, own⟩], sends := s.sends + 1 }

/-- The transport calls the completion callback `id`.  Calling it twice, or one that was never given
out, is outside the contract; the second call would use freed objects. -/
def Client.take (s : Client D) (id : Nat) (a : Answer) : Res (Pend D × Client D) :=
  match s.pend.find? (·.id == id) with
  | none => .error .useAfterFree
  | some p => .ok (p, { s.log (.completed id p.by_ p.req a) with pend := s.pend.filter (·.id != id) })

/-- The call of `on_check_done`, `on_quota_done` or `on_report_done`, service_control_client_impl.cc:197, 218,
223, 258, 290, 297, 336, 347. -/
def Client.done (s : Client D) (i : Nat) (c : Call D) (st : Status) (r : Reply) (via : Option Nat) : Client D :=
  s.log (.done i c st r via)

section
variable [DoubleOps D]

/-! ### Check and report flush callbacks -/

/-- The completion callbacks of `CheckFlushCallback` (service_control_client_impl.cc:166-172) and
`ReportFlushCallback` (service_control_client_impl.cc:180-186): delete the response. -/
def finishPlain (id : Nat) (a : Answer) (s : Client D) : Res (Client D) := do
  let (p, s) ← s.take id a
  s.freeAll p.own

/-- The transport is called with a completion callback that only deletes the response,
service_control_client_impl.cc:164-172 and 178-186. -/
def sendPlain (K : Setup) (c : Call D) (s : Client D) : Res (Client D) :=
  let (q, s) := s.alloc
  let id := s.sends
  let s := s.send none c [q]
  match K.answer id with
  | none => .ok s
  | some a => finishPlain id a s

/-- `CheckFlushCallback`, service_control_client_impl.cc:162-174. -/
def checkFlushCallback (K : Setup) (s : Client D) (r : CheckRequest D) : Res (Client D) :=
  if K.hasC = false then .error .badFunctionCall
  else do
    let s ← sendPlain K (.check r) s
    .ok { s with stats := { s.stats with checksByFlush := s.stats.checksByFlush + 1 } }

/-- `ReportFlushCallback`, service_control_client_impl.cc:176-189. -/
def reportFlushCallback (K : Setup) (s : Client D) (r : ReportRequest D) : Res (Client D) :=
  if K.hasR = false then .error .badFunctionCall
  else do
    let s ← sendPlain K (.report r) s
    .ok { s with stats := { s.stats with
      reportsByFlush := s.stats.reportsByFlush + 1
      reportOperations := s.stats.reportOperations + r.operations.length } }

/-! ### Quota flush callback -/

/-- The completion callback of `AllocateQuotaFlushCallback`,
service_control_client_impl.cc:142-157.  It uses `this`, so the client must not be destroyed.  `flushes` are the flush callbacks run by `CacheResponse`. -/
def finishQuotaFlush (K : Setup) (flushes : List (AllocateQuotaRequest D) → Client D → Res (Client D))
    (id : Nat) (a : Answer) (s : Client D) : Res (Client D) := do
  let (p, s) ← s.take id a
  if s.alive = false then .error .useAfterFree
  else match p.req with
  | .quota r => do
    s.touch p.own
    let (q, _, fl) ← Quota.cacheResponse K.envQ K.cfgQ (K.depth + 1) r (if a.status = .ok then a.quota else .default) s.quota
    let s ← flushes fl { s with quota := q }
    s.freeAll p.own
  | _ => .error .badCast

/-- Flush callbacks that would run while this thread holds `callback_mutex_`
(src/cache_removed_items_handler.h:132-137): the mutex is not recursive. -/
def flushesLocked (fl : List (AllocateQuotaRequest D)) (s : Client D) : Res (Client D) :=
  if fl.isEmpty then .ok s else .error .deadlock

/-- `AllocateQuotaFlushCallback`, service_control_client_impl.cc:135-160; it runs while `callback_mutex_` of the quota
aggregator is held. -/
def quotaFlushCallback (K : Setup) (s : Client D) (r : AllocateQuotaRequest D) : Res (Client D) :=
  if K.hasQ = false then .error .badFunctionCall
  else do
    let (p, s) := s.alloc
    let (q, s) := s.alloc
    let id := s.sends
    let s := s.send none (.quota r) [p, q]
    let s ← match K.answer id with
      | none => .ok s
      | some a => finishQuotaFlush K flushesLocked id a s
    .ok { s with stats := { s.stats with quotasByFlush := s.stats.quotasByFlush + 1 } }

/-! ### The calls -/

/-- The aggregator methods, with the flush callbacks they run before they return (`~StackBuffer`,
cache_removed_items_handler.h:87-91). -/
def Client.aggCheck (K : Setup) (s : Client D)
    (f : AggState (Check.Elem D) → Res (AggState (Check.Elem D) × Check.Out × List (CheckRequest D))) :
    Res (Client D × Check.Out) := do
  let (c, out, fl) ← f s.check
  let s ← fl.foldlM (checkFlushCallback K) { s with check := c }
  .ok (s, out)

/-- The same for the quota aggregator. -/
def Client.aggQuota (K : Setup) (s : Client D)
    (f : Quota.State D → Res (Quota.State D × Quota.Out × List (AllocateQuotaRequest D))) :
    Res (Client D × Quota.Out) := do
  let (c, out, fl) ← f s.quota
  let s ← fl.foldlM (quotaFlushCallback K) { s with quota := c }
  .ok (s, out)

/-- The same for the report aggregator. -/
def Client.aggReport (K : Setup) (s : Client D)
    (f : AggState (OpAgg D) → Res (AggState (OpAgg D) × Status × List (ReportRequest D))) :
    Res (Client D × Status) := do
  let (c, out, fl) ← f s.report
  let s ← fl.foldlM (reportFlushCallback K) { s with report := c }
  .ok (s, out)

/-- The completion callback of `Check`, service_control_client_impl.cc:208-219. -/
def finishCheck (K : Setup) (i : Nat) (r : CheckRequest D) (id : Nat) (a : Answer) (s : Client D) : Res (Client D) := do
  let (p, s) ← s.take id a
  let s ← if a.status = .ok then do
      s.touch p.own
      let (s, _) ← s.aggCheck K (Check.cacheResponse K.envC K.cfgC r a.check)
      .ok s
    else .ok s
  let s ← s.freeAll p.own
  .ok (s.done i (.check r) a.status (.check a.check) (some id))

/-- `Check` with a transport, service_control_client_impl.cc:191-224.  `t`: the transport is not empty. -/
def check (K : Setup) (r : CheckRequest D) (t : Bool) (s : Client D) : Res (Client D) :=
  let i := s.calls
  let s := { s.log (.called i (.check r) t) with calls := i + 1 }
  let s := { s with stats := { s.stats with totalChecks := s.stats.totalChecks + 1 } }
  if t = false then .ok (s.done i (.check r) .invalidArgument .none none)
  else do
    let (s, out) ← s.aggCheck K (Check.check K.envC K.cfgC r)
    if out.status = .notFound then do
      let (p, s) := s.alloc
      let id := s.sends
      let s := s.send (some i) (.check r) [p]
      let s ← match K.answer id with
        | none => .ok s
        | some a => finishCheck K i r id a s
      .ok { s with stats := { s.stats with checksInFlight := s.stats.checksInFlight + 1 } }
    else .ok (s.done i (.check r) out.status (match out.response with | none => .none | some p => .check p) none)

/-- The completion callback of `Quota`, service_control_client_impl.cc:271-291. -/
def finishQuota (K : Setup) (i : Nat) (r : AllocateQuotaRequest D) (id : Nat) (a : Answer) (s : Client D) :
    Res (Client D) := do
  let (p, s) ← s.take id a
  s.touch p.own
  let (s, _) ← s.aggQuota K (Quota.cacheResponse K.envQ K.cfgQ (K.depth + 1) r (if a.status = .ok then a.quota else .default))
  let s ← s.freeAll p.own
  .ok (s.done i (.quota r) a.status (.quota a.quota) (some id))

/-- `Quota` with a transport, service_control_client_impl.cc:252-299. -/
def quota (K : Setup) (r : AllocateQuotaRequest D) (t : Bool) (s : Client D) : Res (Client D) :=
  let i := s.calls
  let s := { s.log (.called i (.quota r) t) with calls := i + 1 }
  let s := { s with stats := { s.stats with totalQuotas := s.stats.totalQuotas + 1 } }
  if t = false then .ok (s.done i (.quota r) .invalidArgument .none none)
  else do
    let (s, out) ← s.aggQuota K (Quota.quota K.envQ K.cfgQ (K.depth + 1) r)
    if out.status = .notFound then do
      let (p, s) := s.alloc
      let id := s.sends
      let s := s.send (some i) (.quota r) [p]
      let s ← match K.answer id with
        | none => .ok s
        | some a => finishQuota K i r id a s
      .ok { s with stats := { s.stats with quotasInFlight := s.stats.quotasInFlight + 1 } }
    else .ok (s.done i (.quota r) out.status (match out.response with | none => .none | some p => .quota p) none)

/-- The completion of a `Report` passed to the transport: the done callback itself,
service_control_client_impl.cc:342. -/
def finishReport (i : Nat) (r : ReportRequest D) (id : Nat) (a : Answer) (s : Client D) : Res (Client D) := do
  let (_, s) ← s.take id a
  .ok (s.done i (.report r) a.status .none (some id))

/-- `Report` with a transport, service_control_client_impl.cc:330-348. -/
def report (K : Setup) (r : ReportRequest D) (t : Bool) (s : Client D) : Res (Client D) :=
  let i := s.calls
  let s := { s.log (.called i (.report r) t) with calls := i + 1 }
  let s := { s with stats := { s.stats with totalReports := s.stats.totalReports + 1 } }
  if t = false then .ok (s.done i (.report r) .invalidArgument .none none)
  else do
    let (s, st) ← s.aggReport K (Report.report K.envR K.cfgR r)
    if st = .notFound then do
      let id := s.sends
      let s := s.send (some i) (.report r) []
      let s ← match K.answer id with
        | none => .ok s
        | some a => finishReport i r id a s
      .ok { s with stats := { s.stats with
        reportsInFlight := s.stats.reportsInFlight + 1
        reportOperations := s.stats.reportOperations + r.operations.length } }
    else .ok (s.done i (.report r) st .none none)

/-- A transport completes an earlier call: which callback it holds is determined by the request and
by whether a call of the user waits for it. -/
def complete (K : Setup) (id : Nat) (a : Answer) (s : Client D) : Res (Client D) :=
  match s.pend.find? (·.id == id) with
  | none => .error .useAfterFree
  | some p =>
    match p.req, p.by_ with
    | .check r, some i => finishCheck K i r id a s
    | .quota r, some i => finishQuota K i r id a s
    | .report r, some i => finishReport i r id a s
    | .quota _, none => finishQuotaFlush K (fun fl s => fl.foldlM (quotaFlushCallback K) s) id a s
    | _, none => finishPlain id a s

/-! ### Construction, timer, destruction -/

/-- `GetNextFlushInterval`, service_control_client_impl.cc:392-405. -/
def nextFlushInterval (K : Setup) (c : AggState (Check.Elem D)) (q : Quota.State D) (r : AggState (OpAgg D)) : Int :=
  let orMax (x : Int) : Int := if x < 0 then int32Max else x
  min (orMax (Check.nextFlushInterval K.cfgC c))
    (min (orMax (Quota.nextFlushInterval K.cfgQ q)) (orMax (Report.nextFlushInterval K.cfgR r)))

/-- Constructor, service_control_client_impl.cc:38-114. -/
def new (K : Setup) : Res (Client D) := do
  let c ← Check.new K.envC K.cfgC
  let q ← Quota.new K.envQ K.cfgQ (K.depth + 1)
  let r ← Report.new K.envR K.cfgR
  let interval := nextFlushInterval K c q r
  .ok { check := c.setFlushCallback true
        quota := { q with base := q.base.setFlushCallback true }
        report := r.setFlushCallback true
        stats := .zero, pend := [], heap := [], nextAddr := 0, sends := 0, calls := 0, alive := true
        timer := if K.hasTimer && decide (interval > 0) then some interval else none
        trace := [] }

/-- The function called by the timer, service_control_client_impl.cc:92-112. -/
def timer (K : Setup) (s : Client D) : Res (Client D) :=
  match s.timer with
  | none => .ok s
  | some _ => do
    let s := s.log .fired
    let (s, _) ← s.aggCheck K (Check.flush K.envC K.cfgC)
    let (s, _) ← s.aggQuota K (Quota.flush K.envQ K.cfgQ (K.depth + 1))
    let (s, _) ← s.aggReport K (Report.flush K.envR K.cfgR)
    .ok s

/-- `FlushAll`, service_control_client_impl.cc:421-433. -/
def flushAll (K : Setup) (s : Client D) : Res (Client D) := do
  let (s, _) ← s.aggCheck K (Check.flushAll K.envC K.cfgC)
  let (s, _) ← s.aggQuota K (Quota.flushAll K.envQ K.cfgQ (K.depth + 1))
  let (s, _) ← s.aggReport K (Report.flushAll K.envR K.cfgR)
  .ok s

/-- Destructor, service_control_client_impl.cc:116-133: flush, stop the timer, disconnect the flush callbacks; then the
client's memory is released.  An aggregator lives on while a completion callback refers to it. -/
def destroy (K : Setup) (s : Client D) : Res (Client D) := do
  let s ← flushAll K s
  .ok { s.log .destroyed with
    timer := none
    check := s.check.setFlushCallback false
    quota := { s.quota with base := s.quota.base.setFlushCallback false }
    report := s.report.setFlushCallback false
    alive := false }

/-- The transport argument of a call (service_control_client_impl.cc:194, 255, 333): none given (the default is used), or one that is empty or
not. -/
inductive Transport where
  | default
  | given (present : Bool)
  deriving DecidableEq

/-- What can happen to a client.  The overloads without a transport
(service_control_client_impl.cc:226-230, 302-306, 350-354) pass on the default one; those that wait for the
done callback (service_control_client_impl.cc:232-250, 309-328, 356-374) add nothing but the waiting. -/
inductive Op (D : Type) where
  | call (c : Call D) (t : Transport)
  | complete (id : Nat) (a : Answer)
  | timer
  | destroy
  deriving DecidableEq

/-- The transport of a call is not empty, service_control_client_impl.cc:196, 229, 257, 305, 335, 353. -/
def present (K : Setup) (c : Call D) : Transport → Bool
  | .given b => b
  | .default =>
    match c with
    | .check _ => K.hasC
    | .quota _ => K.hasQ
    | .report _ => K.hasR

/-- One operation.  Calls on a destroyed client, and destroying it twice, are errors of the user. -/
def step (K : Setup) (op : Op D) (s : Client D) : Res (Client D) :=
  match op with
  | .call c t =>
    if s.alive = false then .error .useAfterFree
    else match c with
    | .check r => check K r (present K c t) s
    | .quota r => quota K r (present K c t) s
    | .report r => report K r (present K c t) s
  | .complete id a => complete K id a s
  | .timer => timer K s
  | .destroy => if s.alive = false then .error .useAfterFree else destroy K s

end
end Verif.Client
