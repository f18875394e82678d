import Verif.Model.Client
import Verif.Spec.CheckAggregator
import Verif.Spec.QuotaAggregator
import Verif.Spec.ReportAggregator
/-
The client of `/repo/src/service_control_client_impl.cc` used by many threads at once, and by its own
callbacks.

A thread is a stack of pieces of code still to be run, innermost first (`Act`); one step of the system runs the
first piece of one thread.  The pieces are: one method of an aggregator under its cache lock (that this is one
step is C57, for every interleaving inside), one access to the counters, one lock operation on
`callback_mutex_`, one call of a function given by the user, one `new`, one `delete`.

Functions of the user (transports, done callbacks) run for any time.  Meanwhile their thread may call the
client, complete transport calls, and destroy the client, as a thread outside of the client may.  So
transports that complete in place and callbacks that call the client again are executions of this model.

The contract: no call is made once the destruction has begun, and it begins when no call is running.
Completions of transport calls and the function called by the timer may run at any time, also during and
after the destruction; the comment in service_control_client_impl.cc:123-129 says they may.

Simplified as in `Model/Client.lean`.  The memory of an aggregator is not modelled: completions and the timer
hold references to it (service_control_client_impl.cc:81-84, 206, 269); for the one completion that does not (service_control_client_impl.cc:148, 152) the
client must not be released before it is over.
-/
namespace Verif.Threads
open Client
variable {D : Type}

/-- The aggregators, service_control_client_impl.h:122-126. -/
inductive Kind where
  | check
  | quota
  | report
  deriving DecidableEq

/-- The aggregator a request belongs to, service_control_client_impl.cc:71-81. -/
def kind : Call D → Kind
  | .check _ => .check
  | .quota _ => .quota
  | .report _ => .report

/-- A piece of code a thread still has to run. -/
inductive Act (D : Type) where
  /-- a function of the user: a transport (service_control_client.h:42-59) or a done callback -/
  | user
  /-- `Check`, `Quota`, `Report`: from the start, service_control_client_impl.cc:195, 256, 334 -/
  | start (i : Nat) (c : Call D) (t : Bool)
  /-- from the call of the aggregator, service_control_client_impl.cc:201, 262, 340 -/
  | agg (i : Nat) (c : Call D)
  /-- from its return, service_control_client_impl.cc:202, 263, 341 -/
  | result (i : Nat) (c : Call D) (st : Status) (reply : Reply)
  /-- the counters incremented after the transport was called, service_control_client_impl.cc:220, 293, 343-344 -/
  | count (i : Nat) (c : Call D) (xs : List Stats)
  /-- the call of the done callback, service_control_client_impl.cc:197, 218, 223, 258, 290, 297, 336, 347 -/
  | finish (i : Nat) (c : Call D) (st : Status) (reply : Reply) (via : Option Nat)
  /-- in the done callback of a call that waits: `set_value`, service_control_client_impl.cc:245, 323, 369 -/
  | setValue (i : Nat) (st : Status)
  /-- `wait` and `get`, service_control_client_impl.cc:248-249, 326-327, 372-373 -/
  | wait (i : Nat)
  /-- the completion callback of a transport call, service_control_client_impl.cc:142-157, 166-172, 180-186, 208-219, 271-291 -/
  | fin (p : Pend D) (a : Answer)
  /-- `delete` of what the callback holds, service_control_client_impl.cc:155-156, 167, 181, 217, 288; `this`: it is
  still inside of a method of the client -/
  | free (own : List Nat) (this : Bool)
  /-- the function called by the timer, service_control_client_impl.cc:92-112, from its `n`-th part -/
  | timer (n : Nat)
  /-- the destructor, service_control_client_impl.cc:116-133, from its `n`-th part -/
  | destroy (n : Nat)
  /-- `FlushOut`, cache_removed_items_handler.h:132-133 -/
  | flush (c : Call D)
  /-- in `FlushOut` with the lock taken, cache_removed_items_handler.h:134-135 -/
  | calling (c : Call D)
  /-- in the flush callback after the transport returned, service_control_client_impl.cc:159, 173, 187-188, and the end of
  `FlushOut` -/
  | after (k : Kind) (xs : List Stats)
  deriving DecidableEq

/-- The client, what the outside holds for it, and the threads. -/
structure Sys (D : Type) where
  /-- the client as in `Model/Client.lean`; its aggregators always pass on what they remove -/
  c : Client D
  /-- `flush_callback_` of the aggregator is set, cache_removed_items_handler.h:126 -/
  cb : Kind → Bool
  /-- `callback_mutex_` of the aggregator is held, cache_removed_items_handler.h:123 -/
  lk : Kind → Bool
  /-- the destructor has begun -/
  dying : Bool
  /-- functions called by the timer that have not returned -/
  timers : Nat
  /-- the calls that wait for their own done callback, service_control_client_impl.cc:232-250, 309-328, 356-374 -/
  syncs : List Nat
  /-- their stack frames; `true`: `status_promise` was not moved from yet, service_control_client_impl.cc:234 -/
  frames : List (Nat × Bool)
  /-- the values set through promises -/
  values : List (Nat × Status)
  /-- what they have returned -/
  returns : List (Nat × Status)
  /-- items passed to `FlushOut` while no callback was set -/
  dropped : List (Call D)
  threads : List (List (Act D))

/-- The counter of all calls, service_control_client_impl.cc:195, 256, 334. -/
def total : Call D → Stats
  | .check _ => { Stats.zero with totalChecks := 1 }
  | .quota _ => { Stats.zero with totalQuotas := 1 }
  | .report _ => { Stats.zero with totalReports := 1 }

/-- The counters incremented after a transport was called for a call, service_control_client_impl.cc:220, 293, 343-344. -/
def inFlight : Call D → List Stats
  | .check _ => [{ Stats.zero with checksInFlight := 1 }]
  | .quota _ => [{ Stats.zero with quotasInFlight := 1 }]
  | .report r => [{ Stats.zero with reportsInFlight := 1 }, { Stats.zero with reportOperations := r.operations.length }]

/-- The counters incremented by flush callbacks, service_control_client_impl.cc:159, 173, 187-188. -/
def byFlush : Call D → List Stats
  | .check _ => [{ Stats.zero with checksByFlush := 1 }]
  | .quota _ => [{ Stats.zero with quotasByFlush := 1 }]
  | .report r => [{ Stats.zero with reportsByFlush := 1 }, { Stats.zero with reportOperations := r.operations.length }]

/-- Incrementing a counter (`++` of an atomic), service_control_client_impl.cc:195 and others. -/
def bump (c : Client D) (x : Stats) : Client D :=
  { c with stats := ⟨c.stats.totalChecks + x.totalChecks, c.stats.checksByFlush + x.checksByFlush, c.stats.checksInFlight + x.checksInFlight,
      c.stats.totalQuotas + x.totalQuotas, c.stats.quotasByFlush + x.quotasByFlush, c.stats.quotasInFlight + x.quotasInFlight,
      c.stats.totalReports + x.totalReports, c.stats.reportsByFlush + x.reportsByFlush, c.stats.reportsInFlight + x.reportsInFlight,
      c.stats.reportOperations + x.reportOperations⟩ }

/-- The default transport is not empty, service_control_client_impl.cc:54-56. -/
def hasDefault (K : Setup) : Call D → Bool
  | .check _ => K.hasC
  | .quota _ => K.hasQ
  | .report _ => K.hasR

/-- What a transport call by a flush callback holds: the response, and for quota the request too,
service_control_client_impl.cc:138-139, 164, 178. -/
def allocFlush (c : Call D) (s : Client D) : List Nat × Client D :=
  match c with
  | .quota _ =>
    let (p, s) := s.alloc
    let (q, s) := s.alloc
    ([p, q], s)
  | _ =>
    let (p, s) := s.alloc
    ([p], s)

/-- What a transport call for a call holds: a copy of the request, except for reports,
service_control_client_impl.cc:205, 267, 342. -/
def allocCall (c : Call D) (s : Client D) : List Nat × Client D :=
  match c with
  | .report _ => ([], s)
  | _ =>
    let (p, s) := s.alloc
    ([p], s)

section
variable [DoubleOps D]

/-- A method of an aggregator under the cache lock, check_aggregator_impl.cc:90-250, quota_aggregator_impl.cc:107-275,
report_aggregator_impl.cc:82-180; then `~StackBuffer` passes on the removed items one by one,
cache_removed_items_handler.h:87-91. -/
def aggC (K : Setup) (x : Check.Call D) (s : Sys D) : Res (Sys D × Check.Out × List (Act D)) := do
  let (a, out, fl) ← Check.step K.envC K.cfgC x s.c.check
  .ok ({ s with c := { s.c with check := a } }, out, fl.map (fun r => .flush (.check r)))

/-- The same for the quota aggregator. -/
def aggQ (K : Setup) (x : Quota.Call D) (s : Sys D) : Res (Sys D × Quota.Out × List (Act D)) := do
  let (a, out, fl) ← Quota.step K.envQ K.cfgQ (K.depth + 1) x s.c.quota
  .ok ({ s with c := { s.c with quota := a } }, out, fl.map (fun r => .flush (.quota r)))

/-- The same for the report aggregator. -/
def aggR (K : Setup) (x : Report.Call D) (s : Sys D) : Res (Sys D × Status × List (Act D)) := do
  let (a, out, fl) ← Report.step K.envR K.cfgR x s.c.report
  .ok ({ s with c := { s.c with report := a } }, out, fl.map (fun r => .flush (.report r)))

/-- Replace the value for one aggregator; stands for no line of the code. -/
def set (f : Kind → Bool) (k : Kind) (b : Bool) : Kind → Bool := fun j => if j = k then b else f j

/-- Members of the client are used; stands for no line of the code. -/
def this (s : Sys D) (r : Res (Sys D × List (Act D))) : Option (Res (Sys D × List (Act D))) :=
  some (if s.c.alive = false then .error .useAfterFree else r)

/-- The call of the aggregator in `Check`, `Quota`, `Report`, service_control_client_impl.cc:201, 262, 340. -/
def runCall (K : Setup) (i : Nat) (c : Call D) (s : Sys D) : Res (Sys D × List (Act D)) :=
  match c with
  | .check r => do
    let (s, out, fl) ← aggC K (.check r) s
    .ok (s, fl ++ [.result i c out.status (match out.response with | none => .none | some p => .check p)])
  | .quota r => do
    let (s, out, fl) ← aggQ K (.quota r) s
    .ok (s, fl ++ [.result i c out.status (match out.response with | none => .none | some p => .quota p)])
  | .report r => do
    let (s, st, fl) ← aggR K (.report r) s
    .ok (s, fl ++ [.result i c st .none])

/-- The completion callbacks: of `Check` (service_control_client_impl.cc:208-219), of `Quota` (service_control_client_impl.cc:271-291), of `Report` (the done
callback itself, service_control_client_impl.cc:342), of the flush callbacks (service_control_client_impl.cc:142-157, 166-172, 180-186). -/
def runFin (K : Setup) (p : Pend D) (a : Answer) (s : Sys D) : Res (Sys D × List (Act D)) :=
  match p.req, p.by_ with
  | .check r, some i => do
    let tail := [.free p.own false, .finish i (.check r) a.status (.check a.check) (some p.id)]
    if a.status = .ok then do
      s.c.touch p.own
      let (s, _, fl) ← aggC K (.cacheResponse r a.check) s
      .ok (s, fl ++ tail)
    else .ok (s, tail)
  | .quota r, some i => do
    s.c.touch p.own
    let (s, _, fl) ← aggQ K (.cacheResponse r (if a.status = .ok then a.quota else .default)) s
    .ok (s, fl ++ [.free p.own false, .finish i (.quota r) a.status (.quota a.quota) (some p.id)])
  | .report r, some i => .ok (s, [.free p.own false, .finish i (.report r) a.status .none (some p.id)])
  | .quota r, none =>
    if s.c.alive = false then .error .useAfterFree
    else do
      s.c.touch p.own
      let (s, _, fl) ← aggQ K (.cacheResponse r (if a.status = .ok then a.quota else .default)) s
      .ok (s, fl ++ [.free p.own true])
  | _, none => .ok (s, [.free p.own false])

/-- The function called by the timer, service_control_client_impl.cc:92-112. -/
def runTimer (K : Setup) (n : Nat) (s : Sys D) : Res (Sys D × List (Act D)) :=
  match n with
  | 0 => do
    let (s, _, fl) ← aggC K .flush s
    .ok (s, fl ++ [.timer 1])
  | 1 => do
    let (s, _, fl) ← aggQ K .flush s
    .ok (s, fl ++ [.timer 2])
  | 2 => do
    let (s, _, fl) ← aggR K .flush s
    .ok (s, fl ++ [.timer 3])
  | _ => .ok ({ s with timers := s.timers - 1 }, [])

/-- `SetFlushCallback(NULL)`, service_control_client_impl.cc:130-132 and cache_removed_items_handler.h:61-64: it waits for the lock. -/
def unset (k : Kind) (n : Nat) (s : Sys D) : Option (Res (Sys D × List (Act D))) :=
  if s.lk k then none else some (.ok ({ s with cb := set s.cb k false }, [.destroy n]))

/-- The destructor, service_control_client_impl.cc:116-133 and 421-433.  `stops`: `Stop` of the timer waits for the function it is
calling; the interface (service_control_client.h:61-70) does not say. -/
def runDestroy (K : Setup) (stops : Bool) (n : Nat) (s : Sys D) : Option (Res (Sys D × List (Act D))) :=
  match n with
  | 0 => some do
    let (s, _, fl) ← aggC K .flushAll s
    .ok (s, fl ++ [.destroy 1])
  | 1 => some do
    let (s, _, fl) ← aggQ K .flushAll s
    .ok (s, fl ++ [.destroy 2])
  | 2 => some do
    let (s, _, fl) ← aggR K .flushAll s
    .ok (s, fl ++ [.destroy 3])
  | 3 =>
    if s.c.timer.isNone then some (.ok (s, [.destroy 5]))
    else some (.ok ({ s with c := { s.c with timer := none } }, [.destroy 4]))
  | 4 => if stops && decide (s.timers ≠ 0) then none else some (.ok (s, [.destroy 5]))
  | 5 => unset .check 6 s
  | 6 => unset .quota 7 s
  | 7 => unset .report 8 s
  | _ => some (.ok ({ s with c := { s.c.log .destroyed with alive := false } }, []))

/-- One piece of code.  `none`: it waits.  The result is the new state and what the thread has to run next. -/
def exec (K : Setup) (stops : Bool) (a : Act D) (s : Sys D) : Option (Res (Sys D × List (Act D))) :=
  match a with
  | .user => some (.ok (s, []))
  | .start i c t =>
    this s (.ok ({ s with c := bump s.c (total c) }, if t then [.agg i c] else [.finish i c .invalidArgument .none none]))
  | .agg i c => this s (runCall K i c s)
  | .result i c st reply =>
    this s (if st = .notFound then
        let (own, x) := allocCall c s.c
        .ok ({ s with c := x.send (some i) c own }, [.user, .count i c (inFlight c)])
      else .ok (s, [.finish i c st reply none]))
  | .count _ _ [] => some (.ok (s, []))
  | .count i c (x :: xs) => this s (.ok ({ s with c := bump s.c x }, [.count i c xs]))
  | .finish i c st reply via =>
    let s := { s with c := s.c.done i c st reply via }
    if i ∈ s.syncs then
      match s.frames.find? (·.1 == i) with
      | none => some (.error .useAfterFree)
      | some (_, false) => some (.error .futureError)
      | some (_, true) => some (.ok ({ s with frames := s.frames.map (fun f => if f.1 = i then (i, false) else f) }, [.setValue i st]))
    else some (.ok (s, [.user]))
  | .setValue i st => some (.ok ({ s with values := s.values ++ [(i, st)] }, []))
  | .wait i =>
    match s.values.find? (·.1 == i) with
    | none => none
    | some (_, st) => some (.ok ({ s with frames := s.frames.filter (·.1 != i), returns := s.returns ++ [(i, st)] }, []))
  | .fin p a => some (runFin K p a s)
  | .free own th =>
    some (if th && !s.c.alive then .error .useAfterFree
      else do
        let c ← s.c.freeAll own
        .ok ({ s with c := c }, []))
  | .timer n => some (runTimer K n s)
  | .destroy n => runDestroy K stops n s
  | .flush c => if s.lk (kind c) then none else some (.ok ({ s with lk := set s.lk (kind c) true }, [.calling c]))
  | .calling c =>
    if s.cb (kind c) = false then some (.ok ({ s with dropped := s.dropped ++ [c] }, [.after (kind c) []]))
    else this s (if hasDefault K c = false then .error .badFunctionCall
      else
        let (own, x) := allocFlush c s.c
        .ok ({ s with c := x.send none c own }, [.user, .after (kind c) (byFlush c)]))
  | .after k [] => some (.ok ({ s with lk := set s.lk k false }, []))
  | .after k (x :: xs) => this s (.ok ({ s with c := bump s.c x }, [.after k xs]))

/-- The code belongs to a call of the user that is running (service_control_client_impl.cc:191-374). -/
def Act.api : Act D → Bool
  | .start _ _ _ | .agg _ _ | .result _ _ _ _ | .count _ _ _ | .finish _ _ _ _ none | .wait _ => true
  | _ => false

/-- The thread is outside of the client, or in a function of the user called by it. -/
def Free (t : List (Act D)) : Prop := t = [] ∨ ∃ t', t = .user :: t'

/-- One step of the system. -/
inductive Step (K : Setup) (stops : Bool) : Sys D → Sys D → Prop
  /-- a thread runs its next piece of code -/
  | work {s l1 a t l2 s' new} : s.threads = l1 ++ (a :: t) :: l2 → exec K stops a s = some (.ok (s', new)) →
      Step K stops s { s' with threads := l1 ++ (new ++ t) :: l2 }
  /-- a call of `Check`, `Quota` or `Report` with a done callback, service_control_client_impl.cc:191, 226, 252, 302, 330, 350 -/
  | call {s l1 t l2} (c : Call D) (tr : Transport) : s.threads = l1 ++ t :: l2 → Free t → s.dying = false →
      Step K stops s { s with
        c := { s.c.log (.called s.c.calls c (present K c tr)) with calls := s.c.calls + 1 }
        threads := l1 ++ (.start s.c.calls c (present K c tr) :: t) :: l2 }
  /-- a call without one, service_control_client_impl.cc:232-250, 309-328, 356-374 -/
  | sync {s l1 t l2} (c : Call D) : s.threads = l1 ++ t :: l2 → Free t → s.dying = false →
      Step K stops s { s with
        c := { s.c.log (.called s.c.calls c (present K c .default)) with calls := s.c.calls + 1 }
        syncs := s.syncs ++ [s.c.calls]
        frames := s.frames ++ [(s.c.calls, true)]
        threads := l1 ++ (.start s.c.calls c (present K c .default) :: .wait s.c.calls :: t) :: l2 }
  /-- a transport completes a call it holds the callback of -/
  | complete {s l1 t l2 id a p c'} : s.threads = l1 ++ t :: l2 → Free t → s.c.take id a = .ok (p, c') →
      Step K stops s { s with c := c', threads := l1 ++ (.fin p a :: t) :: l2 }
  /-- the timer calls its function -/
  | fire {s l1 t l2} : s.threads = l1 ++ t :: l2 → Free t → s.c.timer ≠ none →
      Step K stops s { s with c := s.c.log .fired, timers := s.timers + 1, threads := l1 ++ (.timer 0 :: t) :: l2 }
  /-- the client is destroyed -/
  | destroy {s l1 t l2} : s.threads = l1 ++ t :: l2 → Free t → s.dying = false → (∀ t ∈ s.threads, ∀ a ∈ t, a.api = false) →
      Step K stops s { s with dying := true, threads := l1 ++ (.destroy 0 :: t) :: l2 }
  /-- a new thread -/
  | spawn {s} : Step K stops s { s with threads := s.threads ++ [[]] }

/-- A new client (service_control_client_impl.cc:38-114), no threads. -/
def Sys.new (c : Client D) : Sys D := ⟨c, fun _ => true, fun _ => false, false, 0, [], [], [], [], [], []⟩

/-- The states of a client under every schedule. -/
inductive Reach (K : Setup) (stops : Bool) : Sys D → Prop
  | new {c} : Client.new K = .ok c → Reach K stops (Sys.new c)
  | step {s s'} : Reach K stops s → Step K stops s s' → Reach K stops s'

end
end Verif.Threads
