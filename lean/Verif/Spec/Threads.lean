import Verif.Model.Threads
import Verif.Spec.Client
/-
What the properties of a client used by many threads say, in terms of its trace and of where the threads are.
-/
namespace Verif.Threads
open Client
variable {D : Type}

/-- The call a piece of code works on. -/
def Act.worksOn : Act D → Option Nat
  | .start i _ _ => some i
  | .agg i _ => some i
  | .result i _ _ _ => some i
  | .finish i _ _ _ _ => some i
  | .fin p _ => p.by_
  | _ => none

/-- No thread works on call `i`. -/
def Rest (i : Nat) (s : Sys D) : Prop := ∀ t ∈ s.threads, ∀ a ∈ t, a.worksOn ≠ some i

/-- No thread is inside of the client. -/
def Quiet (s : Sys D) : Prop := ∀ t ∈ s.threads, t = []

/-- No counter is greater. -/
def Stats.le (x y : Stats) : Prop :=
  x.totalChecks ≤ y.totalChecks ∧ x.checksByFlush ≤ y.checksByFlush ∧ x.checksInFlight ≤ y.checksInFlight ∧
  x.totalQuotas ≤ y.totalQuotas ∧ x.quotasByFlush ≤ y.quotasByFlush ∧ x.quotasInFlight ≤ y.quotasInFlight ∧
  x.totalReports ≤ y.totalReports ∧ x.reportsByFlush ≤ y.reportsByFlush ∧ x.reportsInFlight ≤ y.reportsInFlight ∧
  x.reportOperations ≤ y.reportOperations

/-- A done callback of call `i` with status `st` was invoked. -/
def Answered (i : Nat) (st : Status) (tr : List (Ev D)) : Prop := ∃ c reply via, Ev.done i c st reply via ∈ tr

/-- The end of a call that waits for its own done callback. -/
def Act.waitsFor (i : Nat) : Act D → Bool
  | .wait j => j == i
  | _ => false

/-- Reports of the cache a thread has in its hands, to pass them to the flush callback. -/
def carried (s : Sys D) : List (ReportRequest D) :=
  s.threads.flatten.filterMap (fun a => match a with
    | .flush (.report r) => some r
    | .calling (.report r) => some r
    | _ => none)

/-- Reports of the cache passed on when no flush callback was set. -/
def lost (s : Sys D) : List (ReportRequest D) :=
  s.dropped.filterMap (fun c => match c with | .report r => some r | _ => none)

/-- The operations of reports the aggregator has accepted and whose done callback is about to be invoked. -/
def promised (s : Sys D) : List (Operation D) :=
  s.threads.flatten.flatMap (fun a => match a with
    | .result _ (.report r) .ok _ => r.operations
    | .finish _ (.report r) .ok _ none => r.operations
    | _ => [])

/-- The request is for another service or has no operation. -/
def Refused (K : Setup) : Call D → Prop
  | .check r => r.serviceName ≠ K.cfgC.serviceName ∨ r.operation = none
  | .quota r => r.serviceName ≠ K.cfgQ.serviceName ∨ r.allocateOperation = none
  | .report r => r.serviceName ≠ K.cfgR.serviceName

/-- The cache is in use and all operations of the request are of low importance (quota operations have no importance). -/
def Held (K : Setup) : Call D → Prop
  | .check r => 0 < K.cfgC.numEntries ∧ ∀ o, r.operation = some o → o.importance = importanceLow
  | .quota _ => 0 < K.cfgQ.numEntries
  | .report r => 0 < K.cfgR.numEntries ∧ ∀ o ∈ r.operations, o.importance = importanceLow

/-- The operation of a check that a positive response of the cache answers. -/
def heldOp : Call D → Status → Reply → List (Operation D)
  | .check r, .ok, .check p => if p.checkErrors = [] then r.operation.toList else []
  | _, _, _ => []

/-- The operations of checks answered OK without a transport call and with a positive response. -/
def heldOps (tr : List (Ev D)) : List (Operation D) :=
  tr.flatMap (fun e => match e with | .done _ c st reply none => heldOp c st reply | _ => [])

/-- The operations of checks about to be answered so. -/
def heldSoon (s : Sys D) : List (Operation D) :=
  s.threads.flatten.flatMap (fun a => match a with
    | .result _ c st reply => heldOp c st reply
    | .finish _ c st reply none => heldOp c st reply
    | _ => [])

/-- The checks of the user given to a transport. -/
def passedChecks (tr : List (Ev D)) : List (CheckRequest D) :=
  tr.filterMap (fun e => match e with | .sent _ (some _) (.check r) => some r | _ => none)

/-- The checks of the user about to be given to a transport. -/
def passedSoon (s : Sys D) : List (CheckRequest D) :=
  s.threads.flatten.filterMap (fun a => match a with | .result _ (.check r) .notFound _ => some r | _ => none)

/-- Checks of the cache a thread has in its hands, to pass them to the flush callback. -/
def carriedChecks (s : Sys D) : List (CheckRequest D) :=
  s.threads.flatten.filterMap (fun a => match a with
    | .flush (.check r) => some r
    | .calling (.check r) => some r
    | _ => none)

/-- Checks of the cache passed on when no flush callback was set. -/
def lostChecks (s : Sys D) : List (CheckRequest D) :=
  s.dropped.filterMap (fun c => match c with | .check r => some r | _ => none)

/-- A transport has answered a check of the user of this signature positively. -/
def Approved (H : Bytes → Bytes) (k : Bytes) (tr : List (Ev D)) : Prop :=
  ∃ id i q a, Ev.completed id (some i) (.check q) a ∈ tr ∧ checkRequestSig H q = k ∧ a.status = .ok ∧ a.check.checkErrors = []

/-- The code is that of a check of signature `k` before it asks the aggregator, or of the completion of its transport call. -/
def Act.concerns (H : Bytes → Bytes) (k : Bytes) : Act D → Prop
  | .start _ (.check r) _ => checkRequestSig H r = k
  | .agg _ (.check r) => checkRequestSig H r = k
  | .fin p _ => ∃ i r, p.by_ = some i ∧ p.req = .check r ∧ checkRequestSig H r = k
  | _ => False

/-- A check of signature `k` is called, or a transport completes it. -/
def Concerns (H : Bytes → Bytes) (k : Bytes) : Ev D → Prop
  | .called _ (.check r) _ => checkRequestSig H r = k
  | .completed _ (some _) (.check r) _ => checkRequestSig H r = k
  | _ => False

/-- The operation of a check that a positive response of the cache answers, with its signature. -/
def heldSig (H : Bytes → Bytes) : Call D → Status → Reply → List (Bytes × Operation D)
  | .check r, .ok, .check p => if p.checkErrors = [] then r.operation.toList.map (fun o => (checkRequestSig H r, o)) else []
  | _, _, _ => []

/-- The operations of checks answered OK without a transport call and with a positive response, with their signatures. -/
def heldSigs (H : Bytes → Bytes) (tr : List (Ev D)) : List (Bytes × Operation D) :=
  tr.flatMap (fun e => match e with | .done _ c st reply none => heldSig H c st reply | _ => [])

/-- The operations of checks about to be answered so. -/
def heldSigsSoon (H : Bytes → Bytes) (s : Sys D) : List (Bytes × Operation D) :=
  s.threads.flatten.flatMap (fun a => match a with
    | .result _ c st reply => heldSig H c st reply
    | .finish _ c st reply none => heldSig H c st reply
    | _ => [])

/-- The operation of a quota request of signature `k` that a positive response of the cache answers. -/
def grantOp (H : Bytes → Bytes) (k : Bytes) : Call D → Status → Reply → List (QuotaOperation D)
  | .quota r, .ok, .quota p => if allocateQuotaSig H r = k ∧ p.allocateErrors = [] then [r.op] else []
  | _, _, _ => []

/-- The operations of quota requests of signature `k` answered OK without a transport call and with a positive response. -/
def grants (H : Bytes → Bytes) (k : Bytes) (tr : List (Ev D)) : List (QuotaOperation D) :=
  tr.flatMap (fun e => match e with | .done _ c st reply none => grantOp H k c st reply | _ => [])

/-- The operations of quota requests about to be answered so. -/
def grantsSoon (H : Bytes → Bytes) (k : Bytes) (s : Sys D) : List (QuotaOperation D) :=
  s.threads.flatten.flatMap (fun a => match a with
    | .result _ c st reply => grantOp H k c st reply
    | .finish _ c st reply none => grantOp H k c st reply
    | _ => [])

/-- The quota requests of signature `k` among the calls. -/
def quotasIn (H : Bytes → Bytes) (k : Bytes) (cs : List (Call D)) : List (AllocateQuotaRequest D) :=
  cs.filterMap (fun c => match c with | .quota r => if allocateQuotaSig H r = k then some r else none | _ => none)

/-- The quota requests of signature `k` of the cache given to a transport. -/
def flushedQuotas (H : Bytes → Bytes) (k : Bytes) (tr : List (Ev D)) : List (AllocateQuotaRequest D) :=
  quotasIn H k (tr.filterMap (fun e => match e with | .sent _ none c => some c | _ => none))

/-- Those a thread has in its hands, to pass them to the flush callback. -/
def carriedQuotas (H : Bytes → Bytes) (k : Bytes) (s : Sys D) : List (AllocateQuotaRequest D) :=
  quotasIn H k (s.threads.flatten.filterMap (fun a => match a with | .flush c => some c | .calling c => some c | _ => none))

/-- Those passed on when no flush callback was set. -/
def lostQuotas (H : Bytes → Bytes) (k : Bytes) (s : Sys D) : List (AllocateQuotaRequest D) := quotasIn H k s.dropped

/-- Every quota request of signature `k` given to a transport has been completed. -/
def QuotasCompleted (H : Bytes → Bytes) (k : Bytes) (tr : List (Ev D)) : Prop :=
  ∀ id b r, Ev.sent id b (.quota r) ∈ tr → allocateQuotaSig H r = k → ∃ a, Ev.completed id b (.quota r) a ∈ tr

/-- How many negative responses were received for quota requests of signature `k`. -/
def denials (H : Bytes → Bytes) (k : Bytes) (tr : List (Ev D)) : Nat :=
  tr.countP (fun e => match e with
    | .completed _ _ (.quota r) a => decide (allocateQuotaSig H r = k ∧ (granted a).allocateErrors ≠ [])
    | _ => false)

/-- The request repeats one of a `Quota` call of signature `k`, as it was or in the mode NORMAL. -/
def Repeats (H : Bytes → Bytes) (k : Bytes) (tr : List (Ev D)) (q : AllocateQuotaRequest D) : Prop :=
  ∃ i r, Ev.called i (.quota r) true ∈ tr ∧ allocateQuotaSig H r = k ∧
    (q = r ∨ q = { r with allocateOperation := some { r.op with quotaMode := quotaModeNormal } })

/-- Quota requests of the calls that have equal signatures have equal method, consumer and metric names. -/
def NoQuotaCollision (H : Bytes → Bytes) (tr : List (Ev D)) : Prop :=
  ∀ i r j r', Ev.called i (.quota r) true ∈ tr → Ev.called j (.quota r') true ∈ tr →
    allocateQuotaSig H r = allocateQuotaSig H r' → SameQuotaIdentity r.op r'.op

/-- How often the timer has called its function. -/
def fires (tr : List (Ev D)) : Nat := tr.countP (fun e => match e with | .fired => true | _ => false)

/-- The thread holds a callback lock here: it is between the two ends of `FlushOut`. -/
def Act.locked : Act D → Bool
  | .calling _ => true
  | .after _ _ => true
  | _ => false

/-- What a transport called by a flush callback may do: return, and complete calls that were made by flush callbacks for checks
and reports. -/
def Act.harmless : Act D → Bool
  | .user => true
  | .fin p _ => match p.by_, p.req with
    | some _, _ => false
    | none, .quota _ => false
    | none, _ => true
  | .free _ th => !th
  | _ => false

/-- Transports called by flush callbacks do nothing else. -/
def Calm (s : Sys D) : Prop := ∀ t ∈ s.threads, ∀ u x v, t = u ++ x :: v → x.locked = true → ∀ a ∈ u, a.harmless = true

section
variable [DoubleOps D]

/-- The states under every schedule in which transports called by flush callbacks are calm. -/
inductive CalmReach (K : Setup) (stops : Bool) : Sys D → Prop
  | new {c} : Client.new K = .ok c → CalmReach K stops (Sys.new c)
  | step {s s'} : CalmReach K stops s → Step K stops s s' → Calm s' → CalmReach K stops s'

/-- `s'` comes after `s` in some schedule. -/
inductive Later (K : Setup) (stops : Bool) (s : Sys D) : Sys D → Prop
  | refl : Later K stops s s
  | step {s1 s2} : Later K stops s s1 → Step K stops s1 s2 → Later K stops s s2

/-- A thread that is inside of the client goes on. -/
def Work (K : Setup) (stops : Bool) (s s' : Sys D) : Prop :=
  ∃ l1 a t l2 s1 new, s.threads = l1 ++ (a :: t) :: l2 ∧ exec K stops a s = some (.ok (s1, new)) ∧
    s' = { s1 with threads := l1 ++ (new ++ t) :: l2 }

end

/-- A thread stands before this piece of code. -/
def Next (a : Act D) (s : Sys D) : Prop := ∃ l1 t l2, s.threads = l1 ++ (a :: t) :: l2

/-- The call of the user a piece of code is the continuation of: it runs before the call returns. -/
def Act.callOf : Act D → Option Nat
  | .start i _ _ => some i
  | .agg i _ => some i
  | .result i _ _ _ => some i
  | .count i _ _ => some i
  | .finish i _ _ _ none => some i
  | _ => none

/-- The call whose response object (`check_response`, `quota_response`) a piece of code reads or writes: the aggregator writes what it
has cached, the completion callback reads what the transport has written. -/
def Act.usesResponse : Act D → Option Nat
  | .agg i _ => some i
  | .fin p _ => p.by_
  | _ => none

/-- The call whose request object a piece of code reads: until it has been copied for the transport, and for reports also to count
the operations after the transport was called (service_control_client_impl.cc:344). -/
def Act.usesRequest : Act D → Option Nat
  | .start i _ _ => some i
  | .agg i _ => some i
  | .result i _ _ _ => some i
  | .count i (.report _) (_ :: _) => some i
  | _ => none

/-- The copy of the request a transport was given, if it was given a copy (service_control_client_impl.cc:138, 205, 267): its address. -/
def requestCopy (p : Pend D) : Option Nat :=
  match p.req, p.by_, p.own with
  | .check _, some _, [q] => some q
  | .quota _, some _, [q] => some q
  | .quota _, none, [q, _] => some q
  | _, _, _ => none

/-- The response object a transport called by a flush callback was given (service_control_client_impl.cc:139, 164, 178): its address. -/
def ownResponse (p : Pend D) : Option Nat :=
  match p.req, p.by_, p.own with
  | .check _, none, [q] => some q
  | .quota _, none, [_, q] => some q
  | .report _, none, [q] => some q
  | _, _, _ => none

section
variable [DoubleOps D]

/-- Reading counters one after the other while threads go on. -/
inductive ReadStats (K : Setup) (stops : Bool) : List (Stats → Nat) → Sys D → Sys D → List Nat → Prop
  | done {s} : ReadStats K stops [] s s []
  | read {f fs s s1 s2 vs} : Later K stops s s1 → ReadStats K stops fs s1 s2 vs → ReadStats K stops (f :: fs) s s2 (f s1.c.stats :: vs)

end

/-- `GetStatistics` reads the counters in this order, service_control_client_impl.cc:377-388. -/
def getStatistics : List (Stats → Nat) :=
  [Stats.totalChecks, Stats.checksByFlush, Stats.checksInFlight, Stats.totalQuotas, Stats.quotasByFlush, Stats.quotasInFlight,
    Stats.totalReports, Stats.reportsByFlush, Stats.reportsInFlight, Stats.reportOperations]

end Verif.Threads
