import Verif.Model.Client
/-
What the properties say about a client, in terms of its trace: the calls made, the requests given to
transports, the completions and the done callbacks.
-/
namespace Verif.Client
variable {D : Type}

/-- The client states reached from a new client. -/
inductive Reach [DoubleOps D] (K : Setup) : Client D → Prop
  | new {s} : new K = .ok s → Reach K s
  | step {s op s'} : Reach K s → step K op s = .ok s' → Reach K s'

/-- `s'` is reached from `s`. -/
inductive Later [DoubleOps D] (K : Setup) (s : Client D) : Client D → Prop
  | refl : Later K s s
  | step {s1 op s2} : Later K s s1 → step K op s1 = .ok s2 → Later K s s2

/-- The number of the call made by this event. -/
def Ev.calledNo : Ev D → Option Nat
  | .called i _ _ => some i
  | _ => none

/-- The number of the call whose done callback this event is. -/
def Ev.doneNo : Ev D → Option Nat
  | .done i _ _ _ _ => some i
  | _ => none

/-- The same, if the call was answered without a transport call. -/
def Ev.localNo : Ev D → Option Nat
  | .done i _ _ _ none => some i
  | _ => none

/-- The number of the call on whose behalf a transport is called. -/
def Ev.sentFor : Ev D → Option Nat
  | .sent _ b _ => b
  | _ => none

/-- The number of the transport call. -/
def Ev.sentId : Ev D → Option Nat
  | .sent id _ _ => some id
  | _ => none

def Ev.completedId : Ev D → Option Nat
  | .completed id _ _ _ => some id
  | _ => none

/-- How often the user has made call `i`, its done callback was invoked, it was answered without a
transport call, and a transport was called for it. -/
def calls (i : Nat) (tr : List (Ev D)) : Nat := tr.countP (fun e => e.calledNo == some i)
def dones (i : Nat) (tr : List (Ev D)) : Nat := tr.countP (fun e => e.doneNo == some i)
def locals (i : Nat) (tr : List (Ev D)) : Nat := tr.countP (fun e => e.localNo == some i)
def sends (i : Nat) (tr : List (Ev D)) : Nat := tr.countP (fun e => e.sentFor == some i)

/-- The transport calls that have not completed: number, call of the user, request. -/
def outstanding (tr : List (Ev D)) : List (Nat × Option Nat × Call D) :=
  (tr.filterMap (fun e => match e with | .sent id b c => some (id, b, c) | _ => none)).filter
    (fun x => !(tr.filterMap Ev.completedId).contains x.1)

/-- The outstanding transport calls on behalf of call `i`. -/
def outstandingFor (i : Nat) (tr : List (Ev D)) : Nat := (outstanding tr).countP (fun x => x.2.1 == some i)

/-- What the transport delivered for the request of a call. -/
def replyOf : Call D → Answer → Reply
  | .check _, a => .check a.check
  | .quota _, a => .quota a.quota
  | .report _, _ => .none

/-- The statistics as they should be: the numbers of calls, of transport calls made by flush
callbacks and for calls, and of operations sent. -/
def Stats.ofTrace (tr : List (Ev D)) : Stats where
  totalChecks := tr.countP (fun e => match e with | .called _ (.check _) _ => true | _ => false)
  checksByFlush := tr.countP (fun e => match e with | .sent _ none (.check _) => true | _ => false)
  checksInFlight := tr.countP (fun e => match e with | .sent _ (some _) (.check _) => true | _ => false)
  totalQuotas := tr.countP (fun e => match e with | .called _ (.quota _) _ => true | _ => false)
  quotasByFlush := tr.countP (fun e => match e with | .sent _ none (.quota _) => true | _ => false)
  quotasInFlight := tr.countP (fun e => match e with | .sent _ (some _) (.quota _) => true | _ => false)
  totalReports := tr.countP (fun e => match e with | .called _ (.report _) _ => true | _ => false)
  reportsByFlush := tr.countP (fun e => match e with | .sent _ none (.report _) => true | _ => false)
  reportsInFlight := tr.countP (fun e => match e with | .sent _ (some _) (.report _) => true | _ => false)
  reportOperations := (tr.map (fun e => match e with | .sent _ _ (.report r) => r.operations.length | _ => 0)).sum

/-- The requests given to transports by flush callbacks, in order. -/
def flushedChecks (tr : List (Ev D)) : List (CheckRequest D) :=
  tr.filterMap (fun e => match e with | .sent _ none (.check r) => some r | _ => none)
def flushedQuotas (tr : List (Ev D)) : List (AllocateQuotaRequest D) :=
  tr.filterMap (fun e => match e with | .sent _ none (.quota r) => some r | _ => none)
def flushedReports (tr : List (Ev D)) : List (ReportRequest D) :=
  tr.filterMap (fun e => match e with | .sent _ none (.report r) => some r | _ => none)

/-- The operations of reports answered OK without a transport call, in order. -/
def acceptedOps (tr : List (Ev D)) : List (Operation D) :=
  tr.flatMap (fun e => match e with | .done _ (.report r) .ok _ none => r.operations | _ => [])

/-- The response a transport delivered last, without an error, for a check of signature `k` made by
the user. -/
def lastReply (H : Bytes → Bytes) (k : Bytes) (tr : List (Ev D)) : Option CheckResponse :=
  tr.reverse.findSome? (fun e => match e with
    | .completed _ (some _) (.check r) a => if checkRequestSig H r = k ∧ a.status = .ok then some a.check else none
    | _ => none)

/-- What a completed quota request grants: the response, or the empty one, which is positive, if there
was an error. -/
def granted (a : Answer) : AllocateQuotaResponse := if a.status = .ok then a.quota else .default

/-- What the quota request of signature `k` that completed last granted. -/
def lastGrant (H : Bytes → Bytes) (k : Bytes) (tr : List (Ev D)) : Option AllocateQuotaResponse :=
  tr.reverse.findSome? (fun e => match e with
    | .completed _ _ (.quota r) a => if allocateQuotaSig H r = k then some (granted a) else none
    | _ => none)

/-- A check or a quota call answered OK without a transport call. -/
def Ev.hit : Ev D → Bool
  | .done _ (.check _) .ok _ none => true
  | .done _ (.quota _) .ok _ none => true
  | _ => false

/-- What may be observed of a client after its destruction: transports complete earlier calls, and
the calls waiting for them are answered. -/
def Ev.late : Ev D → Bool
  | .completed _ _ _ _ => true
  | .done _ _ _ _ via => via.isSome
  | _ => false

/-- A check answered OK without a transport call gets the response that was delivered last for its
signature, by the events before. -/
def Ev.CheckOk (H : Bytes → Bytes) (e : Ev D) (before : List (Ev D)) : Prop :=
  ∀ i r reply, e = .done i (.check r) .ok reply none →
    ∃ p, reply = .check p ∧ lastReply H (checkRequestSig H r) before = some p

/-- A quota call answered OK without a transport call gets what was granted last, when it was made, for its
signature, or the empty response. -/
def Ev.QuotaOk (H : Bytes → Bytes) (e : Ev D) (before : List (Ev D)) : Prop :=
  ∀ i r reply, e = .done i (.quota r) .ok reply none →
    ∃ p b1 t b2, reply = .quota p ∧ before = b1 ++ .called i (.quota r) t :: b2 ∧
      (p = .default ∨ lastGrant H (allocateQuotaSig H r) b1 = some p)

end Verif.Client
