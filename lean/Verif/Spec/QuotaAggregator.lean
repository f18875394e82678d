import Verif.Model.QuotaAggregator
import Verif.Spec.Signature
/-
Histories of calls on a quota aggregator and the quantities the properties speak about, defined from
the history alone.
-/
namespace Verif.Quota
open Lru

inductive Call (D : Type) where
  | quota (r : AllocateQuotaRequest D)
  | cacheResponse (r : AllocateQuotaRequest D) (resp : AllocateQuotaResponse)
  | flush
  | flushAll

/-- A completed call: what it returned, what it passed to the flush callback, how many clock
readings had been made before and after it, and which entries (signature and identity) were cached
after it. -/
structure Event (D : Type) where
  call : Call D
  out : Out
  flushed : List (AllocateQuotaRequest D)
  first : Nat
  last : Nat
  entries : List (Bytes × Nat)

/-- Most recent event first. -/
abbrev Hist (D : Type) := List (Event D)

section
variable {D : Type}

/-- The entries of the cache: signature and identity. -/
def entriesOf (s : State D) : List (Bytes × Nat) :=
  match s.base.cache with
  | none => []
  | some c => c.nodes.map (fun e => (e.key, e.ptr))

/-- A request that may be answered by the aggregator. -/
abbrev Valid (cfg : AggConfig) (r : AllocateQuotaRequest D) : Prop :=
  r.serviceName = cfg.serviceName ∧ r.allocateOperation ≠ none

/-- The identity of the entry of signature `k` after the calls `h`. -/
def ident (k : Bytes) : Hist D → Option Nat
  | [] => none
  | ev :: _ => (ev.entries.find? (fun e => e.1 == k)).map (·.2)

/-- The last call made an entry for `k`. -/
abbrev Created (k : Bytes) (ev : Event D) (h : Hist D) : Prop :=
  ident k (ev :: h) ≠ none ∧ ident k (ev :: h) ≠ ident k h

/-- The last call destroyed the entry of `k` that was there before (it may have made a new one). -/
abbrev Destroyed (k : Bytes) (ev : Event D) (h : Hist D) : Prop :=
  ident k h ≠ none ∧ ident k (ev :: h) ≠ ident k h

/-- The request whose call made the entry of `k`. -/
def origin (k : Bytes) : Hist D → Option (AllocateQuotaRequest D)
  | [] => none
  | ev :: h =>
    if Created k ev h then
      match ev.call with
      | .quota r => some r
      | _ => none
    else if ident k (ev :: h) = none then none
    else origin k h

/-- The response the entry of `k` holds: the one stored last since the entry was made, or the empty
one. -/
def served (H : Bytes → Bytes) (k : Bytes) : Hist D → Option AllocateQuotaResponse
  | [] => none
  | ev :: h =>
    if ident k (ev :: h) = none then none
    else if Created k ev h then some .default
    else match ev.call with
      | .cacheResponse r resp => if allocateQuotaSig H r = k then some resp else served H k h
      | _ => served H k h

/-- The requests of signature `k` passed to the flush callback by a call. -/
def sent (H : Bytes → Bytes) (k : Bytes) (ev : Event D) : List (AllocateQuotaRequest D) :=
  ev.flushed.filter (fun q => allocateQuotaSig H q == k)

/-- The number of requests of signature `k` passed to the flush callback since the entry of `k` was
made and since a response was last stored for it. -/
def waiting (H : Bytes → Bytes) (k : Bytes) : Hist D → Nat
  | [] => 0
  | ev :: h =>
    if ident k (ev :: h) = none then 0
    else if Created k ev h then (sent H k ev).length
    else match ev.call with
      | .cacheResponse r _ => if allocateQuotaSig H r = k then 0 else waiting H k h + (sent H k ev).length
      | _ => waiting H k h + (sent H k ev).length

/-- The last call that passed a request of signature `k` to the flush callback. -/
def lastSent (H : Bytes → Bytes) (k : Bytes) (h : Hist D) : Option (Event D) :=
  h.find? (fun ev => !(sent H k ev).isEmpty)

/-- A clock reading made by a call of this history entry. -/
def Event.reads (ev : Event D) (i : Nat) : Prop := ev.first ≤ i ∧ i < ev.last

/-- The operation of signature `k` that a call added to the entry of `k`: a `Quota` answered
positively from an entry that was there before. -/
def absorbedBy (cfg : AggConfig) (k : Bytes) (ev : Event D) (before : Hist D) : List (QuotaOperation D) :=
  match ev.call with
  | .quota r =>
    match ev.out.response with
    | some p =>
      if allocateQuotaSig cfg.H r = k ∧ ¬ Created k ev before ∧ p.allocateErrors = [] then [r.op] else []
    | none => []
  | _ => []

/-- All of them, in order. -/
def absorbed (cfg : AggConfig) (k : Bytes) : Hist D → List (QuotaOperation D)
  | [] => []
  | ev :: h => absorbed cfg k h ++ absorbedBy cfg k ev h

/-- The request of a `Quota` call that made the entry of `k`. -/
def madeBy (k : Bytes) (ev : Event D) (before : Hist D) : List (AllocateQuotaRequest D) :=
  match ev.call with
  | .quota r => if Created k ev before then [r] else []
  | _ => []

/-- All of them, in order. -/
def made (k : Bytes) : Hist D → List (AllocateQuotaRequest D)
  | [] => []
  | ev :: h => made k h ++ madeBy k ev h

/-- The requests of signature `k` passed to the flush callback, in order. -/
def sentAll (H : Bytes → Bytes) (k : Bytes) : Hist D → List (AllocateQuotaRequest D)
  | [] => []
  | ev :: h => sentAll H k h ++ sent H k ev

/-- The call may discard what was added to the entry of `k`: it stored a negative response for it,
or destroyed it. -/
def Loses (H : Bytes → Bytes) (k : Bytes) (ev : Event D) (before : Hist D) : Prop :=
  (∃ r resp, ev.call = .cacheResponse r resp ∧ allocateQuotaSig H r = k ∧ resp.allocateErrors ≠ []) ∨
    Destroyed k ev before

instance (H : Bytes → Bytes) (k : Bytes) (ev : Event D) (before : Hist D) : Decidable (Loses H k ev before) := by
  unfold Loses
  cases h : ev.call with
  | cacheResponse r p =>
    exact decidable_of_iff ((allocateQuotaSig H r = k ∧ p.allocateErrors ≠ []) ∨ Destroyed k ev before) (by
      simp)
  | quota r => exact decidable_of_iff (Destroyed k ev before) (by simp)
  | flush => exact decidable_of_iff (Destroyed k ev before) (by simp)
  | flushAll => exact decidable_of_iff (Destroyed k ev before) (by simp)

/-- The number of such calls. -/
def losses (H : Bytes → Bytes) (k : Bytes) : Hist D → Nat
  | [] => 0
  | ev :: h => losses H k h + if Loses H k ev h then 1 else 0

/-- All requests passed to `Quota`. -/
def requests (h : Hist D) : List (AllocateQuotaRequest D) :=
  h.filterMap (fun ev => match ev.call with | .quota r => some r | _ => none)

/-- Requests with equal signatures have equal method, consumer and metric names. -/
def NoCollision (H : Bytes → Bytes) (h : Hist D) : Prop :=
  ∀ r ∈ requests h, ∀ r' ∈ requests h, allocateQuotaSig H r = allocateQuotaSig H r' → SameQuotaIdentity r.op r'.op

/-- What happened to the operations added to the entries of a signature, and where the requests
passed to the flush callback came from. -/
inductive Item (D : Type) where
  /-- these operations were passed on as this request -/
  | passed (ops : List (QuotaOperation D)) (q : AllocateQuotaRequest D)
  /-- these operations were discarded -/
  | lost (ops : List (QuotaOperation D))
  /-- the call with this request made the entry, and the request was passed on -/
  | first (r : AllocateQuotaRequest D)
  /-- this request, the one that made the entry, was passed on once more, as that one -/
  | again (r q : AllocateQuotaRequest D)

def Item.ops : Item D → List (QuotaOperation D)
  | .passed ops _ => ops
  | .lost ops => ops
  | .first _ => []
  | .again _ _ => []

def Item.sent : Item D → List (AllocateQuotaRequest D)
  | .passed _ q => [q]
  | .lost _ => []
  | .first r => [r]
  | .again _ q => [q]

def Item.made : Item D → List (AllocateQuotaRequest D)
  | .first r => [r]
  | _ => []

def Item.isLost : Item D → Bool
  | .lost _ => true
  | _ => false

/-- `o` is the aggregate of the operations, of which there is at least one. -/
def Sum (E : Env) (cfg : AggConfig) (ops : List (QuotaOperation D)) (o : QuotaOperation D) : Prop :=
  ∃ x xs a, ops = x :: xs ∧ QuotaAgg.aggregate E.dbg x xs = .ok a ∧ o = a.toProto cfg.U

/-- The item is what it says. -/
def Item.Ok (E : Env) (cfg : AggConfig) (k : Bytes) (h : Hist D) : Item D → Prop
  | .passed ops q => ∃ o, Sum E cfg ops o ∧ q = ⟨cfg.serviceName, some o, cfg.serviceConfigId, []⟩
  | .lost ops => ops ≠ []
  | .first r => r ∈ requests h ∧ allocateQuotaSig cfg.H r = k
  | .again r q => r ∈ requests h ∧ allocateQuotaSig cfg.H r = k ∧
      (q = r ∨ q = { r with allocateOperation := some { r.op with quotaMode := quotaModeNormal } })

/-- The accounts of signature `k` after the calls `h`: what was added is what was passed on, what
was lost (at most once per call that may lose something), and `pend`, what is still in the cache. -/
structure Ledger (E : Env) (cfg : AggConfig) (k : Bytes) (h : Hist D) (items : List (Item D))
    (pend : List (QuotaOperation D)) : Prop where
  ok : ∀ i ∈ items, i.Ok E cfg k h
  ops : absorbed cfg k h = items.flatMap (·.ops) ++ pend
  sent : sentAll cfg.H k h = items.flatMap (·.sent)
  first : made k h = items.flatMap (·.made)
  lost : (items.filter (·.isLost)).length ≤ losses cfg.H k h

/-- What the cache still holds for `k`. -/
def heldOf (cfg : AggConfig) (k : Bytes) (s : State D) : Option (QuotaOperation D) :=
  match s.base.cache with
  | none => none
  | some c => (c.nodes.find? (fun e => e.key == k)).bind (fun e => e.val.agg.map (fun a => a.toProto cfg.U))

end

section
variable {D : Type}

def step (E : Env) (cfg : AggConfig) (depth : Nat) (c : Call D) (s : State D) :
    Res (State D × Out × List (AllocateQuotaRequest D)) :=
  match c with
  | .quota r => quota E cfg depth r s
  | .cacheResponse r resp => cacheResponse E cfg depth r resp s
  | .flush => flush E cfg depth s
  | .flushAll => flushAll E cfg depth s

/-- `s` is reached from a new aggregator with a flush callback by the calls `h`, each of which nests
deleter calls to some depth. -/
inductive Reach (E : Env) (cfg : AggConfig) : Hist D → State D → Prop
  | init {s d} : new E cfg (d + 1) = .ok s → Reach E cfg [] { s with base := s.base.setFlushCallback true }
  | call {h s d c s' out fl} : Reach E cfg h s → step E cfg (d + 1) c s = .ok (s', out, fl) →
      Reach E cfg (⟨c, out, fl, s.base.tick, s'.base.tick, entriesOf s'⟩ :: h) s'

/-- `h`, `s` is a later moment than `h1`, `s1`. -/
inductive Later (E : Env) (cfg : AggConfig) (h1 : Hist D) (s1 : State D) : Hist D → State D → Prop
  | refl : Later E cfg h1 s1 h1 s1
  | call {h s d c s' out fl} : Later E cfg h1 s1 h s → step E cfg (d + 1) c s = .ok (s', out, fl) →
      Later E cfg h1 s1 (⟨c, out, fl, s.base.tick, s'.base.tick, entriesOf s'⟩ :: h) s'

end
end Verif.Quota
