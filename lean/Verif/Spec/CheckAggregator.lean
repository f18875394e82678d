import Verif.Model.CheckAggregator
import Verif.Spec.OperationAggregator
import Mathlib.Data.List.Forall2
/-
Histories of calls on a check aggregator and the quantities the properties speak about, defined from
the history alone.
-/
namespace Verif.Check
open Lru

inductive Call (D : Type) where
  | check (r : CheckRequest D)
  | cacheResponse (r : CheckRequest D) (resp : CheckResponse)
  | flush
  | flushAll

/-- A completed call: what it returned, what it passed to the flush callback, how many clock
readings had been made before and after it, and which signatures were cached after it. -/
structure Event (D : Type) where
  call : Call D
  out : Out
  flushed : List (CheckRequest D)
  first : Nat
  last : Nat
  sigs : List Bytes

/-- Most recent event first. -/
abbrev Hist (D : Type) := List (Event D)

section
variable {D : Type}

/-- The signatures in the cache. -/
def cachedSigs (s : AggState (Elem D)) : List Bytes :=
  match s.cache with
  | none => []
  | some c => c.nodes.map (·.key)

/-- The operations that would be flushed if the cache were cleared now. -/
def pendingOps [DoubleOps D] (cfg : AggConfig) (s : AggState (Elem D)) : List (Operation D) :=
  match s.cache with
  | none => []
  | some c => c.nodes.filterMap (fun e => e.val.agg.map (fun a => a.toProto cfg.U))

/-- A check that may be answered from the cache: right service, LOW importance. -/
abbrev Cacheable (cfg : AggConfig) (r : CheckRequest D) : Prop :=
  r.serviceName = cfg.serviceName ∧ ∃ o, r.operation = some o ∧ o.importance = importanceLow

instance (cfg : AggConfig) (r : CheckRequest D) : Decidable (Cacheable cfg r) :=
  match h : r.operation with
  | none => isFalse (by simp [Cacheable, h])
  | some o => decidable_of_iff (r.serviceName = cfg.serviceName ∧ o.importance = importanceLow) (by simp [Cacheable, h])

/-- The call concerns the entry of signature `k`. -/
def Uses (cfg : AggConfig) (k : Bytes) : Call D → Prop
  | .check r => Cacheable cfg r ∧ checkRequestSig cfg.H r = k
  | .cacheResponse r _ => checkRequestSig cfg.H r = k
  | _ => False

instance (cfg : AggConfig) (k : Bytes) (c : Call D) : Decidable (Uses cfg k c) := by
  cases c <;> unfold Uses <;> infer_instance

/-- The call asks for a fresh response or stores one. -/
abbrev Refreshes (cfg : AggConfig) (k : Bytes) (ev : Event D) : Prop :=
  Uses cfg k ev.call ∧ ((∃ r, ev.call = .check r) → ev.out.status = .notFound)

instance (cfg : AggConfig) (k : Bytes) (ev : Event D) : Decidable (Refreshes cfg k ev) := by
  unfold Refreshes
  cases h : ev.call with
  | check r => exact decidable_of_iff (Uses cfg k (.check r) ∧ ev.out.status = .notFound) (by simp)
  | cacheResponse r p => exact decidable_of_iff (Uses cfg k (.cacheResponse r p)) (by simp)
  | flush => exact isFalse (by simp [Uses])
  | flushAll => exact isFalse (by simp [Uses])

/-- The response stored last for signature `k` since the last `FlushAll`. -/
def lastCached (H : Bytes → Bytes) (k : Bytes) : Hist D → Option CheckResponse
  | [] => none
  | ev :: h =>
    match ev.call with
    | .cacheResponse r resp => if checkRequestSig H r = k then some resp else lastCached H k h
    | .flushAll => none
    | _ => lastCached H k h

/-- The last call that concerned `k`. -/
def lastUse (cfg : AggConfig) (k : Bytes) (h : Hist D) : Option (Event D) :=
  h.find? (fun ev => decide (Uses cfg k ev.call))

/-- The last call that asked for a fresh response for `k` or stored one. -/
def lastRefresh (cfg : AggConfig) (k : Bytes) (h : Hist D) : Option (Event D) :=
  h.find? (fun ev => decide (Refreshes cfg k ev))

/-- A clock reading made by a call of this history entry. -/
def Event.reads (ev : Event D) (i : Nat) : Prop := ev.first ≤ i ∧ i < ev.last


/-- The operation, with its signature, that a call added to the cache, given the calls before: a
check for which a positive response was stored last, and which was answered by it or told to refresh
it while it stays cached. -/
def absorbedBy (cfg : AggConfig) (ev : Event D) (before : Hist D) : List (Bytes × Operation D) :=
  match ev.call with
  | .check r =>
    match r.operation, lastCached cfg.H (checkRequestSig cfg.H r) before with
    | some o, some p =>
      if p.checkErrors = [] ∧ (ev.out.status = .ok ∨
          ev.out.status = .notFound ∧ Cacheable cfg r ∧ checkRequestSig cfg.H r ∈ ev.sigs) then
        [(checkRequestSig cfg.H r, o)] else []
    | _, _ => []
  | _ => []

/-- All operations added to the cache, in order. -/
def absorbed (cfg : AggConfig) : Hist D → List (Bytes × Operation D)
  | [] => []
  | ev :: h => absorbed cfg h ++ absorbedBy cfg ev h

/-- The operations passed to the flush callback, in order. -/
def flushedOps : Hist D → List (Operation D)
  | [] => []
  | ev :: h => flushedOps h ++ ev.flushed.filterMap (·.operation)
end

section
variable {D : Type} [DoubleOps D]

def step (E : Env) (cfg : AggConfig) (c : Call D) (s : AggState (Elem D)) :
    Res (AggState (Elem D) × Out × List (CheckRequest D)) :=
  match c with
  | .check r => check E cfg r s
  | .cacheResponse r resp => cacheResponse E cfg r resp s
  | .flush => flush E cfg s
  | .flushAll => flushAll E cfg s

/-- `s` is reached from a new aggregator with a flush callback by the calls `h`. -/
inductive Reach (E : Env) (cfg : AggConfig) : Hist D → AggState (Elem D) → Prop
  | init {s} : new E cfg = .ok s → Reach E cfg [] (s.setFlushCallback true)
  | call {h s c s' out fl} : Reach E cfg h s → step E cfg c s = .ok (s', out, fl) →
      Reach E cfg (⟨c, out, fl, s.tick, s'.tick, cachedSigs s'⟩ :: h) s'

/-- Operations of one signature that are merged, in order. -/
structure Group (D : Type) where
  sig : Bytes
  ops : List (Operation D)

/-- `o` is the aggregate of the group, which is not empty. -/
def Group.Sum (cfg : AggConfig) (g : Group D) (o : Operation D) : Prop :=
  ∃ x xs a, g.ops = x :: xs ∧ OpAgg.aggregate cfg.H cfg.kinds x xs = .ok a ∧ o = a.toProto cfg.U

/-- The operations `arr` (with signatures) are split into the groups `out`, whose aggregates are
`outOps`, followed by the groups `pend`, whose aggregates are `pendOps`, at most one per
signature. -/
structure Partition (cfg : AggConfig) (arr : List (Bytes × Operation D)) (out : List (Group D))
    (outOps : List (Operation D)) (pend : List (Group D)) (pendOps : List (Operation D)) : Prop where
  out_sum : List.Forall₂ (Group.Sum cfg) out outOps
  pend_sum : List.Forall₂ (Group.Sum cfg) pend pendOps
  pend_nodup : (pend.map (·.sig)).Nodup
  split : ∀ k, (arr.filter (fun a => a.1 == k)).map (·.2) =
    (out.filter (·.sig == k)).flatMap (·.ops) ++ (pend.filter (·.sig == k)).flatMap (·.ops)
end
end Verif.Check
