import Verif.Model.ReportAggregator
import Verif.Spec.OperationAggregator
import Mathlib.Data.List.Forall2
/-
Histories of calls on a report aggregator, and how flushed and cached operations should relate to
the accepted ones.
-/
namespace Verif.Report
open Lru

inductive Call (D : Type) where
  | report (r : ReportRequest D)
  | flush
  | flushAll

/-- A completed call: what it returned, what it passed to the flush callback, and how many clock
readings had been made before and after it. -/
structure Event (D : Type) where
  call : Call D
  status : Status
  flushed : List (ReportRequest D)
  first : Nat
  last : Nat

/-- Most recent event first. -/
abbrev Hist (D : Type) := List (Event D)

section
variable {D : Type} [DoubleOps D]

def step (E : Env) (cfg : AggConfig) (c : Call D) (s : AggState (OpAgg D)) :
    Res (AggState (OpAgg D) × Status × List (ReportRequest D)) :=
  match c with
  | .report r => report E cfg r s
  | .flush => flush E cfg s
  | .flushAll => flushAll E cfg s

/-- `s` is reached from a new aggregator with a flush callback by the calls `h`. -/
inductive Reach (E : Env) (cfg : AggConfig) : Hist D → AggState (OpAgg D) → Prop
  | init {s} : new E cfg = .ok s → Reach E cfg [] (s.setFlushCallback true)
  | call {h s c s' st fl} : Reach E cfg h s → step E cfg c s = .ok (s', st, fl) →
      Reach E cfg (⟨c, st, fl, s.tick, s'.tick⟩ :: h) s'
end

section
variable {D : Type}

/-- The operations of requests for which `Report` returned OK, in order of arrival, each with the
clock readings before and after the call. -/
def accepted : Hist D → List (Operation D × Nat × Nat)
  | [] => []
  | ev :: h => accepted h ++
    match ev.call with
    | .report r => if ev.status = .ok then r.operations.map (fun o => (o, ev.first, ev.last)) else []
    | _ => []

def acceptedOps (h : Hist D) : List (Operation D) := (accepted h).map (·.1)

/-- The operations passed to the flush callback, in order. -/
def flushedOps : Hist D → List (Operation D)
  | [] => []
  | ev :: h => flushedOps h ++ ev.flushed.flatMap (·.operations)

/-- What the cache would send if it were flushed now. -/
def cachedOps (cfg : AggConfig) (s : AggState (OpAgg D)) : List (Operation D) :=
  match s.cache with
  | none => []
  | some c => c.nodes.map (fun e => e.val.toProto cfg.U)

/-- An accepted operation and the number of the clock reading at which it arrived. -/
structure Arrival (D : Type) where
  op : Operation D
  tick : Nat

/-- Each accepted operation arrived during its call. -/
def Arrivals (h : Hist D) (arr : List (Arrival D)) : Prop :=
  List.Forall₂ (fun a (b : Operation D × Nat × Nat) => a.op = b.1 ∧ b.2.1 ≤ a.tick ∧ a.tick ≤ b.2.2)
    arr (accepted h)

/-- Each accepted operation arrived at one of the clock readings of its call. -/
def ArrivalsAt (h : Hist D) (arr : List (Arrival D)) : Prop :=
  List.Forall₂ (fun a (b : Operation D × Nat × Nat) => a.op = b.1 ∧ b.2.1 ≤ a.tick ∧ a.tick < b.2.2)
    arr (accepted h)

/-- Operations of one signature that are merged, in order. -/
structure Group (D : Type) where
  sig : Bytes
  members : List (Arrival D)

def Group.ops (g : Group D) : List (Operation D) := g.members.map (·.op)
end

section
variable {D : Type} [DoubleOps D]

/-- `o` is the aggregate of the group, which is not empty and of one signature. -/
def Group.Sum (cfg : AggConfig) (g : Group D) (o : Operation D) : Prop :=
  ∃ x xs a, g.ops = x :: xs ∧ OpAgg.aggregate cfg.H cfg.kinds x xs = .ok a ∧ o = a.toProto cfg.U ∧
    ∀ m ∈ g.members, reportOperationSig cfg.H m.op = g.sig

/-- The arrivals are split into the groups `out`, whose aggregates are `outOps`, followed by the
groups `pend`, whose aggregates are `pendOps`, at most one per signature. -/
structure Partition (cfg : AggConfig) (arr : List (Arrival D)) (out : List (Group D))
    (outOps : List (Operation D)) (pend : List (Group D)) (pendOps : List (Operation D)) : Prop where
  out_sum : List.Forall₂ (Group.Sum cfg) out outOps
  pend_sum : List.Forall₂ (Group.Sum cfg) pend pendOps
  pend_nodup : (pend.map (·.sig)).Nodup
  split : ∀ k, arr.filter (fun a => reportOperationSig cfg.H a.op == k) =
    (out.filter (·.sig == k)).flatMap (·.members) ++ (pend.filter (·.sig == k)).flatMap (·.members)

end
end Verif.Report
