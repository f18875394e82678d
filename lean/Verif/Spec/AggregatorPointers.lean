import Verif.Model.AggregatorPointers
import Verif.Spec.CheckAggregator
import Verif.Spec.ReportAggregator
import Verif.Spec.QuotaAggregator
/-
Histories of the aggregators with objects on a heap, and what it means that no object is lost.
-/
namespace Verif
open Lru Lru.Ptr

/-- What the caller sees of a call: what it returned and what it passed to the flush callback. -/
structure Seen (C O R : Type) where
  call : C
  out : O
  flushed : List R

/-- The objects that the entries of the cache point to. -/
def pointers {γ : Type} (c : PCache γ) : List Nat := c.table.filterMap (fun x => (c.cell x.2).map (·.ptr))

/-- The objects made and not deleted are those the entries of the cache point to, one each; every
entry points to one, and no object waits for its release. -/
structure OneToOne {ν : Type} (s : PAggState ν) : Prop where
  distinct : (s.heap.map (·.1)).Nodup
  none : s.cache = none → s.heap = []
  some : ∀ c, s.cache = some c → (s.heap.map (·.1)).Perm (pointers c) ∧ (pointers c).length = c.table.length ∧ c.defer = []

/-- The objects hold what the entries of the other model hold. -/
def SameValues {ν : Type} (ps : PAggState ν) (s : AggState ν) : Prop :=
  match s.cache with
  | none => ps.heap = []
  | some c => ps.heap.Perm (c.nodes.map (fun e => (e.ptr, e.val)))

namespace Check
variable {D : Type} [DoubleOps D]

abbrev See (D : Type) := Seen (Call D) Out (CheckRequest D)

def seen (h : Hist D) : List (See D) := h.map (fun ev => ⟨ev.call, ev.out, ev.flushed⟩)

def pStep (E : Env) (cfg : AggConfig) (c : Call D) (s : PAggState (Elem D)) :
    Res (PAggState (Elem D) × Out × List (CheckRequest D)) :=
  match c with
  | .check r => pCheck E cfg r s
  | .cacheResponse r resp => pCacheResponse E cfg r resp s
  | .flush => pFlush E cfg s
  | .flushAll => pFlushAll E cfg s

/-- Reached from a new aggregator with a flush callback by these calls, the last one first. -/
inductive PReach (E : Env) (cfg : AggConfig) : List (See D) → PAggState (Elem D) → Prop
  | init {s} : pNew E cfg = .ok s → PReach E cfg [] (s.setFlushCallback true)
  | call {h s c s' out fl} : PReach E cfg h s → pStep E cfg c s = .ok (s', out, fl) →
      PReach E cfg (⟨c, out, fl⟩ :: h) s'
end Check

namespace Report
variable {D : Type} [DoubleOps D]

abbrev See (D : Type) := Seen (Call D) Status (ReportRequest D)

def seen (h : Hist D) : List (See D) := h.map (fun ev => ⟨ev.call, ev.status, ev.flushed⟩)

def pStep (E : Env) (cfg : AggConfig) (c : Call D) (s : PAggState (OpAgg D)) :
    Res (PAggState (OpAgg D) × Status × List (ReportRequest D)) :=
  match c with
  | .report r => pReport E cfg r s
  | .flush => pFlush E cfg s
  | .flushAll => pFlushAll E cfg s

/-- Reached from a new aggregator with a flush callback by these calls, the last one first. -/
inductive PReach (E : Env) (cfg : AggConfig) : List (See D) → PAggState (OpAgg D) → Prop
  | init {s} : pNew E cfg = .ok s → PReach E cfg [] (s.setFlushCallback true)
  | call {h s c s' out fl} : PReach E cfg h s → pStep E cfg c s = .ok (s', out, fl) →
      PReach E cfg (⟨c, out, fl⟩ :: h) s'
end Report

namespace Quota
variable {D : Type}

abbrev See (D : Type) := Seen (Call D) Out (AllocateQuotaRequest D)

def seen (h : Hist D) : List (See D) := h.map (fun ev => ⟨ev.call, ev.out, ev.flushed⟩)

def pStep (E : Env) (cfg : AggConfig) (depth : Nat) (c : Call D) (s : PState D) :
    Res (PState D × Out × List (AllocateQuotaRequest D)) :=
  match c with
  | .quota r => pQuota E cfg depth r s
  | .cacheResponse r resp => pCacheResponse E cfg depth r resp s
  | .flush => pFlush E cfg depth s
  | .flushAll => pFlushAll E cfg depth s

/-- Reached from a new aggregator with a flush callback by these calls, the last one first, each of
which nests deleter calls to some depth. -/
inductive PReach (E : Env) (cfg : AggConfig) : List (See D) → PState D → Prop
  | init {s d} : pNew E cfg (d + 1) = .ok s → PReach E cfg [] { s with base := s.base.setFlushCallback true }
  | call {h s d c s' out fl} : PReach E cfg h s → pStep E cfg (d + 1) c s = .ok (s', out, fl) →
      PReach E cfg (⟨c, out, fl⟩ :: h) s'
end Quota
end Verif
