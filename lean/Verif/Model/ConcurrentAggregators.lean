import Verif.Model.Concurrency
import Verif.Spec.CheckAggregator
import Verif.Spec.ReportAggregator
import Verif.Spec.QuotaAggregator
/-
The three aggregators as programs for `Model/Concurrency.lean`.  The code under the cache lock runs
the sequential model of the method and then passes the removed items to `AddRemovedItem` one by one,
as separate steps.  (The sequential model has already merged them, so `MergeItem` is not used again.)
-/
namespace Verif.Conc

/-- Where a thread is under the lock (e.g. report_aggregator_impl.cc:99-121): before the body, or with these items still to pass on. -/
inductive Loc (C O R : Type) where
  | todo (c : C)
  | emitting (items : List R) (o : O)

/-- A program from a sequential description of the methods. -/
def seqProg {σ C O R : Type} (f : C → σ → Res (σ × O × List R)) (early : C → Option O) (react : R → Option C) :
    Prog σ C O R (Loc C O R) where
  early := early
  start := .todo
  exec l s := match l with
    | .todo c => match f c s with
      | .ok (s', o, items) => .next (.emitting items o) s' none
      | .error _ => .fault
    | .emitting (r :: rs) o => .next (.emitting rs o) s (some r)
    | .emitting [] o => .done o
  merge := noMerge
  react := react

section
variable {D : Type}

/-- `/repo/src/report_aggregator_impl.cc:84-92`: the results of `Report` that need no lock. -/
def reportEarly (cfg : AggConfig) : Report.Call D → Option Status
  | .report r =>
    if r.serviceName ≠ cfg.serviceName then some .invalidArgument
    else if Report.hasHighImportant r || decide (cfg.numEntries ≤ 0) then some .notFound
    else none
  | _ => none

/-- `/repo/src/check_aggregator_impl.cc:92-104`: the results of `Check` that need no lock. -/
def checkEarly (cfg : AggConfig) : Check.Call D → Option Check.Out
  | .check r =>
    if r.serviceName ≠ cfg.serviceName then some ⟨.invalidArgument, none⟩
    else match r.operation with
    | none => some ⟨.invalidArgument, none⟩
    | some o =>
      if o.importance ≠ importanceLow || decide (cfg.numEntries ≤ 0) then some ⟨.notFound, none⟩ else none
  | _ => none

/-- `/repo/src/quota_aggregator_impl.cc:110-124`, `188-190`: the results of `Quota` and
`CacheResponse` that need no lock. -/
def quotaEarly (cfg : AggConfig) : Quota.Call D → Option Quota.Out
  | .quota r =>
    if r.serviceName ≠ cfg.serviceName then some ⟨.invalidArgument, none⟩
    else if r.allocateOperation = none then some ⟨.invalidArgument, none⟩
    else if cfg.numEntries ≤ 0 then some ⟨.notFound, none⟩
    else none
  | .cacheResponse _ _ => if cfg.numEntries ≤ 0 then some ⟨.ok, none⟩ else none
  | _ => none

variable [DoubleOps D]

/-- The report aggregator (report_aggregator_impl.cc:82-180); `react` is what the flush callback calls. -/
def reportProg (E : Lru.Env) (cfg : AggConfig) (react : ReportRequest D → Option (Report.Call D)) :=
  seqProg (Report.step E cfg) (reportEarly cfg) react

/-- The check aggregator (check_aggregator_impl.cc:90-250). -/
def checkProg (E : Lru.Env) (cfg : AggConfig) (react : CheckRequest D → Option (Check.Call D)) :=
  seqProg (Check.step E cfg) (checkEarly cfg) react

end

/-- The quota aggregator (quota_aggregator_impl.cc:107-275); deleters may nest to depth `depth`. -/
def quotaProg {D : Type} (E : Lru.Env) (cfg : AggConfig) (depth : Nat)
    (react : AllocateQuotaRequest D → Option (Quota.Call D)) :=
  seqProg (Quota.step E cfg (depth + 1)) (quotaEarly cfg) react

end Verif.Conc
