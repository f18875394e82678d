import Verif.Props.Double
import Verif.Props.ClientTimer
import Verif.Props.ThreadTimer
/-
C105: the time limits of the caches in the milliseconds of the options.
-/
namespace Verif.Ieee

/-- `cyc` is the conversion the code performs: `ms / 1000.0` seconds given to `SetTimeout`
(report_aggregator_impl.cc:64, check_aggregator_impl.cc:73, quota_aggregator_impl.cc:80, utils/simple_lru_cache_inl.h:596-626). -/
def Converts (cyc : Nat → Nat) : Prop := ∀ ms : Nat, ms ≤ 2 ^ 31 - 1 → timeoutCycles (seconds ms) = .ok (some (cyc ms))

/-- The conversion as a function. -/
def cycMs (ms : Nat) : Nat :=
  match timeoutCycles (seconds ms) with
  | .ok (some c) => c.toNat
  | _ => 0

theorem cycMs_converts : Converts cycMs := by
  intro ms h
  obtain ⟨c, hc, _, _, h0⟩ := C99_milliseconds_partial (ms := ms) (by omega) (by omega)
  unfold cycMs
  rw [hc]
  simp only [Except.ok.injEq, Option.some.injEq]
  omega

theorem Converts.near {cyc : Nat → Nat} (h : Converts cyc) {ms : Int} (h0 : 0 ≤ ms) (h1 : ms ≤ 2 ^ 31 - 1) :
    1000 * ms - 1 ≤ cyc ms.toNat ∧ (cyc ms.toNat : Int) ≤ 1000 * ms := by
  obtain ⟨c, hc, h2, h3, _⟩ := C99_milliseconds_partial h0 h1
  have := h ms.toNat (by omega)
  rw [Int.toNat_of_nonneg h0, hc] at this
  cases this
  exact ⟨h2, h3⟩

/-- C105: `Flush` of the report cache flushes only groups whose first operation arrived at least the flush interval before, and keeps only
groups whose first operation arrived at most the flush interval before. -/
theorem C105_report_flush {D : Type} [DoubleOps D] {E : Lru.Env} {cfg : AggConfig} {h : Report.Hist D} {s : AggState (OpAgg D)}
    (hcv : Converts cfg.cyc) (m : Lru.Mono E.clk) (r : Report.Reach E cfg h s) (hfl : 0 ≤ cfg.flushMs) (hmax : cfg.flushMs ≤ 2 ^ 31 - 1)
    {s' : AggState (OpAgg D)} {st : Status} {fl : List (ReportRequest D)}
    (hs : Report.step E cfg .flush s = .ok (s', st, fl)) :
    ∃ arr out1 out2 pend, Report.ArrivalsAt h arr ∧
      Report.Partition cfg arr (out1 ++ out2) (Report.flushedOps h ++ fl.flatMap (·.operations)) pend (Report.cachedOps cfg s') ∧
      out1.length = (Report.flushedOps h).length ∧
      (∀ g ∈ out2, ∃ a, g.members.head? = some a ∧ 1000 * cfg.flushMs ≤ E.clk s.tick - E.clk a.tick) ∧
      (∀ g ∈ pend, ∃ a, g.members.head? = some a ∧ E.clk s.tick - E.clk a.tick ≤ 1000 * cfg.flushMs) := by
  obtain ⟨arr, out1, out2, pend, h1, h2, h3, h4, h5⟩ := Report.C43_flush_exact m r hfl hs
  obtain ⟨n1, n2⟩ := hcv.near hfl hmax
  refine ⟨arr, out1, out2, pend, h1, h2, h3, ?_, ?_⟩
  · intro g hg
    obtain ⟨a, ha, hb⟩ := h4 g hg
    exact ⟨a, ha, by omega⟩
  · intro g hg
    obtain ⟨a, ha, hb⟩ := h5 g hg
    exact ⟨a, ha, by omega⟩

/-- C105: `Flush` of the check cache keeps only entries used within the expiration time, and removes only entries not used for at least
that long. -/
theorem C105_check_flush {D : Type} [DoubleOps D] {E : Lru.Env} {cfg : AggConfig} {h : Check.Hist D} {s s' : AggState (Check.Elem D)}
    {out : Check.Out} {fl : List (CheckRequest D)} (hcv : Converts cfg.cyc) (m : Lru.Mono E.clk) (r : Check.Reach E cfg h s)
    (hexp : 0 ≤ cfg.expirationMs) (hmax : cfg.expirationMs ≤ 2 ^ 31 - 1) (hs : Check.step E cfg .flush s = .ok (s', out, fl)) :
    (∀ k ∈ Check.cachedSigs s', k ∈ Check.cachedSigs s ∧ ∃ ev i, Check.lastUse cfg k h = some ev ∧ ev.reads i ∧
      E.clk s.tick - E.clk i ≤ 1000 * cfg.expirationMs) ∧
    ∀ k ∈ Check.cachedSigs s, k ∉ Check.cachedSigs s' → ∃ ev i, Check.lastUse cfg k h = some ev ∧ ev.reads i ∧
      1000 * cfg.expirationMs ≤ E.clk s.tick - E.clk i := by
  obtain ⟨h1, h2⟩ := Check.C85_flush_expires m r hexp hs
  obtain ⟨n1, n2⟩ := hcv.near hexp hmax
  refine ⟨?_, ?_⟩
  · intro k hk
    obtain ⟨h3, ev, i, h4, h5, h6⟩ := h1 k hk
    exact ⟨h3, ev, i, h4, h5, by omega⟩
  · intro k hk hk'
    obtain ⟨ev, i, h4, h5, h6⟩ := h2 k hk hk'
    exact ⟨ev, i, h4, h5, by omega⟩

/-- C105: `C97_reports_sent` in milliseconds: operations accepted more than the flush interval before the timer called its function. -/
theorem C105_timer_reports {D : Type} [DoubleOps D] {K : Client.Setup} {stops : Bool} {s1 s2 s3 : Threads.Sys D}
    (hcv : Converts K.cfgR.cyc) (r : Threads.Reach K stops s1) (l12 : Threads.Later K stops s1 s2) (l23 : Threads.Later K stops s2 s3)
    (hf : Threads.fires s2.c.trace < Threads.fires s3.c.trace) (hidle : s3.timers = 0) (m : Lru.Mono K.envR.clk)
    (hfl : 0 ≤ K.cfgR.flushMs) (hmax : K.cfgR.flushMs ≤ 2 ^ 31 - 1)
    (hold : ∀ i, i < s1.c.report.tick → 1000 * K.cfgR.flushMs < K.envR.clk s2.c.report.tick - K.envR.clk i) :
    ∃ (old : List (Operation D)) (arr : List (Report.Arrival D)) (out : List (Report.Group D)) (sent : List (Operation D)) (pend : List (Report.Group D)),
      old.Perm (Client.acceptedOps s1.c.trace ++ Threads.promised s1) ∧
      (arr.map (·.op)).Perm (Client.acceptedOps s3.c.trace ++ Threads.promised s3) ∧
      sent.Perm ((Client.flushedReports s3.c.trace ++ Threads.carried s3 ++ Threads.lost s3).flatMap (·.operations)) ∧
      Report.Partition K.cfgR arr out sent pend (Report.cachedOps K.cfgR s3.c.report) ∧
      ∀ k, old.filter (fun o => reportOperationSig K.cfgR.H o == k) <+: (out.filter (·.sig == k)).flatMap (·.ops) := by
  obtain ⟨_, n2⟩ := hcv.near hfl hmax
  refine Threads.C97_reports_sent r l12 l23 hf hidle m hfl ?_
  intro i hi
  have := hold i hi
  omega

/-- The hypotheses of the two theorems: the runs of `Props/ReportAggregator.lean` and `Props/CheckAggregator.lean` with the conversion of
the code; the flush removes an entry and, for reports, keeps one. -/
example : Converts ({ Report.exCfg with cyc := cycMs } : AggConfig).cyc ∧ Lru.Mono Report.exEnv.clk ∧
    ∃ h s s' st fl, Report.Reach (D := Int) Report.exEnv { Report.exCfg with cyc := cycMs } h s ∧
      Report.step Report.exEnv { Report.exCfg with cyc := cycMs } .flush s = .ok (s', st, fl) ∧ fl.length = 1 ∧
      (Report.cachedOps { Report.exCfg with cyc := cycMs } s').length = 1 := by
  refine ⟨cycMs_converts, Report.exEnv_mono, ?_⟩
  have hb : (match Report.run Report.exEnv { Report.exCfg with cyc := cycMs }
      [Report.exReport [Report.exNamed 1 5, Report.exNamed 2 1], Report.exReport [Report.exNamed 1 7], Report.exReport [Report.exNamed 3 4]] with
    | .ok (_, s) => match Report.step Report.exEnv { Report.exCfg with cyc := cycMs } .flush s with
      | .ok (s', _, fl) => fl.length == 1 && (Report.cachedOps { Report.exCfg with cyc := cycMs } s').length == 1
      | .error _ => false
    | .error _ => false) = true := by decide +kernel
  split at hb
  · rename_i h s hr
    split at hb
    · rename_i s' st fl hs
      simp only [Bool.and_eq_true, beq_iff_eq] at hb
      exact ⟨h, s, s', st, fl, Report.run_reach _ _ _ hr, hs, hb.1, hb.2⟩
    · cases hb
  · cases hb

example : ∃ h s s' out fl, Check.Reach (D := Int) Report.exEnv { Check.exCfg with cyc := cycMs, expirationMs := 3 } h s ∧
      Check.step Report.exEnv { Check.exCfg with cyc := cycMs, expirationMs := 3 } .flush s = .ok (s', out, fl) ∧
      (Check.cachedSigs s).length = 2 ∧ (Check.cachedSigs s').length = 1 := by
  have hb : (match Check.run Report.exEnv { Check.exCfg with cyc := cycMs, expirationMs := 3 }
      [.cacheResponse (Check.exReq 1 5) (Check.exYes 7), .check (Check.exReq 1 5), .cacheResponse (Check.exReq 2 5) (Check.exYes 7)] with
    | .ok (_, s) => match Check.step Report.exEnv { Check.exCfg with cyc := cycMs, expirationMs := 3 } .flush s with
      | .ok (s', _, _) => (Check.cachedSigs s).length == 2 && (Check.cachedSigs s').length == 1
      | .error _ => false
    | .error _ => false) = true := by decide +kernel
  split at hb
  · rename_i h s hr
    split at hb
    · rename_i s' out fl hs
      simp only [Bool.and_eq_true, beq_iff_eq] at hb
      exact ⟨h, s, s', out, fl, Check.run_reach _ _ _ hr, hs, hb.1, hb.2⟩
    · cases hb
  · cases hb

end Verif.Ieee
