import Verif.Props.ThreadAnswers
import Verif.Props.ClientTimer
import Mathlib.Data.List.Perm.Basic
/-
What the function called by the timer does while other threads use the client.
-/
set_option linter.unusedSectionVars false
namespace Verif.Report
open Lru
variable {D : Type} [DoubleOps D] {E : Env} {cfg : AggConfig} {h : Hist D} {s s' : AggState (OpAgg D)}

theorem Reach.unique (r : Reach E cfg h s) : ∀ {s'}, Reach E cfg h s' → s = s' := by
  induction r with
  | init h0 =>
    intro s' r'
    cases r' with
    | init h1 => rw [h0] at h1; cases h1; rfl
  | call r hs ih =>
    rename_i h s c s1 st fl
    intro s' r'
    generalize he : (⟨c, st, fl, s.tick, s1.tick⟩ :: h : Hist D) = hh at r'
    cases r' with
    | init h1 => cases he
    | call r2 hs2 =>
      rename_i h2 s2 c2 st2 fl2
      simp only [List.cons.injEq, Event.mk.injEq] at he
      obtain ⟨⟨rfl, rfl, rfl, _, _⟩, rfl⟩ := he
      cases ih r2
      rw [hs] at hs2
      cases hs2; rfl

theorem Reach.tick_mono {a : Hist D} (r : Reach E cfg h s) : ∀ {s'}, Reach E cfg (a ++ h) s' → s.tick ≤ s'.tick := by
  induction a with
  | nil => intro s' r'; rw [r.unique r']
  | cons ev a ih =>
    intro s' r'
    have ht := r'.inv.ticks
    rw [List.cons_append] at r' ht
    generalize he : (ev :: (a ++ h) : Hist D) = hh at r'
    cases r' with
    | init h1 => cases he
    | call r2 hs2 =>
      rename_i h2 s2 c2 st2 fl2
      simp only [List.cons.injEq] at he
      obtain ⟨rfl, rfl⟩ := he
      have h1 := ih r2
      have h2 := ht _ List.mem_cons_self
      simp only at h2
      omega

/-- A list whose parts by key are within those of another. -/
theorem subperm_of_filters {α : Type} (f : α → Bytes) (A B : List α)
    (hAB : ∀ k, A.filter (fun a => f a == k) <+: B.filter (fun a => f a == k)) : A.Subperm B := by
  classical
  rw [List.subperm_ext_iff]
  intro a _
  have hc : ∀ l : List α, (l.filter (fun b => f b == f a)).count a = l.count a := by
    intro l
    rw [List.count_filter (by simp)]
  rw [← hc A, ← hc B]
  exact (hAB (f a)).sublist.count_le _

/-- What was merged into the operations that are out has its log entries there. -/
theorem logs_out {arr : List (Arrival D)} {out pend : List (Group D)} {outOps pendOps old : List (Operation D)}
    (p : Partition cfg arr out outOps pend pendOps)
    (hk : ∀ k, old.filter (fun o => reportOperationSig cfg.H o == k) <+: (out.filter (·.sig == k)).flatMap (·.ops)) :
    (old.flatMap (·.logEntries)).Subperm (outOps.flatMap (·.logEntries)) := by
  have hsig : ∀ g ∈ out, ∀ m ∈ g.members, reportOperationSig cfg.H m.op = g.sig := by
    have := p.out_sum
    generalize outOps = os at this
    clear p hk
    induction this with
    | nil => simp
    | cons h1 _ ih =>
      intro g hg
      rcases List.mem_cons.mp hg with rfl | hg
      · obtain ⟨_, _, _, _, _, _, h2⟩ := h1; exact h2
      · exact ih g hg
  have hlogs : outOps.flatMap (·.logEntries) = (out.flatMap (·.ops)).flatMap (·.logEntries) := by
    have := p.out_sum
    generalize outOps = os at this
    clear p hk hsig
    induction this with
    | nil => rfl
    | cons h1 _ ih =>
      obtain ⟨x, xs, a, hops, hagg, rfl, _⟩ := h1
      simp only [List.flatMap_cons, List.flatMap_append, ih]
      rw [(C19_log_entries cfg.H cfg.U cfg.kinds x xs a hagg).1, ← hops]
  have hsub : old.Subperm (out.flatMap (·.ops)) := by
    refine subperm_of_filters (fun o => reportOperationSig cfg.H o) _ _ (fun k => ?_)
    have h1 := filter_groups (fun a : Arrival D => reportOperationSig cfg.H a.op) out hsig k
    have h2 : (out.flatMap (·.ops)).filter (fun o => reportOperationSig cfg.H o == k) = (out.filter (·.sig == k)).flatMap (·.ops) := by
      have e : ∀ gs : List (Group D), gs.flatMap (·.ops) = (gs.flatMap (·.members)).map (·.op) := by
        intro gs; rw [List.map_flatMap]; rfl
      rw [e, e, List.filter_map, ← h1]; rfl
    rw [h2]
    exact hk k
  rw [hlogs]
  obtain ⟨l, hp, hs⟩ := hsub
  exact ⟨l.flatMap (·.logEntries), hp.flatMap_right _, hs.flatMap _⟩

end Verif.Report

namespace Verif.Threads
open Client Lru
variable {D : Type} [DoubleOps D] {K : Setup} {stops : Bool} {s s1 s2 s3 s' : Sys D}

theorem Later.reach (r : Reach K stops s) (l : Later K stops s s') : Reach K stops s' := by
  induction l with
  | refl => exact r
  | step _ hs ih => exact ih.step hs

theorem fires_append (a b : List (Ev D)) : fires (a ++ b) = fires a + fires b := by simp [fires]

theorem exec_fires {a : Act D} {new : List (Act D)} (h : exec K stops a s = some (.ok (s', new))) : fires s'.c.trace = fires s.c.trace := by
  have hC : ∀ {x s' out fl}, aggC K x s = .ok (s', out, fl) → s'.c.trace = s.c.trace := by
    intro x s' out fl h
    obtain ⟨_, _, rfl, _⟩ := aggC_ok h; rfl
  have hQ : ∀ {x s' out fl}, aggQ K x s = .ok (s', out, fl) → s'.c.trace = s.c.trace := by
    intro x s' out fl h
    obtain ⟨_, _, rfl, _⟩ := aggQ_ok h; rfl
  have hR : ∀ {x s' out fl}, aggR K x s = .ok (s', out, fl) → s'.c.trace = s.c.trace := by
    intro x s' out fl h
    obtain ⟨_, _, rfl, _⟩ := aggR_ok h; rfl
  have hfree : ∀ (own : List Nat) (c c' : Client D), c.freeAll own = .ok c' → c'.trace = c.trace := by
    intro own
    induction own with
    | nil => intro c c' h; cases h; rfl
    | cons p own ih =>
      intro c c' h
      simp only [Client.freeAll, List.foldlM_cons, bind, Except.bind] at h
      cases h1 : c.free p with
      | error e => rw [h1] at h; cases h
      | ok c1 =>
        rw [h1] at h
        have h2 := ih c1 c' h
        rw [h2]
        unfold Client.free at h1
        split at h1
        · cases h1; rfl
        · cases h1
  cases a with
  | user => simp only [exec] at h; cases h; rfl
  | start i c t =>
    simp only [exec, this, Option.some.injEq] at h
    split at h
    · cases h
    · cases h; rfl
  | agg i c =>
    simp only [exec, this, Option.some.injEq] at h
    split at h
    · cases h
    · cases c <;> simp only [runCall, bind, Except.bind] at h <;> split at h <;> first | (cases h; done) | skip
      all_goals
        rename_i hv
        cases h
        first | rw [hC hv] | rw [hQ hv] | rw [hR hv]
  | result i c st reply =>
    simp only [exec, this, Option.some.injEq] at h
    split at h
    · cases h
    · split at h
      · simp only [Except.ok.injEq, Prod.mk.injEq] at h
        obtain ⟨rfl, rfl⟩ := h
        have he := (allocCall_ok c s.c).eq
        show fires ((allocCall c s.c).2.trace ++ [_]) = _
        rw [he, fires_append]; rfl
      · cases h; rfl
  | count i' c' xs =>
    cases xs with
    | nil => simp only [exec] at h; cases h; rfl
    | cons x xs =>
      simp only [exec, this, Option.some.injEq] at h
      split at h
      · cases h
      · cases h; rfl
  | finish i c st reply via =>
    have : fires (s.c.done i c st reply via).trace = fires s.c.trace := by
      show fires (s.c.trace ++ [_]) = _
      rw [fires_append]; rfl
    simp only [exec] at h
    split at h
    · split at h <;> cases h
      exact this
    · cases h; exact this
  | setValue i st => simp only [exec] at h; cases h; rfl
  | wait i =>
    simp only [exec] at h
    split at h
    · cases h
    · cases h; rfl
  | fin p a =>
    simp only [exec, Option.some.injEq] at h
    unfold runFin at h
    simp only [bind, Except.bind] at h
    repeat' split at h
    all_goals first | (cases h; done) | (cases h; rfl) | skip
    all_goals
      rename_i hv
      cases h
      first | rw [hC hv] | rw [hQ hv]
  | free own th =>
    simp only [exec, bind, Except.bind, Option.some.injEq] at h
    split at h
    · cases h
    · split at h
      · cases h
      · rename_i c' hc'
        cases h
        rw [← hfree _ _ _ hc']
  | timer n =>
    simp only [exec, Option.some.injEq] at h
    unfold runTimer at h
    simp only [bind, Except.bind] at h
    repeat' split at h
    all_goals first | (cases h; done) | (cases h; rfl) | skip
    all_goals
      rename_i hv
      cases h
      first | rw [hC hv] | rw [hQ hv] | rw [hR hv]
  | destroy n =>
    simp only [exec] at h
    unfold runDestroy at h
    simp only [bind, Except.bind, unset] at h
    repeat' split at h
    all_goals first | (cases h; done) | (cases h; rfl) | skip
    all_goals first
      | (rename_i hv
         simp only [Option.some.injEq] at h
         cases h
         first | rw [hC hv] | rw [hQ hv] | rw [hR hv])
      | (cases h
         show fires (s.c.trace ++ [_]) = _
         rw [fires_append]; rfl)
  | flush c =>
    simp only [exec] at h
    split at h <;> cases h
    rfl
  | calling c =>
    simp only [exec] at h
    split at h
    · cases h; rfl
    · simp only [this, Option.some.injEq] at h
      split at h
      · cases h
      · split at h
        · cases h
        · simp only [Except.ok.injEq, Prod.mk.injEq] at h
          obtain ⟨rfl, rfl⟩ := h
          have he := (allocFlush_ok c s.c).eq
          show fires ((allocFlush c s.c).2.trace ++ [_]) = _
          rw [he, fires_append]; rfl
  | after k xs =>
    cases xs with
    | nil => simp only [exec] at h; cases h; rfl
    | cons x xs =>
      simp only [exec, this, Option.some.injEq] at h
      split at h
      · cases h
      · cases h; rfl

/-- What has happened since `s2`: a function called by the timer since then has yet to flush the report aggregator, or has done so. -/
theorem later_flushed {hc2 : Check.Hist D} {hq2 : Quota.Hist D} {hr2 : Report.Hist D} (r2 : Reach K stops s2) (k2 : Links K hc2 hq2 hr2 s2.acts s2)
    (l : Later K stops s2 s3) :
    ∃ hc hq hr, Links K hc hq hr s3.acts s3 ∧ hr2 <:+ hr ∧
      (fires s2.c.trace < fires s3.c.trace → (∃ n, n ≤ 2 ∧ Act.timer n ∈ s3.acts) ∨ ∃ ev ∈ hr, ev.call = .flush ∧ s2.c.report.tick ≤ ev.first) := by
  induction l with
  | refl => exact ⟨hc2, hq2, hr2, k2, List.suffix_refl _, fun h => absurd h (Nat.lt_irrefl _)⟩
  | step l hs ih =>
    rename_i sa sb
    obtain ⟨hc, hq, hr, k, hsuf, hP⟩ := ih
    have ra := Later.reach r2 l
    have keep : ∀ {hc' hq' hr'}, Grow hc hq hr hc' hq' hr' → Links K hc' hq' hr' sb.acts sb → fires sb.c.trace = fires sa.c.trace →
        (∀ n, n ≤ 2 → Act.timer n ∈ sa.acts → Act.timer n ∈ sb.acts) →
        ∃ hc hq hr, Links K hc hq hr sb.acts sb ∧ hr2 <:+ hr ∧
          (fires s2.c.trace < fires sb.c.trace → (∃ n, n ≤ 2 ∧ Act.timer n ∈ sb.acts) ∨ ∃ ev ∈ hr, ev.call = .flush ∧ s2.c.report.tick ≤ ev.first) := by
      intro hc' hq' hr' g k' hf ht
      refine ⟨hc', hq', hr', k', hsuf.trans g.r, fun h => ?_⟩
      rw [hf] at h
      rcases hP h with ⟨n, hn, hm⟩ | ⟨ev, hev, h2⟩
      · exact .inl ⟨n, hn, ht n hn hm⟩
      · exact .inr ⟨ev, g.r.subset hev, h2⟩
    have hpush : ∀ {l1 l2 : List (List (Act D))} {t : List (Act D)} (new : List (Act D)), sa.threads = l1 ++ t :: l2 → sb.threads = l1 ++ (new ++ t) :: l2 →
        ∀ x, x ∈ sa.acts → x ∈ sb.acts := by
      intro l1 l2 t new h1 h2 x hx
      unfold Sys.acts at hx ⊢
      rw [h1] at hx
      rw [h2]
      exact acts_push.mem_iff.mpr (List.mem_append_right _ hx)
    obtain ⟨hc', hq', hr', g, k'⟩ := step_links ra.inv k hs
    cases hs with
    | work hth hex =>
      rename_i l1 a t l2 s' new
      have hperm : (a :: (t ++ (l1 ++ l2).flatten)).Perm sa.acts := by
        unfold Sys.acts; rw [hth]
        exact (acts_at (t := a :: t)).symm
      have hperm' : (new ++ (t ++ (l1 ++ l2).flatten)).Perm (l1 ++ (new ++ t) :: l2).flatten := by
        refine List.Perm.symm (acts_at.trans ?_)
        rw [List.append_assoc]
      have hf : fires s'.c.trace = fires sa.c.trace := exec_fires hex
      have hoth : ∀ x, x ≠ a → x ∈ sa.acts → x ∈ (l1 ++ (new ++ t) :: l2).flatten := by
        intro x hx hm
        rcases List.mem_cons.mp (hperm.mem_iff.mpr hm) with h | h
        · exact absurd h hx
        · exact hperm'.mem_iff.mp (List.mem_append_right _ h)
      by_cases hat : ∃ n, a = .timer n
      · obtain ⟨n, rfl⟩ := hat
        have hrun : runTimer K n sa = .ok (s', new) := by simpa only [exec, Option.some.injEq] using hex
        obtain ⟨hc4, hq4, hr4, ⟨g4, hfl, _⟩, k4⟩ := (k.perm hperm).tmr hrun
        have k5 := (k4.threads (l1 ++ (new ++ t) :: l2)).perm hperm'.symm
        by_cases hn : n ≤ 1
        · have hnew : ∃ m, m ≤ 2 ∧ Act.timer m ∈ new := by
            unfold runTimer at hrun
            simp only [bind, Except.bind] at hrun
            split at hrun
            · split at hrun
              · cases hrun
              · cases hrun; exact ⟨1, by omega, by simp⟩
            · split at hrun
              · cases hrun
              · cases hrun; exact ⟨2, by omega, by simp⟩
            · omega
            · rename_i h0 h1 h2
              have : n ≠ 0 := h0
              have : n ≠ 1 := h1
              omega
          obtain ⟨m, hm, hmn⟩ := hnew
          exact ⟨hc4, hq4, hr4, k5, hsuf.trans g4.r, fun _ => .inl ⟨m, hm, hperm'.mem_iff.mp (List.mem_append_left _ hmn)⟩⟩
        · by_cases hn2 : n = 2
          · obtain ⟨ev, hev, hcall, hfirst⟩ := hfl hn2
            refine ⟨hc4, hq4, hr4, k5, hsuf.trans g4.r, fun _ => .inr ⟨ev, hev, hcall, ?_⟩⟩
            rw [hfirst]
            obtain ⟨pre, rfl⟩ := hsuf
            exact Report.Reach.tick_mono (s' := sa.c.report.setFlushCallback true) k2.r.reach k.r.reach
          · refine keep g4 k5 hf (fun m hm hmem => ?_)
            exact hoth _ (by intro h; cases h; omega) hmem
      · exact keep g k' hf (fun m hm hmem => hoth _ (fun h => hat ⟨m, h.symm⟩) hmem)
    | @call l1 t l2 c tr hth hfree hdy =>
      exact keep g k' (by show fires (sa.c.trace ++ [_]) = _; rw [fires_append]; rfl) (fun n _ => hpush [_] hth rfl _)
    | @sync l1 t l2 c hth hfree hdy =>
      exact keep g k' (by show fires (sa.c.trace ++ [_]) = _; rw [fires_append]; rfl) (fun n _ => hpush [_, _] hth rfl _)
    | @complete l1 t l2 id a p c' hth hfree htake =>
      obtain ⟨he, _⟩ := ra.inv.books.take htake
      refine keep g k' ?_ (fun n _ => hpush [_] hth rfl _)
      show fires c'.trace = _
      rw [he]
      show fires (sa.c.trace ++ [_]) = _
      rw [fires_append]; rfl
    | @fire l1 t l2 hth hfree htm =>
      refine ⟨hc', hq', hr', k', hsuf.trans g.r, fun _ => .inl ⟨0, by omega, ?_⟩⟩
      unfold Sys.acts
      exact List.mem_flatten.mpr ⟨.timer 0 :: t, by simp, List.mem_cons_self⟩
    | @destroy l1 t l2 hth hfree hdy hapi =>
      exact keep g k' rfl (fun n _ => hpush [_] hth rfl _)
    | spawn =>
      refine keep g k' rfl (fun n _ hm => ?_)
      unfold Sys.acts at hm ⊢
      simpa using hm

/-- C97: under every schedule, once the timer has called its function and that has returned, every accepted operation that had been in the
cache for longer than the flush interval is part of exactly one operation that was given to the transport, is on its way to the flush callback, or was
passed on after the callback was unset.  `s1` is any moment, all of whose clock readings are older than the flush interval at a
later moment `s2`; since then the timer has called its function, and in `s3` none of its calls is running. -/
theorem C97_reports_sent (r : Reach K stops s1) (l12 : Later K stops s1 s2) (l23 : Later K stops s2 s3)
    (hf : fires s2.c.trace < fires s3.c.trace) (hidle : s3.timers = 0) (m : Mono K.envR.clk) (hfl : 0 ≤ K.cfgR.flushMs)
    (hold : ∀ i, i < s1.c.report.tick → K.envR.clk i + K.cfgR.cyc K.cfgR.flushMs.toNat < K.envR.clk s2.c.report.tick) :
    ∃ (old : List (Operation D)) (arr : List (Report.Arrival D)) (out : List (Report.Group D)) (sent : List (Operation D)) (pend : List (Report.Group D)),
      old.Perm (acceptedOps s1.c.trace ++ promised s1) ∧ (arr.map (·.op)).Perm (acceptedOps s3.c.trace ++ promised s3) ∧
      sent.Perm ((flushedReports s3.c.trace ++ carried s3 ++ lost s3).flatMap (·.operations)) ∧
      Report.Partition K.cfgR arr out sent pend (Report.cachedOps K.cfgR s3.c.report) ∧
      ∀ k, old.filter (fun o => reportOperationSig K.cfgR.H o == k) <+: (out.filter (·.sig == k)).flatMap (·.ops) := by
  obtain ⟨hc1, hq1, hr1, k1⟩ := r.links
  have r2 := Later.reach r l12
  have r3 := Later.reach r2 l23
  obtain ⟨hc2, hq2, hr2, k2, hs12, _⟩ := later_flushed r k1 l12
  obtain ⟨hc3, hq3, hr3, k3, hs23, hP⟩ := later_flushed r2 k2 l23
  rcases hP hf with ⟨n, _, hm⟩ | ⟨ev, hev, hcall, hfirst⟩
  · have := r3.shut.timers
    rw [hidle] at this
    exact absurd rfl (List.countP_eq_zero.mp this.symm _ hm)
  · obtain ⟨arr, out, pend, ha, hp, hk⟩ := Report.sent_since_flush m k1.r.reach k3.r.reach (hs12.trans hs23) hfl hev hcall (fun i hi => by
      have h1 := hold i hi
      have h2 : K.envR.clk s2.c.report.tick ≤ K.envR.clk ev.first := m.le hfirst
      omega)
    have e1 := k1.acc
    have e3 := k3.acc
    rw [promised_eq] at e1 e3
    refine ⟨Report.acceptedOps hr1, arr, out, Report.flushedOps hr3, pend, e1.symm, ?_, (sent_perm rfl k3).symm, hp, hk⟩
    rw [Report.arrivals_ops ha]
    exact e3.symm

/-- C97: the log entries of those operations have been given to the transport, or are on their way to the flush callback, or were passed on
after the callback was unset. -/
theorem C97_log_entries_sent (r : Reach K stops s1) (l12 : Later K stops s1 s2) (l23 : Later K stops s2 s3)
    (hf : fires s2.c.trace < fires s3.c.trace) (hidle : s3.timers = 0) (m : Mono K.envR.clk) (hfl : 0 ≤ K.cfgR.flushMs)
    (hold : ∀ i, i < s1.c.report.tick → K.envR.clk i + K.cfgR.cyc K.cfgR.flushMs.toNat < K.envR.clk s2.c.report.tick) :
    ((acceptedOps s1.c.trace ++ promised s1).flatMap (·.logEntries)).Subperm
      (((flushedReports s3.c.trace ++ carried s3 ++ lost s3).flatMap (·.operations)).flatMap (·.logEntries)) := by
  obtain ⟨old, arr, out, sent, pend, h1, _, h3, h4, h5⟩ := C97_reports_sent r l12 l23 hf hidle m hfl hold
  exact ((h1.symm.flatMap_right _).subperm.trans (Report.logs_out h4 h5)).trans (h3.flatMap_right _).subperm

/-! ### Example -/

theorem moves_later {ms : List (Move D)} : ∀ {s s' : Sys D}, ms.foldlM (fun s m => m.run K stops s) s = some s' → Later K stops s s' := by
  have hgen : ∀ (ms : List (Move D)) (s0 s1 s2 : Sys D), Later K stops s0 s1 → ms.foldlM (fun s m => m.run K stops s) s1 = some s2 → Later K stops s0 s2 := by
    intro ms
    induction ms with
    | nil => intro s0 s1 s2 l h; simp only [List.foldlM_nil, pure] at h; cases h; exact l
    | cons m ms ih =>
      intro s0 s1 s2 l h
      simp only [List.foldlM_cons, bind, Option.bind] at h
      split at h
      · cases h
      · rename_i s' hs'
        exact ih _ _ _ (l.step (Move.run_step hs')) h
  exact fun {_ _} h => hgen ms _ _ _ .refl h

/-- The report waits in the cache for longer than the flush interval; while the function called by the timer runs, another thread calls
`Check`. -/
example : ∃ s1 s3, Reach exKJ true s1 ∧ Later exKJ true s1 s3 ∧ fires s1.c.trace < fires s3.c.trace ∧ s3.timers = 0 ∧
    (∀ i, i < s1.c.report.tick → exKJ.envR.clk i + exKJ.cfgR.cyc exKJ.cfgR.flushMs.toNat < exKJ.envR.clk s1.c.report.tick) ∧
    acceptedOps s1.c.trace = [Report.exNamed 1 2] ∧ flushedReports s1.c.trace = [] ∧ (flushedReports s3.c.trace).length = 1 ∧
    s3.threads.length = 2 := by
  obtain ⟨s, r, h⟩ := schedule_case (K := exKJ) (stops := true)
    ([.spawn, .spawn, .call 0 (exReport 1 2) .default] ++ steps 0 5)
    (fun s => s.c.report.tick = 3 ∧ acceptedOps s.c.trace = [Report.exNamed 1 2] ∧ flushedReports s.c.trace = [] ∧
      (match ([.fire 1, .work 1, .call 0 (exCheck 1 5) .default] ++ steps 0 2 ++ steps 1 9 : List (Move Int)).foldlM (fun s m => m.run exKJ true s) s with
      | some s3 => decide (fires s.c.trace < fires s3.c.trace ∧ s3.timers = 0 ∧ (flushedReports s3.c.trace).length = 1 ∧ s3.threads.length = 2)
      | none => false) = true) (by decide +kernel)
  obtain ⟨h1, h2, h3, h4⟩ := h
  split at h4
  · rename_i s3 hs3
    obtain ⟨g1, g2, g3, g4⟩ := of_decide_eq_true h4
    refine ⟨s, s3, r, moves_later hs3, g1, g2, ?_, h2, h3, g3, g4⟩
    clear * - h1
    intro i hi
    rw [h1] at hi ⊢
    have e1 : exKJ.envR.clk i = 0 := if_pos hi
    rw [e1]
    decide
  · cases h4

end Verif.Threads
