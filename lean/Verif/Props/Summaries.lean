import Verif.Props.ThreadChecks
/-
C120: every operation sent from a cache is a summary of operations the client accepted, each of which is in exactly one.
-/
set_option linter.unusedSectionVars false
namespace Verif

/-- What the operation `o` should say about the operations `g`, added in this order. -/
structure Summary {D : Type} (H : Bytes → Bytes) (kinds : MetricKinds) (g : List (Operation D)) (o : Operation D) : Prop where
  /-- The window is the hull of the windows. -/
  first : IsEarliest (g.map (·.startTime)) o.startTime
  last : IsLatest (g.map (·.endTime)) o.endTime
  /-- All log entries, in order. -/
  logs : o.logEntries = g.flatMap (·.logEntries)
  /-- Each metric once. -/
  names_nodup : (o.metricValueSets.map (·.name)).Nodup
  names : ∀ n, n ∈ o.metricValueSets.map (·.name) ↔ n ∈ namesOf g
  /-- Each label set once. -/
  labels : ∀ n k, reported H g n k ≠ [] ↔ ∃ v, reported H [o] n k = [v]
  others : ∀ n k, reported H g n k = [] → reported H [o] n k = []
  /-- Integer totals. -/
  delta : ∀ n k v, IsDelta kinds n → (∀ x ∈ reported H g n k, IsInt x) → reported H [o] n k = [v] →
    v.value = .int64 ((reported H g n k).map intOf).sum ∧ IsEarliest ((reported H g n k).map (·.startTime)) v.startTime ∧
      IsLatest ((reported H g n k).map (·.endTime)) v.endTime
  /-- The latest of the others. -/
  gauge : ∀ n k v, ¬ IsDelta kinds n → reported H [o] n k = [v] → v ∈ reported H g n k ∧ ∀ x ∈ reported H g n k, ¬ Earlier v.endTime x.endTime
  /-- Everything else is as in the first. -/
  rest : ∃ x xs, g = x :: xs ∧ ∃ st en logs sets, o = { x with startTime := st, endTime := en, logEntries := logs, metricValueSets := sets }

section
variable {D : Type} [DoubleOps D]

theorem earlier_asymm {a b : Option Timestamp} (h : Earlier a b) : ¬ Earlier b a := by
  unfold Earlier at h ⊢
  cases a <;> cases b <;> simp only at h ⊢ <;> omega

theorem aggregate_summary (H : Bytes → Bytes) (U : UMapOrder) (kinds : MetricKinds) (o : Operation D) (os : List (Operation D)) (a : OpAgg D)
    (h : OpAgg.aggregate H kinds o os = .ok a) : Summary H kinds (o :: os) (a.toProto U) := by
  obtain ⟨s1, s2, _, s4⟩ := C20_shape H U kinds o os a h
  obtain ⟨w1, w2⟩ := C17_time_window H U kinds o os a h
  have key : ∀ n k, (reported H (o :: os) n k = [] ∧ reported H [a.toProto U] n k = []) ∨
      (reported H (o :: os) n k ≠ [] ∧ ∃ v, reported H [a.toProto U] n k = [v]) := by
    intro n k
    rw [Report.reported_one]
    rcases listed_fold H U kinds o os a h n k with ⟨h1, h2⟩ | ⟨w, ws, r, h1, _, h3⟩
    · exact .inl ⟨h1, h2⟩
    · exact .inr ⟨by rw [h1]; simp, r, h3⟩
  refine ⟨w1, w2, (C19_log_entries H U kinds o os a h).1, s1, s2, fun n k => ?_, fun n k h1 => ?_, fun n k v hk hi hv => ?_,
    fun n k v hk hv => ?_, o, os, rfl, s4⟩
  · rcases key n k with ⟨h1, h2⟩ | ⟨h1, h2⟩
    · rw [h2]; simp [h1]
    · exact ⟨fun _ => h2, fun _ => h1⟩
  · rcases key n k with ⟨_, h2⟩ | ⟨h2, _⟩
    · exact h2
    · exact absurd h1 h2
  · have hne : reported H (o :: os) n k ≠ [] := by
      rcases key n k with ⟨_, h2⟩ | ⟨h2, _⟩
      · rw [h2] at hv; cases hv
      · exact h2
    obtain ⟨r, e1, e2, e3, e4, _⟩ := (C16_delta_int_sum H U kinds o os a h n k hk hi).2 hne
    rw [Report.reported_one, e1] at hv
    cases hv
    exact ⟨e2, e3, e4⟩
  · have hne : reported H (o :: os) n k ≠ [] := by
      rcases key n k with ⟨_, h2⟩ | ⟨h2, _⟩
      · rw [h2] at hv; cases hv
      · exact h2
    obtain ⟨r, pre, post, e1, e2, e3, e4⟩ := C18_gauge_latest H U kinds o os a h n k hk hne
    rw [Report.reported_one, e1] at hv
    cases hv
    rw [e2]
    refine ⟨by simp, fun x hx => ?_⟩
    rcases List.mem_append.mp hx with hx | hx
    · exact e3 x hx
    · rcases List.mem_cons.mp hx with rfl | hx
      · intro h; exact earlier_asymm h h
      · exact earlier_asymm (e4 x hx)

/-- The operations `ins` split into groups of operations that are `alike`, each with a summary in `outs`. -/
def Summed (H : Bytes → Bytes) (kinds : MetricKinds) (alike : Operation D → Operation D → Prop) (ins outs : List (Operation D)) : Prop :=
  ∃ gs : List (List (Operation D)), gs.flatten.Perm ins ∧
    List.Forall₂ (fun g o => Summary H kinds g o ∧ ∀ p ∈ g, ∀ q ∈ g, alike p q) gs outs

theorem Summed.perm {H : Bytes → Bytes} {kinds : MetricKinds} {alike : Operation D → Operation D → Prop} {a a' b b' : List (Operation D)}
    (p : a.Perm a') (q : b.Perm b') (h : Summed H kinds alike a b) : Summed H kinds alike a' b' := by
  obtain ⟨gs, k1, k2⟩ := h
  obtain ⟨gs', k3, k4⟩ := List.perm_comp_forall₂ q.symm k2.flip
  exact ⟨gs', (k4.flatten.trans k1).trans p, k3.flip⟩

/-- Operations of one name, consumer and labels, unless there are hash collisions or zero bytes. -/
def AlikeReports (H : Bytes → Bytes) (p q : Operation D) : Prop :=
  p.Clean → q.Clean → SameReportIdentity p q ∨ ∃ x y, x ≠ y ∧ H x = H y

/-- Operations of one check signature. -/
def AlikeChecks (H : Bytes → Bytes) (p q : Operation D) : Prop :=
  ∀ a b : CheckRequest D, a.operation = some p → b.operation = some q → checkRequestSig H a = checkRequestSig H b

/-- C120 for the report cache. -/
theorem C120_report_cache {E : Lru.Env} {cfg : AggConfig} {h : Report.Hist D} {s : AggState (OpAgg D)} (r : Report.Reach E cfg h s) :
    Summed cfg.H cfg.kinds (AlikeReports cfg.H) (Report.acceptedOps h) (Report.flushedOps h ++ Report.cachedOps cfg s) := by
  obtain ⟨arr, out, pend, ha, hp, _⟩ := Report.C41_groups r
  refine ⟨(out ++ pend).map (·.ops), ?_, ?_⟩
  · rw [← Report.arrivals_ops ha, ← List.flatMap_def]
    have : (out ++ pend).flatMap (·.ops) = ((out ++ pend).flatMap (·.members)).map (·.op) := by
      rw [List.map_flatMap]; rfl
    rw [this]
    exact (hp.perm.map _).symm
  · rw [List.forall₂_map_left_iff]
    refine (List.rel_append hp.out_sum hp.pend_sum).imp fun g o hs => ?_
    obtain ⟨x, xs, a, hgo, hagg, rfl, hsig⟩ := hs
    refine ⟨by rw [hgo]; exact aggregate_summary cfg.H cfg.U cfg.kinds x xs a hagg, fun p hp q hq cp cq => ?_⟩
    obtain ⟨m, hm, rfl⟩ := List.mem_map.mp hp
    obtain ⟨m', hm', rfl⟩ := List.mem_map.mp hq
    exact C12_report_signature_injective cfg.H _ _ cp cq ((hsig m hm).trans (hsig m' hm').symm)

theorem Check.absorbed_sig {cfg : AggConfig} {h : Check.Hist D} {k : Bytes} {o : Operation D} (hm : (k, o) ∈ Check.absorbed cfg h)
    (a : CheckRequest D) (ha : a.operation = some o) : checkRequestSig cfg.H a = k := by
  induction h with
  | nil => cases hm
  | cons ev h ih =>
    rcases List.mem_append.mp hm with hm | hm
    · exact ih hm
    · unfold absorbedBy at hm
      split at hm
      · rename_i r _
        split at hm
        · rename_i o' p ho _
          split at hm
          · cases List.mem_singleton.mp hm
            unfold checkRequestSig checkRequestBytes CheckRequest.op
            rw [ha, ho]
          · cases hm
        · cases hm
      · cases hm

/-- C120 for the check cache. -/
theorem C120_check_cache {E : Lru.Env} {cfg : AggConfig} {h : Check.Hist D} {s : AggState (Check.Elem D)} (r : Check.Reach E cfg h s) :
    Summed cfg.H cfg.kinds (AlikeChecks cfg.H) ((Check.absorbed cfg h).map (·.2)) (Check.flushedOps h ++ Check.pendingOps cfg s) := by
  obtain ⟨out, pend, hp, _⟩ := Check.C36_groups r
  have hmem : ∀ g ∈ out ++ pend, ∀ p ∈ g.ops, (g.sig, p) ∈ Check.absorbed cfg h := by
    intro g hg p hpg
    have e := hp.split g.sig
    have : p ∈ ((Check.absorbed cfg h).filter (fun a => a.1 == g.sig)).map (·.2) := by
      rw [e]
      rcases List.mem_append.mp hg with hg | hg
      · exact List.mem_append_left _ (List.mem_flatMap.mpr ⟨g, List.mem_filter.mpr ⟨hg, by simp⟩, hpg⟩)
      · exact List.mem_append_right _ (List.mem_flatMap.mpr ⟨g, List.mem_filter.mpr ⟨hg, by simp⟩, hpg⟩)
    obtain ⟨⟨k, p'⟩, h1, rfl⟩ := List.mem_map.mp this
    obtain ⟨h1, h2⟩ := List.mem_filter.mp h1
    simp only [beq_iff_eq] at h2
    rw [← h2]
    exact h1
  refine ⟨(out ++ pend).map (·.ops), ?_, ?_⟩
  · rw [← List.flatMap_def]
    exact hp.perm.symm
  · rw [List.forall₂_map_left_iff]
    have : List.Forall₂ _ (out ++ pend) (Check.flushedOps h ++ Check.pendingOps cfg s) := List.rel_append hp.out_sum hp.pend_sum
    generalize out ++ pend = gs at hmem this
    generalize Check.flushedOps h ++ Check.pendingOps cfg s = os at this
    induction this with
    | nil => exact .nil
    | @cons g o gs os hs _ ih =>
      refine .cons ?_ (ih fun g hg => hmem g (List.mem_cons_of_mem _ hg))
      obtain ⟨x, xs, a, hgo, hagg, rfl⟩ := hs
      refine ⟨by rw [hgo]; exact aggregate_summary cfg.H cfg.U cfg.kinds x xs a hagg, fun p hp q hq a b ha hb => ?_⟩
      exact (Check.absorbed_sig (hmem g List.mem_cons_self p hp) a ha).trans (Check.absorbed_sig (hmem g List.mem_cons_self q hq) b hb).symm

/-- C120: under every schedule, the operations answered OK at once, or about to be, are summed in what flushes sent, what is on its way to the
flush callback, what was passed on after the callback was unset, and what is cached. -/
theorem C120_reports {K : Client.Setup} {stops : Bool} {s : Threads.Sys D} (r : Threads.Reach K stops s) :
    Summed K.cfgR.H K.cfgR.kinds (AlikeReports K.cfgR.H) (Client.acceptedOps s.c.trace ++ Threads.promised s)
      ((Client.flushedReports s.c.trace ++ Threads.carried s ++ Threads.lost s).flatMap (·.operations) ++
        Report.cachedOps K.cfgR s.c.report) := by
  obtain ⟨hc, hq, hr, l⟩ := r.links
  have e1 := Threads.sent_perm rfl l
  have e2 := l.acc
  rw [Threads.promised_eq] at e2
  exact (C120_report_cache l.r.reach).perm e2.symm (e1.symm.append_right _)

/-- C120: once the destructor has returned, what flushes sent are summaries of all operations accepted. -/
theorem C120_all_sent {K : Client.Setup} {s : Threads.Sys D} (r : Threads.Reach K true s) (hd : Client.Ev.destroyed ∈ s.c.trace) :
    Summed K.cfgR.H K.cfgR.kinds (AlikeReports K.cfgR.H) (Client.acceptedOps s.c.trace)
      ((Client.flushedReports s.c.trace).flatMap (·.operations)) := by
  obtain ⟨h1, h2, h3, h4⟩ := Threads.nothing_left r hd
  have := C120_reports r
  rw [h1, h2, h3, h4, List.append_nil, List.append_nil, List.append_nil, List.append_nil] at this
  exact this

/-- C120 for checks: under every schedule, the operations of checks answered positively from the cache, or about to be, together with those
of some checks that were also given to a transport, are summed in what flushes sent, what is on its way, what was passed on after
the callback was unset, and what is cached. -/
theorem C120_checks {K : Client.Setup} {stops : Bool} {s : Threads.Sys D} (r : Threads.Reach K stops s) :
    ∃ again : List (CheckRequest D), again.Subperm (Threads.passedChecks s.c.trace ++ Threads.passedSoon s) ∧
      (∀ q ∈ again, Threads.Approved K.cfgC.H (checkRequestSig K.cfgC.H q) s.c.trace) ∧
      Summed K.cfgC.H K.cfgC.kinds (AlikeChecks K.cfgC.H) (Threads.heldOps s.c.trace ++ Threads.heldSoon s ++ again.filterMap (·.operation))
        ((Client.flushedChecks s.c.trace ++ Threads.carriedChecks s ++ Threads.lostChecks s).filterMap (·.operation) ++
          Check.pendingOps K.cfgC s.c.check) := by
  obtain ⟨hc, hq, hr, l⟩ := r.links
  obtain ⟨again, h1, h2, h3⟩ := Threads.absorbed_from l
  have h4 := Threads.sentC_perm l
  exact ⟨again, h1, h2, (C120_check_cache l.c.reach).perm h3 (h4.symm.append_right _)⟩

/-- C120 for checks: when the destructor has returned and no thread has a check of the cache in its hands, nor was one dropped, then what
flushes sent are summaries of what was held back.  What is missing: as for C98. -/
theorem C120_checks_all_sent_partial {K : Client.Setup} {stops : Bool} {s : Threads.Sys D} (r : Threads.Reach K stops s)
    (hd : Client.Ev.destroyed ∈ s.c.trace) (h1 : Threads.carriedChecks s = []) (h2 : Threads.lostChecks s = []) :
    ∃ again : List (CheckRequest D), again.Subperm (Threads.passedChecks s.c.trace) ∧
      (∀ q ∈ again, Threads.Approved K.cfgC.H (checkRequestSig K.cfgC.H q) s.c.trace) ∧
      Summed K.cfgC.H K.cfgC.kinds (AlikeChecks K.cfgC.H) (Threads.heldOps s.c.trace ++ again.filterMap (·.operation))
        ((Client.flushedChecks s.c.trace).filterMap (·.operation)) := by
  obtain ⟨g1, g2, g3⟩ := Threads.no_checks_left r hd
  obtain ⟨again, k1, k2, k3⟩ := C120_checks r
  rw [g1, g2, h1, h2, List.append_nil, List.append_nil, List.append_nil, List.append_nil] at k3
  rw [g3, List.append_nil] at k1
  exact ⟨again, k1, k2, k3⟩

end

/-- A report of one operation. -/
def exOneReport (o : Operation Int) : Client.Call Int := .report ⟨[115], [o], [49]⟩

/-- What one sees of an operation. -/
structure ExSeen where
  name : Bytes
  first : Option Timestamp
  last : Option Timestamp
  logs : Nat
  values : List (Value Int)
  deriving DecidableEq

def exShown (o : Operation Int) : ExSeen :=
  ⟨o.operationName, o.startTime, o.endTime, o.logEntries.length, o.metricValueSets.flatMap fun t => t.values.map (·.value)⟩

/-- A case of `C120_all_sent`: two threads report three operations, two of them alike; the destructor sends two. -/
example : ∃ s, Threads.Reach Client.exK true s ∧ Client.Ev.destroyed ∈ s.c.trace ∧
    (Client.acceptedOps s.c.trace).map exShown =
      [⟨[110], some ⟨3, 0⟩, some ⟨10, 0⟩, 1, [.int64 5]⟩, ⟨[110], some ⟨1, 0⟩, some ⟨20, 0⟩, 1, [.int64 7]⟩, ⟨[1], some ⟨1, 0⟩, some ⟨2, 0⟩, 1, [.int64 4]⟩] ∧
    ((Client.flushedReports s.c.trace).flatMap (·.operations)).map exShown =
      [⟨[110], some ⟨1, 0⟩, some ⟨20, 0⟩, 2, [.int64 12]⟩, ⟨[1], some ⟨1, 0⟩, some ⟨2, 0⟩, 1, [.int64 4]⟩] :=
  Threads.schedule_case
    ([.spawn, .spawn, .call 0 (exOneReport (exOp 5 3 10)) .default, .call 1 (exOneReport (exOp 7 1 20)) .default, .work 0, .work 1] ++
      Threads.steps 0 4 ++ Threads.steps 1 4 ++ [.call 0 (exOneReport (Report.exNamed 1 4)) .default] ++ Threads.steps 0 5 ++
      [.destroy 0] ++ Threads.steps 0 15) _ (by decide +kernel)

/-- A client that keeps one response for long. -/
def exLong : Client.Setup := { Client.exK with cfgC := { Check.exCfg with numEntries := 1, flushMs := 100, expirationMs := 200 } }

/-- A check of one operation. -/
def exOneCheck (o : Operation Int) : Client.Call Int := .check ⟨[115], some o, [49], []⟩

/-- A case of `C120_checks_all_sent_partial`: one check is answered by its transport, two from the cache; the destructor sends one. -/
example : ∃ s, Threads.Reach exLong true s ∧ Client.Ev.destroyed ∈ s.c.trace ∧ Threads.carriedChecks s = [] ∧ Threads.lostChecks s = [] ∧
    (Threads.heldOps s.c.trace).map exShown = [⟨[110], some ⟨1, 0⟩, some ⟨20, 0⟩, 1, [.int64 7]⟩, ⟨[110], some ⟨2, 0⟩, some ⟨9, 0⟩, 1, [.int64 1]⟩] ∧
    ((Client.flushedChecks s.c.trace).filterMap (·.operation)).map exShown = [⟨[110], some ⟨1, 0⟩, some ⟨20, 0⟩, 2, [.int64 8]⟩] :=
  Threads.schedule_case
    ([.spawn, .spawn, .call 0 (exOneCheck (exOp 5 3 10)) .default] ++ Threads.steps 0 6 ++ [.complete 1 0 Client.exOk] ++ Threads.steps 1 4 ++
      [.call 0 (exOneCheck (exOp 7 1 20)) .default] ++ Threads.steps 0 5 ++ [.call 0 (exOneCheck (exOp 1 2 9)) .default] ++ Threads.steps 0 5 ++
      [.destroy 0] ++ Threads.steps 0 14) _ (by decide +kernel)

end Verif
