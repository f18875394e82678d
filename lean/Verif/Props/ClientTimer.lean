import Verif.Props.Client
import Verif.Props.QuotaTimer
import Mathlib.Data.List.TakeWhile
/-
What a tick of the flush timer does.
-/
set_option linter.unusedSectionVars false

namespace Verif.Report
open Lru
variable {D : Type} [DoubleOps D] {E : Env} {cfg : AggConfig} {h h1 : Hist D} {s s1 s' : AggState (OpAgg D)}

theorem accepted_mem : ∀ (h : Hist D) (x), x ∈ accepted h → ∃ ev ∈ h, x.2.1 = ev.first ∧ x.2.2 = ev.last
  | [], x, hx => by cases hx
  | ev :: h, x, hx => by
    unfold accepted at hx
    rcases List.mem_append.mp hx with hx | hx
    · obtain ⟨e, he, h1⟩ := accepted_mem h x hx
      exact ⟨e, List.mem_cons_of_mem _ he, h1⟩
    · refine ⟨ev, List.mem_cons_self, ?_⟩
      cases hc : ev.call with
      | report r =>
        rw [hc] at hx
        simp only at hx
        split at hx
        · obtain ⟨o, _, rfl⟩ := List.mem_map.mp hx
          exact ⟨rfl, rfl⟩
        · cases hx
      | flush => rw [hc] at hx; cases hx
      | flushAll => rw [hc] at hx; cases hx

theorem accepted_suffix (hs : h1 <:+ h) : accepted h1 <+: accepted h := by
  obtain ⟨t, rfl⟩ := hs
  induction t with
  | nil => exact List.prefix_refl _
  | cons ev t ih =>
    refine ih.trans ?_
    rw [List.cons_append]
    conv => rhs; unfold accepted
    exact List.prefix_append _ _

theorem append_split {α : Type} {a b c d : List α} (h : a ++ b = c ++ d) : a <+: c ∨ ∃ x t, d = x :: t ∧ x ∈ a := by
  rcases List.append_eq_append_iff.mp h with ⟨e, h1, h2⟩ | ⟨e, h1, h2⟩
  · exact .inl ⟨e, h1.symm⟩
  · cases e with
    | nil => exact .inl ⟨[], by simpa using h1⟩
    | cons x t =>
      right
      refine ⟨x, t ++ b, by simpa using h2, ?_⟩
      rw [h1]; simp

/-- If no pending group is older than the flush interval, then everything accepted earlier is in the groups that are out. -/
theorem out_covers (r1 : Reach E cfg h1 s1) (hsuf : h1 <:+ h) {arr : List (Arrival D)} {out pend : List (Group D)} {outOps pendOps : List (Operation D)}
    (ha : ArrivalsAt h arr) (hp : Partition cfg arr out outOps pend pendOps) {now lim : Int}
    (hyoung : ∀ g ∈ pend, ∃ a, g.members.head? = some a ∧ now ≤ E.clk a.tick + lim) (hold : ∀ i, i < s1.tick → E.clk i + lim < now) (k : Bytes) :
    (acceptedOps h1).filter (fun o => reportOperationSig cfg.H o == k) <+: (out.filter (·.sig == k)).flatMap (·.ops) := by
  obtain ⟨rest, hrest⟩ := accepted_suffix hsuf
  unfold ArrivalsAt at ha
  rw [← hrest] at ha
  have f1 := List.forall₂_take_append _ _ _ ha
  set arr1 := arr.take (accepted h1).length with harr1
  set arr2 := arr.drop (accepted h1).length with harr2
  have harr : arr = arr1 ++ arr2 := (List.take_append_drop _ _).symm
  have hops : arr1.map (·.op) = acceptedOps h1 := by
    unfold acceptedOps
    clear ha hp hrest hyoung harr harr1 harr2
    clear_value arr1 arr2
    generalize accepted h1 = l at f1
    induction f1 with
    | nil => rfl
    | cons hab _ ih => simp only [List.map_cons, hab.1, ih]
  have hearly : ∀ a ∈ arr1, a.tick < s1.tick := by
    have hb : ∀ b ∈ accepted h1, b.2.2 ≤ s1.tick := by
      intro b hb
      obtain ⟨ev, hev, _, h2⟩ := accepted_mem _ _ hb
      have := r1.inv.ticks ev hev
      omega
    clear ha hp hrest hyoung harr hops harr1 harr2
    clear_value arr1 arr2
    generalize accepted h1 = l at f1 hb
    induction f1 with
    | nil => simp
    | cons hab _ ih =>
      intro a ha
      rcases List.mem_cons.mp ha with rfl | ha
      · have := hb _ List.mem_cons_self; omega
      · exact ih (fun b h => hb b (List.mem_cons_of_mem _ h)) a ha
  have hsp := hp.split k
  rw [harr, List.filter_append] at hsp
  rcases append_split hsp with ⟨e, he⟩ | ⟨x, t, hx, hxa⟩
  · rw [← hops, List.filter_map]
    refine ⟨e.map (·.op), ?_⟩
    rw [show ((fun o => reportOperationSig cfg.H o == k) ∘ fun x : Arrival D => x.op) =
      fun a => reportOperationSig cfg.H a.op == k from rfl, ← List.map_append, he, List.map_flatMap]
    rfl
  · exfalso
    have hmem := (List.mem_filter.mp hxa).1
    have hxt := hold _ (hearly x hmem)
    cases hpf : pend.filter (·.sig == k) with
    | nil => rw [hpf] at hx; cases hx
    | cons g gs =>
      have hg : g ∈ pend := (List.mem_filter.mp (hpf ▸ List.mem_cons_self : g ∈ pend.filter (·.sig == k))).1
      obtain ⟨a, h1, h2⟩ := hyoung g hg
      rw [hpf, List.flatMap_cons] at hx
      cases hgm : g.members with
      | nil => rw [hgm] at h1; cases h1
      | cons y ys =>
        rw [hgm] at h1 hx
        cases h1
        cases hx
        omega

/-- `Flush` sends every operation that was accepted more than the flush interval before. -/
theorem sent_by_flush (m : Mono E.clk) (r1 : Reach E cfg h1 s1) (r : Reach E cfg h s) (hsuf : h1 <:+ h) (hfl : 0 ≤ cfg.flushMs)
    {st : Status} {fl : List (ReportRequest D)} (hs : step E cfg .flush s = .ok (s', st, fl))
    (hold : ∀ i, i < s1.tick → E.clk i + cfg.cyc cfg.flushMs.toNat < E.clk s.tick) :
    ∃ arr out pend, Arrivals h arr ∧
      Partition cfg arr out (flushedOps h ++ fl.flatMap (·.operations)) pend (cachedOps cfg s') ∧
      ∀ k, (acceptedOps h1).filter (fun o => reportOperationSig cfg.H o == k) <+: (out.filter (·.sig == k)).flatMap (·.ops) := by
  obtain ⟨arr, out1, out2, pend, ha, hp, _, _, hyoung⟩ := C43_flush_exact m r hfl hs
  exact ⟨arr, out1 ++ out2, pend, ha.imp (fun _ _ h => ⟨h.1, h.2.1, Nat.le_of_lt h.2.2⟩), hp, out_covers r1 hsuf ha hp hyoung hold⟩

/-- The same in every later state. -/
theorem sent_since_flush (m : Mono E.clk) (r1 : Reach E cfg h1 s1) (r : Reach E cfg h s) (hsuf : h1 <:+ h) (hfl : 0 ≤ cfg.flushMs)
    {ev : Event D} (hev : ev ∈ h) (hf : ev.call = .flush)
    (hold : ∀ i, i < s1.tick → E.clk i + cfg.cyc cfg.flushMs.toNat < E.clk ev.first) :
    ∃ arr out pend, Arrivals h arr ∧ Partition cfg arr out (flushedOps h) pend (cachedOps cfg s) ∧
      ∀ k, (acceptedOps h1).filter (fun o => reportOperationSig cfg.H o == k) <+: (out.filter (·.sig == k)).flatMap (·.ops) := by
  obtain ⟨arr, out, pend, ha, hp, hyoung⟩ := young_since_flush m r hfl
  exact ⟨arr, out, pend, ha.imp (fun _ _ h => ⟨h.1, h.2.1, Nat.le_of_lt h.2.2⟩), hp, out_covers r1 hsuf ha hp (hyoung ev hev hf) hold⟩
end Verif.Report

namespace Verif.Check
open Lru
variable {D : Type} [DoubleOps D] {E : Env} {cfg : AggConfig} {h : Hist D} {s s' : AggState (Elem D)} {out : Out} {fl : List (CheckRequest D)}

/-- C85: `Flush` removes the entries that no call concerned within the expiration time, and no others. -/
theorem C85_flush_expires (m : Mono E.clk) (r : Reach E cfg h s) (hexp : 0 ≤ cfg.expirationMs)
    (hs : step E cfg .flush s = .ok (s', out, fl)) :
    (∀ k ∈ cachedSigs s', k ∈ cachedSigs s ∧ ∃ ev i, lastUse cfg k h = some ev ∧ ev.reads i ∧
      E.clk s.tick - E.clk i ≤ cfg.cyc cfg.expirationMs.toNat) ∧
    ∀ k ∈ cachedSigs s, k ∉ cachedSigs s' → ∃ ev i, lastUse cfg k h = some ev ∧ ev.reads i ∧
      cfg.cyc cfg.expirationMs.toNat < E.clk s.tick - E.clk i := by
  cases hc : s.cache with
  | none =>
    obtain ⟨out', h1, h2⟩ := step_none E cfg hc .flush
    rw [hs] at h1
    cases h1
    simp [cachedSigs, hc]
  | some c =>
    obtain ⟨c', L, L', G, G', hq, ha, hso, hst, _, hc', hq', _⟩ := r.step hs hc
    simp only [aStep, Except.ok.injEq, Prod.mk.injEq] at hst
    obtain ⟨rfl, _⟩ := hst
    have hlim : (params cfg).limit = cfg.cyc cfg.expirationMs.toNat := by
      have : ¬ cfg.expirationMs < 0 := by omega
      simp [params, AggConfig.timeout, this]
    have hl0 : 0 ≤ (params cfg).limit := by rw [hlim]; omega
    rw [cachedSigs_eq hc' hq', cachedSigs_eq hc hq]
    refine ⟨?_, ?_⟩
    · intro k hk
      obtain ⟨x, hx, rfl⟩ := List.mem_map.mp hk
      have hxL := (keep_sublist _ _ _).subset hx
      obtain ⟨ev, i, he, hr, hu⟩ := (ha.ent x hxL).used
      have := mem_keep (E.clk s.tick) (hso m).1 hl0 x hx
      refine ⟨List.mem_map.mpr ⟨x, hxL, rfl⟩, ev, i, he, hr, ?_⟩
      rw [← hu, ← hlim]
      omega
    · intro k hk hn
      obtain ⟨x, hx, rfl⟩ := List.mem_map.mp hk
      obtain ⟨ev, i, he, hr, hu⟩ := (ha.ent x hx).used
      have hg : x ∈ goneOf (params cfg) (E.clk s.tick) L := by
        have : x ∈ L.reverse := by simpa using hx
        rw [keep_gone (params cfg) (E.clk s.tick) L] at this
        rcases List.mem_append.mp this with h | h
        · exact h
        · exact absurd (List.mem_map.mpr ⟨x, by simpa using h, rfl⟩) hn
      unfold goneOf at hg
      rw [if_pos hl0] at hg
      have := List.mem_takeWhile_imp hg
      simp only [decide_eq_true_eq] at this
      refine ⟨ev, i, he, hr, ?_⟩
      rw [← hu, ← hlim]
      omega

end Verif.Check

namespace Verif.Client
open Lru
variable {D : Type} [DoubleOps D] {K : Setup} {B : Base D} {s s1 s2 s' : Client D}

theorem Later.reach (r : Reach K s1) (l : Later K s1 s2) : Reach K s2 := by
  induction l with
  | refl => exact r
  | step _ hs ih => exact ih.step hs

theorem Inv.later (i : Inv K B s1) (l : Later K s1 s2) : Inv K B s2 := by
  induction l with
  | refl => exact i
  | step _ hs ih => exact ih.step hs

/-- A destroyed client stays destroyed. -/
theorem Later.dead (r : Reach K s1) (l : Later K s1 s2) (h : s1.alive = false) : s2.alive = false := by
  induction l with
  | refl => exact h
  | @step s op s' l hs ih =>
    have r0 := l.reach r
    have hd := (alive_iff r0).mp ih
    unfold Client.step at hs
    cases op with
    | call c t => simp only [ih, if_true] at hs; cases hs
    | destroy => simp only [ih, if_true] at hs; cases hs
    | timer =>
      obtain ⟨_, hc, hq, hr, l0⟩ := r0.inv.good
      simp only [timer, l0.timer ih] at hs
      cases hs
      exact ih
    | complete id a =>
      simp only at hs
      refine (alive_iff (r0.step (op := .complete id a) hs)).mpr ?_
      cases hf : s.pend.find? (·.id == id) with
      | none => unfold complete at hs; rw [hf] at hs; cases hs
      | some p =>
        rw [complete_trace r0 ih hf hs]
        exact List.mem_append_left _ hd

/-- The invariant, with the present moment as base. -/
theorem Inv.rebase (i : Inv K B s) : ∃ B' : Base D, Inv K B' s ∧ Links K B' (s.alive = true) B'.c B'.q B'.r [] [] [] [] s := by
  obtain ⟨⟨b, hc, hq, hr, l⟩, he⟩ := i
  have l' : Links K ⟨hc, hq, hr⟩ (s.alive = true) hc hq hr [] [] [] [] s :=
    ⟨l.c, l.q, l.r, l.timer, l.fc, l.fq, l.fr, l.acc, l.last, l.dq, l.fired, l.ok, l.gone,
      List.suffix_refl _, List.suffix_refl _, List.suffix_refl _⟩
  exact ⟨⟨hc, hq, hr⟩, ⟨⟨b, hc, hq, hr, l'⟩, he⟩, l'⟩

theorem sendPlain_quota {c : Call D} (h : sendPlain K c s = .ok s') : s'.quota = s.quota := by
  unfold sendPlain at h
  simp only at h
  cases ha : K.answer s.alloc.2.sends with
  | none => rw [ha] at h; cases h; rfl
  | some a =>
    rw [ha] at h
    simp only [finishPlain, bind, Except.bind] at h
    split at h
    · cases h
    · rename_i v hv
      obtain ⟨_, rfl⟩ := freeAll_frame _ h
      unfold Client.take at hv
      split at hv
      · cases hv
      · cases hv; rfl

theorem foldlM_field {α β : Type} {g : Client D → β} {f : Client D → α → Res (Client D)}
    (hf : ∀ {s s' : Client D} {a : α}, f s a = .ok s' → g s' = g s) :
    ∀ (l : List α) {s s' : Client D}, l.foldlM f s = .ok s' → g s' = g s
  | [], _, _, h => by cases h; rfl
  | a :: l, s, s', h => by
    simp only [List.foldlM_cons, bind, Except.bind] at h
    cases h1 : f s a with
    | error e => rw [h1] at h; cases h
    | ok s1 => rw [h1] at h; exact (foldlM_field hf l h).trans (hf h1)

theorem checkFlush_quota {r : CheckRequest D} (h : checkFlushCallback K s r = .ok s') : s'.quota = s.quota := by
  unfold checkFlushCallback at h
  split at h
  · cases h
  · simp only [bind, Except.bind] at h
    cases h1 : sendPlain K (.check r) s with
    | error e => rw [h1] at h; cases h
    | ok s1 => have := sendPlain_quota h1; rw [h1] at h; cases h; exact this

theorem aggCheck_quota {f : AggState (Check.Elem D) → Res (AggState (Check.Elem D) × Check.Out × List (CheckRequest D))} {v : Client D × Check.Out}
    (h : s.aggCheck K f = .ok v) : v.1.quota = s.quota := by
  simp only [Client.aggCheck, bind, Except.bind] at h
  cases hw : f s.check with
  | error e => rw [hw] at h; cases h
  | ok w =>
    obtain ⟨c, o, fl⟩ := w
    rw [hw] at h
    simp only at h
    split at h
    · cases h
    · rename_i s1 h1
      have := foldlM_field (g := Client.quota) (f := checkFlushCallback K) (fun h => checkFlush_quota h) _ h1
      cases h
      exact this

/-- A tick calls `Flush` on the three aggregators. -/
theorem timer_effects (i : Inv K B s) (ht : s.timer ≠ none) (hs : timer K s = .ok s') :
    ∃ hc hq hr hq' L c q r evc evq evr outc outq outr flc flq flr,
      Links K B L hc hq hr [] [] [] [] s ∧ s.alive = true ∧ s'.alive = true ∧
      Check.step K.envC K.cfgC .flush s.check = .ok (c, outc, flc) ∧ s'.check = c ∧
      Check.step K.envC K.cfgC .flush (s.check.setFlushCallback true) = .ok (c.setFlushCallback true, outc, evc.flushed) ∧
      Quota.step K.envQ K.cfgQ (K.depth + 1) .flush s.quota = .ok (q, outq, flq) ∧
      Report.step K.envR K.cfgR .flush s.report = .ok (r, outr, flr) ∧ s'.report = r ∧
      Report.step K.envR K.cfgR .flush (s.report.setFlushCallback true) = .ok (r.setFlushCallback true, outr, evr.flushed) ∧
      evc.call = .flush ∧ evr.call = .flush ∧
      Links K B L (evc :: hc) hq' (evr :: hr) [] [] [] [] s' ∧
      evq.call = .flush ∧ evq.first = s.quota.base.tick ∧ evq :: hq <:+ hq' := by
  obtain ⟨⟨b, hc, hq, hr, l⟩, _⟩ := i
  have hal : s.alive = true := by
    cases ha : s.alive with
    | true => rfl
    | false => exact absurd (l.timer ha) ht
  unfold timer at hs
  cases htm : s.timer with
  | none => exact absurd htm ht
  | some n =>
  rw [htm] at hs
  simp only [bind, Except.bind] at hs
  have b1 := b.mark .fired (.inl rfl)
  have l1 : Links K B (s.alive = true) hc hq hr [] [] [] [] (s.log .fired) := by
    refine l.append (evs := [.fired]) (fc := []) (fq := []) (fr := []) (fa := [])
      rfl rfl rfl rfl rfl rfl rfl rfl rfl rfl (fun _ => rfl) (fun _ => rfl) rfl rfl ?_ (by simp) ?_ ?_
    · intro _ k e he; simp only [List.mem_singleton] at he; subst he; exact ⟨rfl, rfl⟩
    · intro e he; simp only [List.mem_singleton] at he; subst he; rfl
    · intro h; rw [hal] at h; cases h
  rcases aggCheck_spec (P := fun _ => True) (A := True) .flush trivial b1 l1
    (fun _ => .inr rfl) (fun _ => trivial) with ⟨s2, c, out, fl, ev, g1, g2, b2, l2, f2, h2, h3, h4⟩ | ⟨e, g1, g2⟩
  · have g1' : Client.aggCheck K (s.log .fired) (Check.flush K.envC K.cfgC) = .ok (s2, out) := g1
    rw [g1'] at hs
    simp only at hs
    rcases aggQuota_spec (P := fun _ => True) (A := True) (fun x hx => trivial)
      .flush trivial b2 l2 (by simp) (fun _ => trivial) with ⟨s3, q3, out3, fl3, ev3, hq', g3, g4, b3, l3, f3, hcq, _, _, hfq, hsq⟩ | ⟨e, g3, g4⟩
    · have g3' : Client.aggQuota K s2 (Quota.flush K.envQ K.cfgQ (K.depth + 1)) = .ok (s3, out3) := g3
      rw [g3'] at hs
      simp only at hs
      have hal3 : s3.alive = true := by rw [f3.alive]; show s2.alive = true; rw [f2.alive]; exact hal
      rcases aggReport_spec (P := fun _ => True) (A := True)
        .flush trivial b3 l3 hal3 (fun _ => trivial) with ⟨s4, r4, st4, fl4, ev4, g5, g6, b4, l4, f4, h5, _, g7⟩ | ⟨e, g5, g6⟩
      · have g5' : Client.aggReport K s3 (Report.flush K.envR K.cfgR) = .ok (s4, st4) := g5
        rw [g5'] at hs
        cases hs
        have hck : s4.check = c := by rw [f4.check]; show s3.check = c; rw [f3.check]; show s2.check = c; rw [f2.check]
        have hrp : s3.report = s.report := by rw [f3.report]; show s2.report = _; rw [f2.report]; rfl
        rw [hrp] at g6 g7
        have hqq : s2.quota = s.quota := aggCheck_quota g1
        rw [hqq] at g4 hfq
        refine ⟨hc, hq, hr, hq', _, c, q3, r4, ev, ev3, ev4, out, out3, st4, fl, fl3, fl4, l, hal, by rw [f4.alive]; exact hal3, g2, hck, h4, g4, g6, ?_, g7, h2, h5, l4,
          hcq, hfq, hsq⟩
        rw [f4.report]
      · have g5' : Client.aggReport K s3 (Report.flush K.envR K.cfgR) = .error e := g5
        rw [g5'] at hs; cases hs
    · have g3' : Client.aggQuota K s2 (Quota.flush K.envQ K.cfgQ (K.depth + 1)) = .error e := g3
      rw [g3'] at hs; cases hs
  · have g1' : Client.aggCheck K (s.log .fired) (Check.flush K.envC K.cfgC) = .error e := g1
    rw [g1'] at hs; cases hs

/-- C84: a tick of the timer sends every accepted operation that has been in the cache for longer than the flush
interval.  `s1` is any earlier moment, all of whose clock readings are older than that. -/
theorem C84_reports_sent {s3 : Client D} (r : Reach K s1) (lt : Later K s1 s2) (ht : s2.timer ≠ none)
    (hs : step K .timer s2 = .ok s3) (m : Mono K.envR.clk) (hfl : 0 ≤ K.cfgR.flushMs)
    (hold : ∀ i, i < s1.report.tick → K.envR.clk i + K.cfgR.cyc K.cfgR.flushMs.toNat < K.envR.clk s2.report.tick) :
    ∃ arr out pend, arr.map (·.op) = acceptedOps s3.trace ∧
      Report.Partition K.cfgR arr out ((flushedReports s3.trace).flatMap (·.operations)) pend (Report.cachedOps K.cfgR s3.report) ∧
      ∀ k, (acceptedOps s1.trace).filter (fun o => reportOperationSig K.cfgR.H o == k) <+:
        (out.filter (·.sig == k)).flatMap (·.ops) := by
  obtain ⟨B, i1, l1⟩ := r.inv.rebase
  have i2 := i1.later lt
  obtain ⟨hc, hq, hr, hq', L, c, q, r', evc, evq, evr, outc, outq, outr, flc, flq, flr, l2, hal, hal3, -, -, -, -, -, hr3, hrep, -, hcall, l3, -, -, -⟩ :=
    timer_effects i2 ht hs
  obtain ⟨arr, out, pend, ha, hp, hk⟩ := Report.sent_by_flush m l1.r.reach l2.r.reach l2.base.2.2 hfl hrep hold
  have hfr : flushedReports s3.trace = reqsR (evr :: hr) := by simpa using l3.fr
  have hacc : acceptedOps s3.trace = Report.acceptedOps (evr :: hr) := by simpa using l3.acc
  have hacc1 : acceptedOps s1.trace = Report.acceptedOps B.r := by simpa using l1.acc
  refine ⟨arr, out, pend, ?_, ?_, ?_⟩
  · rw [hacc, Report.arrivals_ops ha]
    unfold Report.acceptedOps
    conv => rhs; unfold Report.accepted
    rw [hcall]; simp
  · rw [hfr, reqsR_cons, List.flatMap_append, hr3]
    rw [flushedOps_reqs]
    exact hp
  · intro k; rw [hacc1]; exact hk k

/-- C85: a tick of the timer removes the checks that no call concerned within the expiration time, and gives what was
aggregated for them to the transport. -/
theorem C85_tick_expires (r : Reach K s) (ht : s.timer ≠ none) (hs : step K .timer s = .ok s') (m : Mono K.envC.clk)
    (hexp : 0 ≤ K.cfgC.expirationMs) :
    ∃ hc ev, ev.call = .flush ∧ Check.Reach K.envC K.cfgC hc s.check ∧ Check.Reach K.envC K.cfgC (ev :: hc) s'.check ∧
      flushedChecks s'.trace = flushedChecks s.trace ++ ev.flushed ∧
      (∀ k ∈ Check.cachedSigs s'.check, k ∈ Check.cachedSigs s.check ∧ ∃ e i, Check.lastUse K.cfgC k hc = some e ∧ e.reads i ∧
        K.envC.clk s.check.tick - K.envC.clk i ≤ K.cfgC.cyc K.cfgC.expirationMs.toNat) ∧
      (∀ k ∈ Check.cachedSigs s.check, k ∉ Check.cachedSigs s'.check → ∃ e i, Check.lastUse K.cfgC k hc = some e ∧ e.reads i ∧
        K.cfgC.cyc K.cfgC.expirationMs.toNat < K.envC.clk s.check.tick - K.envC.clk i) ∧
      ∃ out pend, Check.Partition K.cfgC (Check.absorbed K.cfgC (ev :: hc)) out
        ((flushedChecks s'.trace).filterMap (·.operation)) pend (Check.pendingOps K.cfgC s'.check) ∧
        ∀ g ∈ pend, g.sig ∈ Check.cachedSigs s'.check := by
  obtain ⟨hc, hq, hr, hq', L, c, q, r', evc, evq, evr, outc, outq, outr, flc, flq, flr, l2, hal, hal3, -, hc3, hchk, -, -, -, -, hcall, -, l3, -, -, -⟩ :=
    timer_effects r.inv ht hs
  have e2 : s.check.setFlushCallback true = s.check := by rw [← hal, ← l2.c.callback]; rfl
  have e3 : s'.check.setFlushCallback true = s'.check := by rw [← hal3, ← l3.c.callback]; rfl
  have f2 : flushedChecks s.trace = reqsC hc := by simpa using l2.fc hal
  have f3 : flushedChecks s'.trace = reqsC (evc :: hc) := by simpa using l3.fc hal3
  have r2 := l2.c.reach
  have r3 := l3.c.reach
  rw [e2] at r2
  rw [e3] at r3
  rw [← hc3, e3, e2] at hchk
  obtain ⟨g1, g2⟩ := Check.C85_flush_expires m r2 hexp hchk
  refine ⟨hc, evc, hcall, r2, r3, by rw [f3, f2, reqsC_cons], g1, g2, ?_⟩
  obtain ⟨outg, pend, hp, hsig⟩ := Check.C36_groups r3
  refine ⟨outg, pend, ?_, hsig⟩
  rw [f3]
  have : ∀ h : Check.Hist D, Check.flushedOps h = (reqsC h).filterMap (·.operation) := by
    intro h
    induction h with
    | nil => rfl
    | cons ev h ih => rw [reqsC_cons, List.filterMap_append, ← ih]; rfl
  rw [← this]
  exact hp

/-- C86: a tick of the timer sends, if they are not sent or lost before, the quota operations that have been held for longer than
the flush interval for a signature that waits for no response.  `h1` and `h3` are the calls on the quota aggregator up to `s1` and
up to `s3`. -/
theorem C86_tick_sends {s3 : Client D} (r : Reach K s1) (lt : Later K s1 s2) (ht : s2.timer ≠ none) (hs : step K .timer s2 = .ok s3)
    (m : Mono K.envQ.clk) (hf : 0 < K.envQ.extraFuel) (hpos : 0 < K.cfgQ.numEntries) (hfl : 0 ≤ K.cfgQ.flushMs)
    (hold : ∀ i, i < s1.quota.base.tick → K.envQ.clk i + K.cfgQ.cyc K.cfgQ.flushMs.toNat < K.envQ.clk s2.quota.base.tick) :
    ∃ h1 h3, Quota.Reach K.envQ K.cfgQ h1 s1.quota ∧ Quota.Reach K.envQ K.cfgQ h3 s3.quota ∧ h1 <:+ h3 ∧
      flushedQuotas s1.trace = reqsQ h1 ∧ flushedQuotas s3.trace = reqsQ h3 ∧
      ∀ k, Quota.pending K.cfgQ k h1 ≠ [] → Quota.waiting K.cfgQ.H k h1 = 0 → Quota.NoCollision K.cfgQ.H h3 →
        Quota.Settled K.cfgQ.H k h1 h3 ∧
        ∃ mid pend, Quota.absorbed K.cfgQ k h3 = Quota.absorbed K.cfgQ k h1 ++ mid ++ pend ∧
          match Quota.heldOf K.cfgQ k s3.quota with
          | none => pend = []
          | some o => Quota.Sum K.envQ K.cfgQ pend o := by
  obtain ⟨B, i1, l1⟩ := r.inv.rebase
  have i2 := i1.later lt
  obtain ⟨hc, hq, hr, hq', L, c, q, r', evc, evq, evr, outc, outq, outr, flc, flq, flr, l2, hal, hal3, -, -, -, -, -, -, -, -, -, l3, hcq, hfq, hsq⟩ :=
    timer_effects i2 ht hs
  have hal1 : s1.alive = true := by
    cases ha : s1.alive with
    | true => rfl
    | false =>
      rw [lt.dead r ha] at hal; cases hal
  have e1 : s1.quota.setCallback true = s1.quota := by rw [← hal1, ← l1.q.callback]; rfl
  have e3 : s3.quota.setCallback true = s3.quota := by rw [← hal3, ← l3.q.callback]; rfl
  have r1 := l1.q.reach
  have r3 := l3.q.reach
  rw [e1] at r1
  rw [e3] at r3
  have hsuf : B.q <:+ hq := l2.base.2.1
  refine ⟨B.q, hq', r1, r3, hsuf.trans ((List.suffix_cons _ _).trans hsq), by simpa using l1.fq hal1, by simpa using l3.fq hal3, ?_⟩
  intro k hp hw hnc
  refine Quota.C86_flush_sends m hf hpos r3 hsq hcq hsuf hfl hp hw ?_ hnc
  intro e he i hi
  rw [hfq]
  refine hold i ?_
  cases hb : B.q with
  | nil => rw [hb] at he; cases he
  | cons e' t =>
    rw [hb] at he r1
    cases he
    rw [r1.tick]; exact hi

/-- A clock that jumps by `x` after `n` readings. -/
def exJump (n : Nat) (x : Int) : Env := ⟨fun i => if i < n then 0 else x, true, 1, .insertion⟩

theorem exJump_mono (n : Nat) {x : Int} (hx : 0 ≤ x) : Mono (exJump n x).clk := by
  constructor
  · simp only [exJump]; split <;> omega
  · intro i; simp only [exJump]; split <;> split <;> omega

/-- Time passes between the calls and the tick. -/
def exKJ : Setup := { exK with envC := exJump 9 20000, envQ := exJump 7 5000, envR := exJump 3 5000 }

def exKJOps : List (Op Int) :=
  [.call (exQuota 1 5) .default, .complete 0 exOk, .call (exQuota 1 7) .default, .call (exCheck 1 5) .default, .complete 1 exOk,
    .call (exCheck 1 6) .default, .call (exReport 1 2) .default]

/-- C84, C85 and C86 on one client: 7 tokens, a check and an operation wait in the caches for longer than the intervals; the tick
sends all three, and removes the check. -/
example : ∃ s1 s2, Reach exKJ s1 ∧ s1.timer ≠ none ∧ step exKJ .timer s1 = .ok s2 ∧
    (∀ i, i < s1.report.tick → exKJ.envR.clk i + exKJ.cfgR.cyc exKJ.cfgR.flushMs.toNat < exKJ.envR.clk s1.report.tick) ∧
    (∀ i, i < s1.quota.base.tick → exKJ.envQ.clk i + exKJ.cfgQ.cyc exKJ.cfgQ.flushMs.toNat < exKJ.envQ.clk s1.quota.base.tick) ∧
    acceptedOps s1.trace = [Report.exNamed 1 2] ∧ flushedReports s1.trace = [] ∧ (flushedReports s2.trace).length = 1 ∧
    (Check.cachedSigs s1.check).length = 1 ∧ Check.cachedSigs s2.check = [] ∧ flushedChecks s1.trace = [] ∧
    (flushedChecks s2.trace).length = 1 ∧
    (flushedQuotas s1.trace).map Quota.tokens = [5] ∧ (flushedQuotas s2.trace).map Quota.tokens = [5, 7] := by
  obtain ⟨s, r, h⟩ := run_case (K := exKJ) exKJOps
    (fun s => s.timer ≠ none ∧ s.report.tick = 3 ∧ s.quota.base.tick = 7 ∧
      acceptedOps s.trace = [Report.exNamed 1 2] ∧ flushedReports s.trace = [] ∧
      (Check.cachedSigs s.check).length = 1 ∧ flushedChecks s.trace = [] ∧
      (flushedQuotas s.trace).map Quota.tokens = [5] ∧
      (match step exKJ .timer s with
        | .ok s2 => decide ((flushedReports s2.trace).length = 1 ∧ Check.cachedSigs s2.check = [] ∧ (flushedChecks s2.trace).length = 1 ∧
            (flushedQuotas s2.trace).map Quota.tokens = [5, 7])
        | .error _ => false) = true) (by decide +kernel)
  obtain ⟨h1, h2, h3, h4, h5, h6, h7, h8, h9⟩ := h
  cases hs : step exKJ .timer s with
  | error e => rw [hs] at h9; cases h9
  | ok s2 =>
    rw [hs] at h9
    obtain ⟨g1, g2, g3, g4⟩ := of_decide_eq_true h9
    refine ⟨s, s2, r, h1, hs, ?_, ?_, h4, h5, g1, h6, g2, h7, g3, h8, g4⟩
    · clear * - h2
      intro i hi
      rw [h2] at hi ⊢
      have e1 : exKJ.envR.clk i = 0 := if_pos hi
      rw [e1]
      decide
    · clear * - h3
      intro i hi
      rw [h3] at hi ⊢
      have e1 : exKJ.envQ.clk i = 0 := if_pos hi
      rw [e1]
      decide

end Verif.Client
