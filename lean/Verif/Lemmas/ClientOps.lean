import Verif.Lemmas.ClientStep
import Verif.Props.CheckAggregator
import Verif.Props.QuotaAggregator
import Verif.Props.ReportAggregator
/-
The operations of the client keep the invariant, or fail in one of the known ways.
-/
set_option linter.unusedSectionVars false
namespace Verif.Client
open Lru
variable {D : Type} [DoubleOps D]
variable {K : Setup} {B : Base D} {L : Prop} {hc : Check.Hist D} {hq : Quota.Hist D} {hr : Report.Hist D}
  {oc : List (CheckRequest D)} {oq : List (AllocateQuotaRequest D)} {or : List (ReportRequest D)} {oa : List (Operation D)}
  {s : Client D} {o : Open D} {own : List Nat} {owed : Stats} {A : Prop}

/-! ### Calls on the aggregators -/

theorem aggCheck_spec {P : AggCall D → Prop} (x : Check.Call D) (hP : P (.c x)) (b : Books o own owed s)
    (l : Links K B L hc hq hr [] oq or oa s) (hx : L → (∃ r, x = .check r) ∨ x = .flush) (hA : s.alive = true → A) :
    (∃ s' c out fl ev, s.aggCheck K (Check.step K.envC K.cfgC x) = .ok (s', out) ∧ Check.step K.envC K.cfgC x s.check = .ok (c, out, fl) ∧
      Books o own owed s' ∧ Links K B L (ev :: hc) hq hr [] oq or oa s' ∧ Frame { s with check := c } s' ∧
      ev.call = x ∧ ev.out = out ∧
      Check.step K.envC K.cfgC x (s.check.setFlushCallback true) = .ok (c.setFlushCallback true, out, ev.flushed)) ∨
    ∃ e, s.aggCheck K (Check.step K.envC K.cfgC x) = .error e ∧ Err K A P e := by
  unfold Client.aggCheck
  cases hs : Check.step K.envC K.cfgC x s.check with
  | error e =>
    right
    obtain ⟨s0, g1, g2⟩ := CheckIs.error l.c hs
    exact ⟨e, rfl, .c hP g1 g2⟩
  | ok y =>
    obtain ⟨c, out, fl⟩ := y
    obtain ⟨ev, h1, h2, h3, h4, h5, h6⟩ := l.c.step hs
    have l1 : Links K B L (ev :: hc) hq hr (fl ++ []) oq or oa { s with check := c } := by
      refine ⟨h1, l.q, l.r, l.timer, ?_, l.fq, l.fr, l.acc, ?_, l.dq, l.fired, l.ok, l.gone,
        l.base.1.trans (List.suffix_cons _ _), l.base.2⟩
      · intro ha
        have := l.fc ha
        rw [List.append_nil] at this
        show flushedChecks s.trace ++ (fl ++ []) = _
        rw [List.append_nil, reqsC_cons, ← this, h4 ha]
      · intro hL k
        have := l.last hL k
        show Client.lastReply _ k s.trace = _
        rw [this]
        rcases hx hL with ⟨r, rfl⟩ | rfl <;> (conv => rhs; unfold Check.lastCached) <;> rw [h2]
    have b1 : Books o own owed { s with check := c } := b.congr rfl rfl rfl rfl rfl rfl rfl
    simp only [bind, Except.bind]
    rcases checkFlushes (P := P) fl _ b1 l1 h5 hA with ⟨s', g1, g2, g3, g4⟩ | ⟨e, g1, g2⟩
    · left
      rw [g1]
      exact ⟨s', c, out, fl, ev, rfl, rfl, g2, g3, g4, h2, h3, h6⟩
    · right
      rw [g1]
      exact ⟨e, rfl, g2⟩

theorem aggQuota_spec {P : AggCall D → Prop} (hPr : ∀ x, isResponse x → P x) (x : Quota.Call D) (hP : P (.q x)) (b : Books o own owed s)
    (l : Links K B L hc hq hr oc [] or oa s)
    (hx : L → ∀ r p, x ≠ .cacheResponse r p)
    (hA : s.alive = true → A) :
    (∃ s' q out fl, ∃ ev : Quota.Event D, ∃ hq', s.aggQuota K (Quota.step K.envQ K.cfgQ (K.depth + 1) x) = .ok (s', out) ∧
      Quota.step K.envQ K.cfgQ (K.depth + 1) x s.quota = .ok (q, out, fl) ∧
      Books o own owed s' ∧ Links K B L hc hq' hr oc [] or oa s' ∧ Frame { s with quota := q } s' ∧
      ev.call = x ∧ ev.out = out ∧
      Quota.step K.envQ K.cfgQ (K.depth + 1) x (s.quota.setCallback true) = .ok (q.setCallback true, out, ev.flushed) ∧
      ev.first = s.quota.base.tick ∧ ev :: hq <:+ hq') ∨
    ∃ e, s.aggQuota K (Quota.step K.envQ K.cfgQ (K.depth + 1) x) = .error e ∧ Err K A P e := by
  unfold Client.aggQuota
  cases hs : Quota.step K.envQ K.cfgQ (K.depth + 1) x s.quota with
  | error e =>
    right
    obtain ⟨s0, g1, g2⟩ := QuotaIs.error l.q hs
    exact ⟨e, rfl, .q hP g1 g2⟩
  | ok y =>
    obtain ⟨q, out, fl⟩ := y
    obtain ⟨⟨ev, l1, h2, h3, h4, h6⟩, h5⟩ := l.quotaStep hs hx
    have hbase := l1.base
    replace l1 := l1.rebase (B' := ⟨hc, ev :: hq, hr⟩) ⟨List.suffix_refl _, List.suffix_refl _, List.suffix_refl _⟩
    rw [List.nil_append, ← List.append_nil fl] at l1
    have b1 : Books o own owed { s with quota := q } := b.congr rfl rfl rfl rfl rfl rfl rfl
    simp only [bind, Except.bind]
    rcases quotaFlushes hPr fl _ _ b1 l1 h5 hA with ⟨s', hq', g1, g2, g3, g4⟩ | ⟨e, g1, g2⟩
    · left
      rw [g1]
      exact ⟨s', q, out, fl, ev, hq', rfl, rfl, g2, g3.rebase ⟨hbase.1, hbase.2.1.trans g3.base.2.1, hbase.2.2⟩, g4, h2, h3, h6.1, h6.2, g3.base.2.1⟩
    · right
      rw [g1]
      exact ⟨e, rfl, g2⟩

/-- The operations a call on the report aggregator accepts. -/
def acceptedBy (x : Report.Call D) (st : Status) : List (Operation D) :=
  match x with
  | .report r => if st = .ok then r.operations else []
  | _ => []

theorem aggReport_spec {P : AggCall D → Prop} (x : Report.Call D) (hP : P (.r x)) (b : Books o own owed s)
    (l : Links K B L hc hq hr oc oq [] [] s) (hal : s.alive = true) (hA : s.alive = true → A) :
    (∃ s' c st fl, ∃ ev : Report.Event D, s.aggReport K (Report.step K.envR K.cfgR x) = .ok (s', st) ∧
      Report.step K.envR K.cfgR x s.report = .ok (c, st, fl) ∧
      Books o own owed s' ∧ Links K B L hc hq (ev :: hr) oc oq [] (acceptedBy x st) s' ∧ Frame { s with report := c } s' ∧
      ev.call = x ∧ ev.status = st ∧
      Report.step K.envR K.cfgR x (s.report.setFlushCallback true) = .ok (c.setFlushCallback true, st, ev.flushed)) ∨
    ∃ e, s.aggReport K (Report.step K.envR K.cfgR x) = .error e ∧ Err K A P e := by
  unfold Client.aggReport
  cases hs : Report.step K.envR K.cfgR x s.report with
  | error e =>
    right
    obtain ⟨s0, g1, g2⟩ := ReportIs.error l.r hs
    exact ⟨e, rfl, .r hP g1 g2⟩
  | ok y =>
    obtain ⟨c, st, fl⟩ := y
    obtain ⟨ev, h1, h2, h3, h4, h5, h6⟩ := l.r.step hs
    have l1 : Links K B L hc hq (ev :: hr) oc oq (fl ++ []) (acceptedBy x st) { s with report := c } := by
      refine ⟨l.c, l.q, h1, l.timer, l.fc, l.fq, ?_, ?_, l.last, l.dq, l.fired, l.ok, l.gone,
        l.base.1, l.base.2.1, l.base.2.2.trans (List.suffix_cons _ _)⟩
      · have := l.fr
        rw [List.append_nil] at this
        show flushedReports s.trace ++ (fl ++ []) = _
        rw [List.append_nil, reqsR_cons, ← this, h4 hal]
      · have := l.acc
        rw [List.append_nil] at this
        show acceptedOps s.trace ++ _ = _
        rw [this]
        unfold Report.acceptedOps
        conv => rhs; unfold Report.accepted
        rw [List.map_append, h2, h3]
        congr 1
        cases x with
        | report r =>
          simp only [acceptedBy]
          split
          · rw [List.map_map]; exact (List.map_id _).symm
          · rfl
        | flush => rfl
        | flushAll => rfl
    have b1 : Books o own owed { s with report := c } := b.congr rfl rfl rfl rfl rfl rfl rfl
    simp only [bind, Except.bind]
    rcases reportFlushes (P := P) fl _ b1 l1 h5 hA with ⟨s', g1, g2, g3, g4⟩ | ⟨e, g1, g2⟩
    · left
      rw [g1]
      exact ⟨s', c, st, fl, ev, rfl, rfl, g2, g3, g4, h2, h3, h6⟩
    · right
      rw [g1]
      exact ⟨e, rfl, g2⟩

/-! ### Completions of calls -/

/-- The state between two operations, or while a callback runs. -/
structure Good (K : Setup) (B : Base D) (L : Prop) (o : Open D) (own : List Nat) (owed : Stats) (s : Client D) : Prop where
  books : Books o own owed s
  links : ∃ hc hq hr, Links K B L hc hq hr [] [] [] [] s

/-- What stays the same. -/
structure Same (s s' : Client D) : Prop where
  alive : s'.alive = s.alive
  timer : s'.timer = s.timer
  report : s.alive = false → s'.report = s.report

omit [DoubleOps D] in
theorem Same.trans {s s' s'' : Client D} (h : Same s s') (h' : Same s' s'') : Same s s'' :=
  ⟨h'.alive.trans h.alive, h'.timer.trans h.timer, fun ha => (h'.report (h.alive.trans ha)).trans (h.report ha)⟩

omit [DoubleOps D] in
theorem Frame.same {s s' : Client D} (f : Frame s s') : Same s s' := ⟨f.alive, f.timer, fun _ => f.report⟩

/-- The outcome of a function: a good state in which the client is as alive as before, or one of the
known errors. -/
def Outcome (K : Setup) (B : Base D) (L A : Prop) (P : AggCall D → Prop) (owed : Stats) (s : Client D) (R : Res (Client D)) : Prop :=
  (∃ s', R = .ok s' ∧ Good K B L none [] owed s' ∧ Same s s') ∨ ∃ e, R = .error e ∧ Err K A P e

/-- The end of a completion callback: free the objects, invoke the done callback. -/
theorem finish_tail {i : Nat} {c : Call D} {id : Nat} {a : Answer} {ps : List Nat}
    (b : Books (some (i, c, some (id, a))) ps owed s) (l : Links K B L hc hq hr [] [] [] [] s) :
    ∃ s', (s.freeAll ps).bind (fun s => .ok (s.done i c a.status (replyOf c a) (some id))) = .ok s' ∧
      Good K B L none [] owed s' ∧ Same s s' := by
  rw [← List.append_nil ps] at b
  obtain ⟨s2, k1, b2, k2⟩ := Books.freeAll ps b
  have b3 := b2.done a.status (replyOf c a) (by intro id' a' h; cases h; exact ⟨rfl, rfl⟩)
  refine ⟨_, by rw [k1]; rfl, ⟨b3, hc, hq, hr, ?_⟩, ?_⟩
  · rw [k2]
    refine l.append (evs := [.done i c a.status (replyOf c a) (some id)]) (fc := []) (fq := []) (fr := []) (fa := [])
      rfl rfl rfl rfl rfl rfl rfl rfl rfl ?_ (fun _ => rfl) (fun _ => rfl) rfl rfl ?_ (by simp) ?_ ?_
    · simp only [acceptedOps, List.flatMap_cons, List.flatMap_nil, List.append_nil]
      generalize a.status = st
      cases c <;> cases st <;> rfl
    · intro _ k e he; simp only [List.mem_singleton] at he; subst he; exact ⟨rfl, rfl⟩
    · intro e he
      simp only [List.mem_singleton] at he
      subst he
      generalize a.status = st
      cases c <;> cases st <;> rfl
    · intro _ e he; simp only [List.mem_singleton] at he; subst he; rfl
  · rw [k2]; exact ⟨rfl, rfl, fun _ => rfl⟩

/-- A completion of a call made by the user begins. -/
theorem begin_finish {id i : Nat} (a : Answer) {p : Pend D} (b : Books none [] owed s) (l : Links K B L hc hq hr [] [] [] [] s)
    (h : s.pend.find? (·.id == id) = some p) (hb : p.by_ = some i) :
    ∃ s1, s.take id a = .ok (p, s1) ∧ Books (some (i, p.req, some (id, a))) p.own owed s1 ∧ Links K B False hc hq hr [] [] [] [] s1 ∧
      s1 = { s.log (.completed id (some i) p.req a) with pend := s.pend.filter (·.id != id) } := by
  have ht := take_ok a h
  obtain ⟨hid, b1⟩ := b.take ht (.inr ⟨i, hb, rfl, rfl⟩)
  rw [List.append_nil] at b1
  refine ⟨_, ht, b1, ?_, by rw [hb]⟩
  refine (l.weaken (L' := False) (fun h => h.elim)).append (evs := [.completed id p.by_ p.req a]) (fc := []) (fq := []) (fr := []) (fa := [])
      rfl rfl rfl rfl rfl rfl rfl rfl rfl rfl (fun _ => rfl) (fun _ => rfl) rfl rfl (fun h => h.elim) (by simp) ?_ ?_
  · intro e he; simp only [List.mem_singleton] at he; subst he; rfl
  · intro _ e he; simp only [List.mem_singleton] at he; subst he; rfl

theorem finishCheck_spec {P : AggCall D → Prop} (hP : ∀ x, isResponse x → P x) {id i : Nat} (a : Answer) {p : Pend D} {r : CheckRequest D}
    (b : Books none [] owed s) (l : Links K B L hc hq hr [] [] [] [] s) (hA : s.alive = true → A)
    (h : s.pend.find? (·.id == id) = some p) (hb : p.by_ = some i) (hreq : p.req = .check r) :
    Outcome K B L A P owed s (finishCheck K i r id a s) := by
  obtain ⟨s1, ht, b1, l1, h1⟩ := begin_finish a b l h hb
  rw [hreq] at b1 h1
  have htr : s1.trace = s.trace ++ [.completed id (some i) (.check r) a] := by rw [h1]; rfl
  unfold finishCheck
  rw [ht]
  simp only [bind, Except.bind]
  by_cases hok : a.status = .ok
  · rw [if_pos hok, b1.touch (fun q hq => hq)]
    simp only
    have hb1 : s1.alive = true → A := by rw [h1]; exact hA
    unfold Client.aggCheck
    cases hs : Check.cacheResponse K.envC K.cfgC r a.check s1.check with
    | error e =>
      right
      obtain ⟨s0, g1, g2⟩ := CheckIs.error l1.c (x := .cacheResponse r a.check) hs
      exact ⟨e, rfl, .c (hP (.c (.cacheResponse r a.check)) trivial) g1 g2⟩
    | ok y =>
      obtain ⟨c, out, fl⟩ := y
      obtain ⟨ev, e1, e2, e3, e4, e5, _⟩ := l1.c.step (c := .cacheResponse r a.check) hs
      have l2 : Links K B L (ev :: hc) hq hr (fl ++ []) [] [] [] { s1 with check := c } := by
        refine ⟨e1, l1.q, l1.r, l1.timer, ?_, l1.fq, l1.fr, l1.acc, ?_, ?_, l1.fired, l1.ok, l1.gone,
          l1.base.1.trans (List.suffix_cons _ _), l1.base.2⟩
        · intro ha
          have := l1.fc ha
          rw [List.append_nil] at this
          show flushedChecks s1.trace ++ (fl ++ []) = _
          rw [List.append_nil, reqsC_cons, ← this, e4 ha]
        · intro hL k
          show lastReply _ k s1.trace = _
          rw [htr, lastReply_one, l.last hL k]
          conv => rhs; unfold Check.lastCached
          rw [e2]
          simp only [replyEv, hok, and_true]
          split <;> rfl
        · intro hL k p hp
          show _ ∨ lastGrant _ k s1.trace = _
          rw [htr, lastGrant_quiet _ _ _ _ (by intro e he; simp only [List.mem_singleton] at he; subst he; rfl)]
          exact l.dq hL k p hp
      have b2 : Books (some (i, .check r, some (id, a))) p.own owed { s1 with check := c } := b1.congr rfl rfl rfl rfl rfl rfl rfl
      simp only [bind, Except.bind]
      rcases checkFlushes (P := P) fl _ b2 l2 e5 hb1 with ⟨s2, g1, g2, g3, g4⟩ | ⟨e, g1, g2⟩
      · obtain ⟨s3, k1, k2, k3⟩ := finish_tail g2 g3
        left
        rw [g1]
        refine ⟨s3, k1, k2, Same.trans (Same.trans ?_ g4.same) k3⟩
        rw [h1]; exact ⟨rfl, rfl, fun _ => rfl⟩
      · right
        rw [g1]
        exact ⟨e, rfl, g2⟩
  · rw [if_neg hok]
    have l3 : Links K B L hc hq hr [] [] [] [] s1 := l1.strengthen (by
      intro hL k
      rw [htr, lastReply_one, l.last hL k]
      simp only [replyEv, hok, and_false, if_false, Option.none_or]) (by
      intro hL k p hp
      rw [htr, lastGrant_quiet _ _ _ _ (by intro e he; simp only [List.mem_singleton] at he; subst he; rfl)]
      exact l.dq hL k p hp)
    obtain ⟨s3, k1, k2, k3⟩ := finish_tail b1 l3
    left
    refine ⟨s3, k1, k2, ?_⟩
    · refine Same.trans ?_ k3
      rw [h1]; exact ⟨rfl, rfl, fun _ => rfl⟩

theorem finishQuota_spec {P : AggCall D → Prop} (hP : ∀ x, isResponse x → P x) {id i : Nat} (a : Answer) {p : Pend D} {r : AllocateQuotaRequest D}
    (b : Books none [] owed s) (l : Links K B L hc hq hr [] [] [] [] s) (hA : s.alive = true → A)
    (h : s.pend.find? (·.id == id) = some p) (hb : p.by_ = some i) (hreq : p.req = .quota r) :
    Outcome K B L A P owed s (finishQuota K i r id a s) := by
  obtain ⟨s1, ht, b1, l1, h1⟩ := begin_finish a b l h hb
  rw [hreq] at b1 h1
  have htr : s1.trace = s.trace ++ [.completed id (some i) (.quota r) a] := by rw [h1]; rfl
  unfold finishQuota
  rw [ht]
  simp only [bind, Except.bind]
  rw [b1.touch (fun q hq => hq)]
  simp only
  have hb1 : s1.alive = true → A := by rw [h1]; exact hA
  unfold Client.aggQuota
  cases hs : Quota.cacheResponse K.envQ K.cfgQ (K.depth + 1) r (granted a) s1.quota with
  | error e =>
    right
    refine ⟨e, ?_, ?_⟩
    · unfold granted at hs
      rw [hs]
      rfl
    · obtain ⟨s0, g1, g2⟩ := QuotaIs.error l1.q (x := .cacheResponse r (granted a)) (d := K.depth + 1) hs
      exact .q (hP (.q (.cacheResponse r (granted a))) trivial) g1 g2
  | ok y =>
    obtain ⟨q, out, fl⟩ := y
    obtain ⟨⟨ev, l2, _⟩, h5⟩ := l.respond l1 htr hs
    rw [List.nil_append, ← List.append_nil fl] at l2
    unfold granted at hs
    rw [hs]
    simp only [bind, Except.bind]
    have b2 : Books (some (i, .quota r, some (id, a))) p.own owed { s1 with quota := q } := b1.congr rfl rfl rfl rfl rfl rfl rfl
    rcases quotaFlushes hP fl _ _ b2 l2 h5 hb1 with ⟨s2, hq', g1, g2, g3, g4⟩ | ⟨e, g1, g2⟩
    · obtain ⟨s3, k1, k2, k3⟩ := finish_tail g2 g3
      left
      rw [g1]
      refine ⟨s3, k1, k2, Same.trans (Same.trans ?_ g4.same) k3⟩
      rw [h1]; exact ⟨rfl, rfl, fun _ => rfl⟩
    · right
      rw [g1]
      exact ⟨e, rfl, g2⟩

theorem finishReport_spec {P : AggCall D → Prop} {id i : Nat} (a : Answer) {p : Pend D} {r : ReportRequest D}
    (b : Books none [] owed s) (l : Links K B L hc hq hr [] [] [] [] s)
    (h : s.pend.find? (·.id == id) = some p) (hb : p.by_ = some i) (hreq : p.req = .report r) :
    Outcome K B L A P owed s (finishReport i r id a s) := by
  obtain ⟨s1, ht, b1, l1, h1⟩ := begin_finish a b l h hb
  rw [b.repOwn p (List.mem_of_find?_eq_some h) i r hb hreq] at b1
  rw [hreq] at b1 h1
  have htr : s1.trace = s.trace ++ [.completed id (some i) (.report r) a] := by rw [h1]; rfl
  have l1' : Links K B L hc hq hr [] [] [] [] s1 := l1.strengthen (by
    intro hL k
    rw [htr, lastReply_one, l.last hL k]
    rfl) (by
    intro hL k p hp
    rw [htr, lastGrant_quiet _ _ _ _ (by intro e he; simp only [List.mem_singleton] at he; subst he; rfl)]
    exact l.dq hL k p hp)
  obtain ⟨s3, k1, k2, k3⟩ := finish_tail b1 l1'
  left
  refine ⟨s3, ?_, k2, ?_⟩
  · unfold finishReport
    rw [ht]
    exact k1
  · refine Same.trans ?_ k3
    rw [h1]; exact ⟨rfl, rfl, fun _ => rfl⟩

/-! ### The operations -/

/-- The call is noted and counted. -/
theorem begin_links (l : Links K B L hc hq hr [] [] [] [] s) (hal : s.alive = true) (c : Call D) (t : Bool) (st : Stats) :
    Links K B L hc hq hr [] [] [] [] { s.log (.called s.calls c t) with calls := s.calls + 1, stats := st } := by
  refine l.append (evs := [.called s.calls c t]) (fc := []) (fq := []) (fr := []) (fa := [])
      rfl rfl rfl rfl rfl rfl rfl rfl rfl rfl (fun _ => rfl) (fun _ => rfl) rfl rfl ?_ (by simp) ?_ ?_
  · intro _ k e he; simp only [List.mem_singleton] at he; subst he; exact ⟨rfl, rfl⟩
  · intro e he; simp only [List.mem_singleton] at he; subst he; rfl
  · intro h; rw [hal] at h; cases h

/-- A transport is called for a call. -/
theorem send_links (l : Links K B L hc hq hr [] [] [] [] s) (hal : s.alive = true) (i : Nat) (c : Call D) (ps : List Nat) :
    Links K B L hc hq hr [] [] [] [] (s.send (some i) c ps) := by
  refine l.append (evs := [.sent s.sends (some i) c]) (fc := []) (fq := []) (fr := []) (fa := [])
      rfl rfl rfl rfl rfl rfl ?_ ?_ ?_ rfl (fun _ => rfl) (fun _ => rfl) rfl rfl ?_ (by simp) ?_ ?_
  · cases c <;> rfl
  · cases c <;> rfl
  · cases c <;> rfl
  · intro _ k e he; simp only [List.mem_singleton] at he; subst he; exact ⟨rfl, rfl⟩
  · intro e he; simp only [List.mem_singleton] at he; subst he; rfl
  · intro h; rw [hal] at h; cases h

/-- A call is answered without a transport. -/
theorem local_links (l : Links K B L hc hq hr [] [] [] oa s) (hal : s.alive = true) (i : Nat) (c : Call D) (st : Status) (r : Reply)
    (hoa : acceptedOps [Ev.done i c st r none] = oa) (hev : (Ev.done i c st r none).Ok K s.trace) :
    Links K B L hc hq hr [] [] [] [] (s.done i c st r none) := by
  have htr : (s.done i c st r none).trace = s.trace ++ [.done i c st r none] := rfl
  refine ⟨l.c, l.q, l.r, l.timer, ?_, ?_, ?_, ?_, ?_, ?_, ?_, ?_, fun ha => by rw [htr]; exact List.mem_append_left _ (l.gone ha), l.base⟩
  · intro ha
    rw [htr, ← l.fc ha]
    simp [flushedChecks]
  · intro ha
    rw [htr, ← l.fq ha]
    simp [flushedQuotas]
  · rw [htr, ← l.fr]
    simp [flushedReports]
  · rw [htr, ← l.acc, ← hoa]
    simp [acceptedOps]
  · intro hL k
    rw [htr, lastReply_quiet _ _ _ _ (by intro e he; simp only [List.mem_singleton] at he; subst he; rfl)]
    exact l.last hL k
  · intro hL k p hp
    rw [htr, lastGrant_quiet _ _ _ _ (by intro e he; simp only [List.mem_singleton] at he; subst he; rfl)]
    exact l.dq hL k p hp
  · intro _
    rw [htr, List.mem_append, not_or]
    exact ⟨l.fired hal, by simp⟩
  · rw [htr]
    exact l.ok.one hev

theorem freshEv_ok {e : Ev D} (l : Links K B L hc hq hr oc oq or oa s) (hal : s.alive = true) (h : e.hit = false) : e.Ok K s.trace :=
  .plain h (fun hx => absurd hx (l.fired hal))

/-- `Check` after the call has been counted. -/
def checkBody (K : Setup) (i : Nat) (r : CheckRequest D) (t : Bool) (s : Client D) : Res (Client D) :=
  if t = false then .ok (s.done i (.check r) .invalidArgument .none none)
  else do
    let (s, out) ← s.aggCheck K (Check.check K.envC K.cfgC r)
    if out.status = .notFound then do
      let (p, s) := s.alloc
      let id := s.sends
      let s := s.send (some i) (.check r) [p]
      let s ← match K.answer id with
        | none => .ok s
        | some a => finishCheck K i r id a s
      .ok { s with stats := { s.stats with checksInFlight := s.stats.checksInFlight + 1 } }
    else .ok (s.done i (.check r) out.status (match out.response with | none => .none | some p => .check p) none)

theorem check_body {i : Nat} (r : CheckRequest D) (t : Bool) (b : Books (some (i, .check r, none)) [] .zero s)
    (l : Links K B L hc hq hr [] [] [] [] s) (hal : s.alive = true) (hL : L) :
    Outcome K B L True (fun x => x = .c (.check r) ∨ isResponse x) .zero s (checkBody K i r t s) := by
  unfold checkBody
  cases t with
  | false =>
    rw [if_pos rfl]
    left
    refine ⟨_, rfl, ⟨b.done .invalidArgument .none (by simp), hc, hq, hr, ?_⟩, ⟨rfl, rfl, fun _ => rfl⟩⟩
    exact local_links l hal i (.check r) .invalidArgument .none rfl (freshEv_ok l hal rfl)
  | true =>
    rw [if_neg (by simp)]
    simp only [bind, Except.bind]
    rcases aggCheck_spec (P := fun x => x = .c (.check r) ∨ isResponse x) (A := True) (.check r) (.inl rfl) b l (fun _ => .inl ⟨r, rfl⟩)
        (fun _ => trivial) with ⟨s2, c, out, fl, ev, g1, g2, b2, l2, f2, h2, h3, h4⟩ | ⟨e, g1, g2⟩
    · have g1' : Client.aggCheck K s (Check.check K.envC K.cfgC r) = .ok (s2, out) := g1
      rw [g1']
      simp only
      have hal2 : s2.alive = true := by rw [f2.alive]; exact hal
      by_cases hnf : out.status = .notFound
      · rw [if_pos hnf]
        have b3 := b2.alloc.send (own' := []) (o' := none) (some i) (.check r) [s2.nextAddr] (by simp) (.inr ⟨i, rfl, rfl, rfl⟩) (by simp)
        have l3 : Links K B L (ev :: hc) hq hr [] [] [] [] (s2.alloc.2.send (some i) (.check r) [s2.nextAddr]) :=
          send_links (s := s2.alloc.2) (l2.append (evs := []) (fc := []) (fq := []) (fr := []) (fa := []) rfl rfl rfl rfl rfl (List.append_nil _).symm
            rfl rfl rfl rfl (fun _ => rfl) (fun _ => rfl) rfl rfl (by simp) (by simp) (by simp) (by simp)) hal2 i (.check r) [s2.nextAddr]
        have hpay : ∀ s3 : Client D, Good K B L none [] (Stats.zero.add (Stats.ofTrace [Ev.sent s2.alloc.2.sends (some i) (.check r)])) s3 →
            s3.alive = s.alive → s3.timer = s.timer →
            Outcome K B L True (fun x => x = .c (.check r) ∨ isResponse x) .zero s
              (.ok { s3 with stats := { s3.stats with checksInFlight := s3.stats.checksInFlight + 1 } }) := by
          intro s3 ⟨b4, hc4, hq4, hr4, l4⟩ ha ht
          left
          refine ⟨_, rfl, ⟨b4.pay, hc4, hq4, hr4, ?_⟩, ⟨ha, ht, fun hx => by rw [hal] at hx; cases hx⟩⟩
          exact l4.append (evs := []) (fc := []) (fq := []) (fr := []) (fa := []) rfl rfl rfl rfl rfl (List.append_nil _).symm
            rfl rfl rfl rfl (fun _ => rfl) (fun _ => rfl) rfl rfl (by simp) (by simp) (by simp) (by simp)
        simp only [show s2.alloc.1 = s2.nextAddr from rfl]
        cases ha : K.answer s2.alloc.2.sends with
        | none =>
          exact hpay _ ⟨b3, _, _, _, l3⟩ f2.alive f2.timer
        | some a =>
          have hfin := Books.find_sent b2.alloc (some i) (.check r) [s2.nextAddr]
          rcases finishCheck_spec (P := fun x => x = .c (.check r) ∨ isResponse x) (A := True) (fun x hx => .inr hx) a b3 l3 (fun _ => trivial) hfin rfl rfl with
            ⟨s4, k1, k2, k3⟩ | ⟨e, k1, k2⟩
          · simp only
            rw [k1]
            exact hpay s4 k2 (k3.alive.trans f2.alive) (k3.timer.trans f2.timer)
          · simp only
            rw [k1]
            exact .inr ⟨e, rfl, k2⟩
      · rw [if_neg hnf]
        left
        refine ⟨_, rfl, ⟨b2.done _ _ (by simp), ev :: hc, hq, hr, ?_⟩, ⟨f2.alive, f2.timer, fun hx => by rw [hal] at hx; cases hx⟩⟩
        refine local_links l2 hal2 i (.check r) _ _ ?_ ?_
        · generalize out.status = st
          cases st <;> rfl
        · refine ⟨?_, ?_, fun hx => absurd hx (l2.fired hal2)⟩
          · intro i' r' reply he
            simp only [Ev.done.injEq, Call.check.injEq, and_true] at he
            obtain ⟨_, rfl, hok, rfl⟩ := he
            obtain ⟨p, h5, h6⟩ := Check.C31_served_latest l.c.reach r h4 hok
            refine ⟨p, by rw [h5], ?_⟩
            rw [l2.last hL]
            conv => lhs; unfold Check.lastCached
            rw [h2]
            exact h6
          · intro _ i' r' reply he
            simp at he
    · have g1' : Client.aggCheck K s (Check.check K.envC K.cfgC r) = .error e := g1
      rw [g1']
      exact .inr ⟨e, rfl, g2⟩

/-- What `Quota` answers is what was granted last, or the empty response. -/
theorem quota_served (hsane : SaneQ K) (hL : L) (l : Links K B L hc hq hr oc oq or oa s) {r : AllocateQuotaRequest D} {q : Quota.State D}
    {out : Quota.Out} {fl : List (AllocateQuotaRequest D)}
    (hs : Quota.step K.envQ K.cfgQ (K.depth + 1) (.quota r) (s.quota.setCallback true) = .ok (q, out, fl)) (hok : out.status = .ok) :
    ∃ p, out.response = some p ∧ (p = .default ∨ lastGrant K.cfgQ.H (allocateQuotaSig K.cfgQ.H r) s.trace = some p) := by
  by_cases hv : Quota.Valid K.cfgQ r
  · by_cases hpos : 0 < K.cfgQ.numEntries
    · obtain ⟨_, h2, h3, _⟩ := Quota.C44_quota_serves hsane.1 hsane.2 hpos l.q.reach r hv hs
      cases hr : out.response with
      | none => exact absurd hr h2
      | some p =>
        refine ⟨p, rfl, ?_⟩
        rw [hr] at h3
        rcases served_cases h3.symm with h | ⟨h, _⟩ | ⟨r', h, _⟩
        · exact .inl h
        · exact l.dq hL _ p h
        · cases h
    · have hn := l.q.reach.none (by omega)
      exfalso
      unfold Quota.step Quota.quota at hs
      simp only at hs
      rw [if_neg (by simpa using hv.1), if_neg hv.2] at hs
      unfold withBuffer at hs
      rw [hn] at hs
      simp only [bind, Except.bind, Except.ok.injEq, Prod.mk.injEq] at hs
      obtain ⟨_, rfl, _⟩ := hs
      cases hok
  · rw [Quota.C44_invalid_rejected _ hv] at hs
    cases hs
    cases hok

/-- `Quota` after the call has been counted. -/
def quotaBody (K : Setup) (i : Nat) (r : AllocateQuotaRequest D) (t : Bool) (s : Client D) : Res (Client D) :=
  if t = false then .ok (s.done i (.quota r) .invalidArgument .none none)
  else do
    let (s, out) ← s.aggQuota K (Quota.quota K.envQ K.cfgQ (K.depth + 1) r)
    if out.status = .notFound then do
      let (p, s) := s.alloc
      let id := s.sends
      let s := s.send (some i) (.quota r) [p]
      let s ← match K.answer id with
        | none => .ok s
        | some a => finishQuota K i r id a s
      .ok { s with stats := { s.stats with quotasInFlight := s.stats.quotasInFlight + 1 } }
    else .ok (s.done i (.quota r) out.status (match out.response with | none => .none | some p => .quota p) none)

theorem quota_body {i : Nat} (r : AllocateQuotaRequest D) (t : Bool) (b : Books (some (i, .quota r, none)) [] .zero s)
    (l : Links K B L hc hq hr [] [] [] [] s) (hal : s.alive = true) (hL : L) {tr : List (Ev D)} {t' : Bool} (htr : s.trace = tr ++ [.called i (.quota r) t']) :
    Outcome K B L True (fun x => x = .q (.quota r) ∨ isResponse x) .zero s (quotaBody K i r t s) := by
  unfold quotaBody
  cases t with
  | false =>
    rw [if_pos rfl]
    left
    refine ⟨_, rfl, ⟨b.done .invalidArgument .none (by simp), hc, hq, hr, ?_⟩, ⟨rfl, rfl, fun _ => rfl⟩⟩
    exact local_links l hal i (.quota r) .invalidArgument .none rfl (freshEv_ok l hal rfl)
  | true =>
    rw [if_neg (by simp)]
    simp only [bind, Except.bind]
    rcases aggQuota_spec (P := fun x => x = .q (.quota r) ∨ isResponse x) (A := True) (fun x hx => .inr hx) (.quota r) (.inl rfl) b l (by simp)
        (fun _ => trivial) with ⟨s2, c, out, fl, ev, hq', g1, g2, b2, l2, f2, h2, h3, h4⟩ | ⟨e, g1, g2⟩
    · have g1' : Client.aggQuota K s (Quota.quota K.envQ K.cfgQ (K.depth + 1) r) = .ok (s2, out) := g1
      rw [g1']
      simp only
      have hal2 : s2.alive = true := by rw [f2.alive]; exact hal
      by_cases hnf : out.status = .notFound
      · rw [if_pos hnf]
        have b3 := b2.alloc.send (own' := []) (o' := none) (some i) (.quota r) [s2.nextAddr] (by simp) (.inr ⟨i, rfl, rfl, rfl⟩) (by simp)
        have l3 : Links K B L hc hq' hr [] [] [] [] (s2.alloc.2.send (some i) (.quota r) [s2.nextAddr]) :=
          send_links (s := s2.alloc.2) (l2.append (evs := []) (fc := []) (fq := []) (fr := []) (fa := []) rfl rfl rfl rfl rfl (List.append_nil _).symm
            rfl rfl rfl rfl (fun _ => rfl) (fun _ => rfl) rfl rfl (by simp) (by simp) (by simp) (by simp)) hal2 i (.quota r) [s2.nextAddr]
        have hpay : ∀ s3 : Client D, Good K B L none [] (Stats.zero.add (Stats.ofTrace [Ev.sent s2.alloc.2.sends (some i) (.quota r)])) s3 →
            s3.alive = s.alive → s3.timer = s.timer →
            Outcome K B L True (fun x => x = .q (.quota r) ∨ isResponse x) .zero s
              (.ok { s3 with stats := { s3.stats with quotasInFlight := s3.stats.quotasInFlight + 1 } }) := by
          intro s3 ⟨b4, hc4, hq4, hr4, l4⟩ ha ht
          left
          refine ⟨_, rfl, ⟨b4.pay, hc4, hq4, hr4, ?_⟩, ⟨ha, ht, fun hx => by rw [hal] at hx; cases hx⟩⟩
          exact l4.append (evs := []) (fc := []) (fq := []) (fr := []) (fa := []) rfl rfl rfl rfl rfl (List.append_nil _).symm
            rfl rfl rfl rfl (fun _ => rfl) (fun _ => rfl) rfl rfl (by simp) (by simp) (by simp) (by simp)
        simp only [show s2.alloc.1 = s2.nextAddr from rfl]
        cases ha : K.answer s2.alloc.2.sends with
        | none =>
          exact hpay _ ⟨b3, _, _, _, l3⟩ f2.alive f2.timer
        | some a =>
          have hfin := Books.find_sent b2.alloc (some i) (.quota r) [s2.nextAddr]
          rcases finishQuota_spec (P := fun x => x = .q (.quota r) ∨ isResponse x) (A := True) (fun x hx => .inr hx) a b3 l3 (fun _ => trivial) hfin rfl rfl with
            ⟨s4, k1, k2, k3⟩ | ⟨e, k1, k2⟩
          · simp only
            rw [k1]
            exact hpay s4 k2 (k3.alive.trans f2.alive) (k3.timer.trans f2.timer)
          · simp only
            rw [k1]
            exact .inr ⟨e, rfl, k2⟩
      · rw [if_neg hnf]
        left
        refine ⟨_, rfl, ⟨b2.done _ _ (by simp), hc, hq', hr, ?_⟩, ⟨f2.alive, f2.timer, fun hx => by rw [hal] at hx; cases hx⟩⟩
        refine local_links l2 hal2 i (.quota r) _ _ ?_ ?_
        · generalize out.status = st
          cases st <;> rfl
        · refine ⟨?_, ?_, fun hx => absurd hx (l2.fired hal2)⟩
          · intro i' r' reply he
            simp at he
          · intro hsane i' r' reply he
            simp only [Ev.done.injEq, Call.quota.injEq, and_true] at he
            obtain ⟨rfl, rfl, hok, rfl⟩ := he
            obtain ⟨p, h5, h6⟩ := quota_served hsane hL l h4.1 hok
            obtain ⟨evs, k1, _⟩ := f2.trace
            refine ⟨p, tr, t', evs, by rw [h5], ?_, ?_⟩
            · rw [k1]
              show s.trace ++ evs = _
              rw [htr, List.append_assoc]
              rfl
            · rw [htr, lastGrant_quiet _ _ _ _ (by intro e he; simp only [List.mem_singleton] at he; subst he; rfl)] at h6
              exact h6
    · have g1' : Client.aggQuota K s (Quota.quota K.envQ K.cfgQ (K.depth + 1) r) = .error e := g1
      rw [g1']
      exact .inr ⟨e, rfl, g2⟩

/-- `Report` after the call has been counted. -/
def reportBody (K : Setup) (i : Nat) (r : ReportRequest D) (t : Bool) (s : Client D) : Res (Client D) :=
  if t = false then .ok (s.done i (.report r) .invalidArgument .none none)
  else do
    let (s, st) ← s.aggReport K (Report.report K.envR K.cfgR r)
    if st = .notFound then do
      let id := s.sends
      let s := s.send (some i) (.report r) []
      let s ← match K.answer id with
        | none => .ok s
        | some a => finishReport i r id a s
      .ok { s with stats := { s.stats with
        reportsInFlight := s.stats.reportsInFlight + 1
        reportOperations := s.stats.reportOperations + r.operations.length } }
    else .ok (s.done i (.report r) st .none none)

theorem report_body {i : Nat} (r : ReportRequest D) (t : Bool) (b : Books (some (i, .report r, none)) [] .zero s)
    (l : Links K B L hc hq hr [] [] [] [] s) (hal : s.alive = true) :
    Outcome K B L True (fun x => x = .r (.report r) ∨ isResponse x) .zero s (reportBody K i r t s) := by
  unfold reportBody
  cases t with
  | false =>
    rw [if_pos rfl]
    left
    refine ⟨_, rfl, ⟨b.done .invalidArgument .none (by simp), hc, hq, hr, ?_⟩, ⟨rfl, rfl, fun _ => rfl⟩⟩
    exact local_links l hal i (.report r) .invalidArgument .none rfl (freshEv_ok l hal rfl)
  | true =>
    rw [if_neg (by simp)]
    simp only [bind, Except.bind]
    rcases aggReport_spec (P := fun x => x = .r (.report r) ∨ isResponse x) (A := True) (.report r) (.inl rfl) b l hal
        (fun _ => trivial) with ⟨s2, c, st, fl, ev, g1, g2, b2, l2, f2, h2, h3, h4⟩ | ⟨e, g1, g2⟩
    · have g1' : Client.aggReport K s (Report.report K.envR K.cfgR r) = .ok (s2, st) := g1
      rw [g1']
      simp only
      have hal2 : s2.alive = true := by rw [f2.alive]; exact hal
      by_cases hnf : st = .notFound
      · rw [if_pos hnf]
        have b3 := b2.send (own' := []) (o' := none) (some i) (.report r) [] (by simp) (.inr ⟨i, rfl, rfl, rfl⟩) (by simp)
        have l3 : Links K B L hc hq (ev :: hr) [] [] [] [] (s2.send (some i) (.report r) []) :=
          send_links (s := s2) (Links.append (by have := l2; simp only [acceptedBy, hnf, reduceCtorEq, if_false] at this; exact this) (evs := []) (fc := []) (fq := []) (fr := []) (fa := []) rfl rfl rfl rfl rfl (List.append_nil _).symm
            rfl rfl rfl rfl (fun _ => rfl) (fun _ => rfl) rfl rfl (by simp) (by simp) (by simp) (by simp)) hal2 i (.report r) []
        have hpay : ∀ s3 : Client D, Good K B L none [] (Stats.zero.add (Stats.ofTrace [Ev.sent s2.sends (some i) (.report r)])) s3 →
            s3.alive = s.alive → s3.timer = s.timer →
            Outcome K B L True (fun x => x = .r (.report r) ∨ isResponse x) .zero s
              (.ok { s3 with stats := { s3.stats with
                reportsInFlight := s3.stats.reportsInFlight + 1
                reportOperations := s3.stats.reportOperations + r.operations.length } }) := by
          intro s3 ⟨b4, hc4, hq4, hr4, l4⟩ ha ht
          left
          refine ⟨_, rfl, ⟨b4.pay, hc4, hq4, hr4, ?_⟩, ⟨ha, ht, fun hx => by rw [hal] at hx; cases hx⟩⟩
          exact l4.append (evs := []) (fc := []) (fq := []) (fr := []) (fa := []) rfl rfl rfl rfl rfl (List.append_nil _).symm
            rfl rfl rfl rfl (fun _ => rfl) (fun _ => rfl) rfl rfl (by simp) (by simp) (by simp) (by simp)
        cases ha : K.answer s2.sends with
        | none =>
          exact hpay _ ⟨b3, _, _, _, l3⟩ f2.alive f2.timer
        | some a =>
          have hfin := Books.find_sent b2 (some i) (.report r) []
          rcases finishReport_spec (P := fun x => x = .r (.report r) ∨ isResponse x) (A := True) a b3 l3 hfin rfl rfl with
            ⟨s4, k1, k2, k3⟩ | ⟨e, k1, k2⟩
          · simp only
            rw [k1]
            exact hpay s4 k2 (k3.alive.trans f2.alive) (k3.timer.trans f2.timer)
          · simp only
            rw [k1]
            exact .inr ⟨e, rfl, k2⟩
      · rw [if_neg hnf]
        left
        refine ⟨_, rfl, ⟨b2.done _ _ (by simp), hc, hq, ev :: hr, ?_⟩, ⟨f2.alive, f2.timer, fun hx => by rw [hal] at hx; cases hx⟩⟩
        refine local_links l2 hal2 i (.report r) _ _ ?_ ?_
        · simp only [acceptedBy, acceptedOps, List.flatMap_cons, List.flatMap_nil, List.append_nil]
          cases st <;> rfl
        · exact freshEv_ok l2 hal2 (by cases st <;> rfl)
    · have g1' : Client.aggReport K s (Report.report K.envR K.cfgR r) = .error e := g1
      rw [g1']
      exact .inr ⟨e, rfl, g2⟩

theorem Outcome.same {P : AggCall D → Prop} {s s1 : Client D} {R : Res (Client D)} (h : Outcome K B L A P owed s1 R) (hs : Same s s1) :
    Outcome K B L A P owed s R := by
  rcases h with ⟨s', h1, h2, h3⟩ | h
  · exact .inl ⟨s', h1, h2, hs.trans h3⟩
  · exact .inr h

theorem check_spec (r : CheckRequest D) (t : Bool) (g : Good K B L none [] .zero s) (hal : s.alive = true) (hL : L) :
    Outcome K B L True (fun x => x = .c (.check r) ∨ isResponse x) .zero s (check K r t s) := by
  obtain ⟨b, hc, hq, hr, l⟩ := g
  exact (check_body r t (b.begin (.check r) t).pay (begin_links l hal (.check r) t _) hal hL).same ⟨rfl, rfl, fun _ => rfl⟩

theorem quota_spec (r : AllocateQuotaRequest D) (t : Bool) (g : Good K B L none [] .zero s) (hal : s.alive = true) (hL : L) :
    Outcome K B L True (fun x => x = .q (.quota r) ∨ isResponse x) .zero s (quota K r t s) := by
  obtain ⟨b, hc, hq, hr, l⟩ := g
  exact (quota_body r t (b.begin (.quota r) t).pay (begin_links l hal (.quota r) t _) hal hL rfl).same ⟨rfl, rfl, fun _ => rfl⟩

theorem report_spec (r : ReportRequest D) (t : Bool) (g : Good K B L none [] .zero s) (hal : s.alive = true) :
    Outcome K B L True (fun x => x = .r (.report r) ∨ isResponse x) .zero s (report K r t s) := by
  obtain ⟨b, hc, hq, hr, l⟩ := g
  exact (report_body r t (b.begin (.report r) t).pay (begin_links l hal (.report r) t _) hal).same ⟨rfl, rfl, fun _ => rfl⟩

/-- The completion callback of a flushed quota request uses the client. -/
def Dangling (s : Client D) (p : Pend D) : Prop := s.alive = false ∧ p.by_ = none ∧ ∃ r, p.req = .quota r

theorem complete_dangling {id : Nat} {a : Answer} {p : Pend D} (h : s.pend.find? (·.id == id) = some p) (hd : Dangling s p) :
    complete K id a s = .error .useAfterFree := by
  obtain ⟨hal, hb, r, hreq⟩ := hd
  unfold complete
  rw [h]
  simp only
  rw [hb, hreq]
  simp only [finishQuotaFlush]
  rw [take_ok a h]
  simp only [bind, Except.bind]
  exact if_pos hal

theorem complete_spec {P : AggCall D → Prop} (hP : ∀ x, isResponse x → P x) {id : Nat} (a : Answer) {p : Pend D} (g : Good K B L none [] .zero s)
    (h : s.pend.find? (·.id == id) = some p) (hd : ¬ Dangling s p) :
    Outcome K B L (s.alive = true) P .zero s (complete K id a s) := by
  obtain ⟨b, hc, hq, hr, l⟩ := g
  unfold complete
  rw [h]
  simp only
  have hplain : p.by_ = none → (∀ r, p.req ≠ .quota r) → Outcome K B L (s.alive = true) P .zero s (finishPlain id a s) := by
    intro hb hnq
    obtain ⟨s', h1, b1, h2, h3, h4, h5, h6, h7, h8⟩ := finishPlain_spec b a h hb
    left
    refine ⟨s', h1, ⟨b1, hc, hq, hr, ?_⟩, ⟨h5, h6, fun _ => h4⟩⟩
    refine l.append (evs := [.completed id none p.req a]) (fc := []) (fq := []) (fr := []) (fa := [])
      h2 h3 h4 h5 h6 h8 rfl rfl rfl rfl (fun _ => rfl) (fun _ => rfl) rfl rfl ?_ (by simp) ?_ ?_
    · intro _ k e he
      simp only [List.mem_singleton] at he
      subst he
      refine ⟨rfl, ?_⟩
      cases hc : p.req with
      | quota r => exact absurd hc (hnq r)
      | check r => rfl
      | report r => rfl
    · intro e he; simp only [List.mem_singleton] at he; subst he; rfl
    · intro _ e he; simp only [List.mem_singleton] at he; subst he; rfl
  cases hb : p.by_ with
  | some i =>
    cases hreq : p.req with
    | check r => exact finishCheck_spec hP a b l (fun h => h) h hb hreq
    | quota r => exact finishQuota_spec hP a b l (fun h => h) h hb hreq
    | report r => exact finishReport_spec a b l h hb hreq
  | none =>
    cases hreq : p.req with
    | check r => exact hplain hb (by rw [hreq]; simp)
    | report r => exact hplain hb (by rw [hreq]; simp)
    | quota r =>
      have hal : s.alive = true := by
        cases ha : s.alive with
        | true => rfl
        | false => exact absurd ⟨ha, hb, r, hreq⟩ hd
      simp only
      rcases finishQuotaFlush_spec (A := s.alive = true) P hP a b l hal h hb hreq (fun fl s => fl.foldlM (quotaFlushCallback K) s) (by
        intro fl s1 hq' b1 l1 hal1
        rw [List.nil_append, ← List.append_nil fl] at l1
        rw [List.append_nil] at b1 ⊢
        exact quotaFlushes hP fl s1 hq' b1 l1 (fun hx => by rw [hal1] at hx; cases hx) (fun _ => hal)) with
        ⟨s', hq', h1, b1, l1, f1⟩ | ⟨e, h1, h2⟩
      · exact .inl ⟨s', h1, ⟨b1, hc, hq', hr, l1⟩, f1.same⟩
      · exact .inr ⟨e, h1, h2⟩

/-- `Flush` on the three aggregators. -/
theorem timer_spec (g : Good K B L none [] .zero s) :
    Outcome K B L True (fun x => x = .c .flush ∨ x = .q .flush ∨ x = .r .flush ∨ isResponse x) .zero s (timer K s) := by
  obtain ⟨b, hc, hq, hr, l⟩ := g
  unfold timer
  cases ht : s.timer with
  | none => exact .inl ⟨s, rfl, ⟨b, hc, hq, hr, l⟩, ⟨rfl, rfl, fun _ => rfl⟩⟩
  | some n =>
    have hal : s.alive = true := by
      cases ha : s.alive with
      | true => rfl
      | false => have := l.timer ha; rw [ht] at this; cases this
    simp only [bind, Except.bind]
    have b1 := b.mark .fired (.inl rfl)
    have l1 : Links K B L hc hq hr [] [] [] [] (s.log .fired) := by
      refine l.append (evs := [.fired]) (fc := []) (fq := []) (fr := []) (fa := [])
        rfl rfl rfl rfl rfl rfl rfl rfl rfl rfl (fun _ => rfl) (fun _ => rfl) rfl rfl ?_ (by simp) ?_ ?_
      · intro _ k e he; simp only [List.mem_singleton] at he; subst he; exact ⟨rfl, rfl⟩
      · intro e he; simp only [List.mem_singleton] at he; subst he; rfl
      · intro h; rw [hal] at h; cases h
    rcases aggCheck_spec (P := fun x => x = .c .flush ∨ x = .q .flush ∨ x = .r .flush ∨ isResponse x) (A := True) .flush (.inl rfl) b1 l1
      (fun _ => .inr rfl) (fun _ => trivial) with ⟨s2, c, out, fl, ev, g1, g2, b2, l2, f2, h2, h3, h4⟩ | ⟨e, g1, g2⟩
    · have g1' : Client.aggCheck K (s.log .fired) (Check.flush K.envC K.cfgC) = .ok (s2, out) := g1
      rw [g1']
      simp only
      rcases aggQuota_spec (P := fun x => x = .c .flush ∨ x = .q .flush ∨ x = .r .flush ∨ isResponse x) (A := True) (fun x hx => .inr (.inr (.inr hx)))
        .flush (.inr (.inl rfl)) b2 l2 (by simp) (fun _ => trivial) with ⟨s3, c3, out3, fl3, ev3, hq', g3, g4, b3, l3, f3, _⟩ | ⟨e, g3, g4⟩
      · have g3' : Client.aggQuota K s2 (Quota.flush K.envQ K.cfgQ (K.depth + 1)) = .ok (s3, out3) := g3
        rw [g3']
        simp only
        have hal3 : s3.alive = true := by rw [f3.alive]; show s2.alive = true; rw [f2.alive]; exact hal
        rcases aggReport_spec (P := fun x => x = .c .flush ∨ x = .q .flush ∨ x = .r .flush ∨ isResponse x) (A := True)
          .flush (.inr (.inr (.inl rfl))) b3 l3 hal3 (fun _ => trivial) with ⟨s4, c4, st4, fl4, ev4, g5, g6, b4, l4, f4, _⟩ | ⟨e, g5, g6⟩
        · have g5' : Client.aggReport K s3 (Report.flush K.envR K.cfgR) = .ok (s4, st4) := g5
          rw [g5']
          refine .inl ⟨s4, rfl, ⟨b4, _, _, _, l4⟩, ?_, ?_, fun hx => by rw [hal] at hx; cases hx⟩
          · exact f4.alive.trans (f3.alive.trans f2.alive)
          · exact f4.timer.trans (f3.timer.trans f2.timer)
        · have g5' : Client.aggReport K s3 (Report.flush K.envR K.cfgR) = .error e := g5
          rw [g5']
          exact .inr ⟨e, rfl, g6⟩
      · have g3' : Client.aggQuota K s2 (Quota.flush K.envQ K.cfgQ (K.depth + 1)) = .error e := g3
        rw [g3']
        exact .inr ⟨e, rfl, g4⟩
    · have g1' : Client.aggCheck K (s.log .fired) (Check.flush K.envC K.cfgC) = .error e := g1
      rw [g1']
      exact .inr ⟨e, rfl, g2⟩

theorem flushAll_spec (g : Good K B L none [] .zero s) (hal : s.alive = true) :
    (∃ s', flushAll K s = .ok s' ∧ Good K B False none [] .zero s' ∧ s'.alive = true ∧ s'.timer = s.timer ∧
      Check.cachedSigs s'.check = [] ∧ Check.pendingOps K.cfgC s'.check = [] ∧ Report.cachedOps K.cfgR s'.report = []) ∨
    ∃ e, flushAll K s = .error e ∧ Err K True (fun x : AggCall D => x = .c .flushAll ∨ x = .q .flushAll ∨ x = .r .flushAll ∨ isResponse x) e := by
  obtain ⟨b, hc, hq, hr, l'⟩ := g
  have l := l'.weaken (L' := False) (fun h => h.elim)
  unfold flushAll
  simp only [bind, Except.bind]
  rcases aggCheck_spec (P := fun x => x = .c .flushAll ∨ x = .q .flushAll ∨ x = .r .flushAll ∨ isResponse x) (A := True) .flushAll (.inl rfl) b l
    (fun h => h.elim) (fun _ => trivial) with ⟨s2, c, out, fl, ev, g1, g2, b2, l2, f2, h2, h3, h4⟩ | ⟨e, g1, g2⟩
  · have g1' : Client.aggCheck K s (Check.flushAll K.envC K.cfgC) = .ok (s2, out) := g1
    rw [g1']
    simp only
    rcases aggQuota_spec (P := fun x => x = .c .flushAll ∨ x = .q .flushAll ∨ x = .r .flushAll ∨ isResponse x) (A := True) (fun x hx => .inr (.inr (.inr hx)))
      .flushAll (.inr (.inl rfl)) b2 l2 (by simp) (fun _ => trivial) with ⟨s3, c3, out3, fl3, ev3, hq', g3, g4, b3, l3, f3, _⟩ | ⟨e, g3, g4⟩
    · have g3' : Client.aggQuota K s2 (Quota.flushAll K.envQ K.cfgQ (K.depth + 1)) = .ok (s3, out3) := g3
      rw [g3']
      simp only
      have hal3 : s3.alive = true := by rw [f3.alive]; show s2.alive = true; rw [f2.alive]; exact hal
      rcases aggReport_spec (P := fun x => x = .c .flushAll ∨ x = .q .flushAll ∨ x = .r .flushAll ∨ isResponse x) (A := True)
        .flushAll (.inr (.inr (.inl rfl))) b3 l3 hal3 (fun _ => trivial) with ⟨s4, c4, st4, fl4, ev4, g5, g6, b4, l4, f4, _, _, g7⟩ | ⟨e, g5, g6⟩
      · have g5' : Client.aggReport K s3 (Report.flushAll K.envR K.cfgR) = .ok (s4, st4) := g5
        rw [g5']
        have hck : s4.check = c := by rw [f4.check]; show s3.check = c; rw [f3.check]; show s2.check = c; rw [f2.check]
        have hce := Check.C36_flushAll_empties l.c.reach h4
        have hre := Report.C38_flushAll_empties l3.r.reach g7
        refine .inl ⟨s4, rfl, ⟨b4, _, _, _, l4⟩, f4.alive.trans hal3, f4.timer.trans (f3.timer.trans f2.timer), ?_, ?_, ?_⟩
        · rw [hck]; exact hce.1
        · rw [hck]; exact hce.2
        · rw [f4.report]; exact hre
      · have g5' : Client.aggReport K s3 (Report.flushAll K.envR K.cfgR) = .error e := g5
        rw [g5']
        exact .inr ⟨e, rfl, g6⟩
    · have g3' : Client.aggQuota K s2 (Quota.flushAll K.envQ K.cfgQ (K.depth + 1)) = .error e := g3
      rw [g3']
      exact .inr ⟨e, rfl, g4⟩
  · have g1' : Client.aggCheck K s (Check.flushAll K.envC K.cfgC) = .error e := g1
    rw [g1']
    exact .inr ⟨e, rfl, g2⟩

theorem destroy_spec (g : Good K B L none [] .zero s) (hal : s.alive = true) :
    (∃ s', destroy K s = .ok s' ∧ Good K B False none [] .zero s' ∧ s'.alive = false ∧
      Check.pendingOps K.cfgC s'.check = [] ∧ Report.cachedOps K.cfgR s'.report = []) ∨
    ∃ e, destroy K s = .error e ∧ Err K True (fun x : AggCall D => x = .c .flushAll ∨ x = .q .flushAll ∨ x = .r .flushAll ∨ isResponse x) e := by
  unfold destroy
  simp only [bind, Except.bind]
  rcases flushAll_spec g hal with ⟨s1, h1, ⟨b, hc, hq, hr, l⟩, ha, ht, h3, h4, h5⟩ | ⟨e, h1, h2⟩
  · left
    rw [h1]
    refine ⟨_, rfl, ⟨?_, hc, hq, hr, ?_⟩, rfl, h4, h5⟩
    · exact (b.mark .destroyed (.inr rfl)).congr rfl rfl rfl rfl rfl rfl rfl
    · refine ⟨⟨l.c.reach, rfl⟩, ⟨l.q.reach, rfl⟩, ⟨l.r.reach, rfl⟩, fun _ => rfl, ?_, ?_, ?_, ?_, fun h => h.elim, ?_, ?_, ?_,
        fun _ => List.mem_append_right _ (List.mem_singleton.mpr rfl), l.base⟩
      · intro h; cases h
      · intro h; cases h
      · have := l.fr
        show flushedReports (s1.trace ++ [.destroyed]) ++ [] = _
        rw [← this]; simp [flushedReports]
      · have := l.acc
        show acceptedOps (s1.trace ++ [.destroyed]) ++ [] = _
        rw [← this]; simp [acceptedOps]
      · intro h; cases h
      · intro h; cases h
      · exact l.ok.one (.plain rfl (fun hx => absurd hx (l.fired ha)))
  · right
    rw [h1]
    exact ⟨e, rfl, h2⟩

/-! ### Reachable states -/

/-- The invariant of the client. -/
structure Inv (K : Setup) (B : Base D) (s : Client D) : Prop where
  good : Good K B (s.alive = true) none [] .zero s
  empty : s.alive = false → Report.cachedOps K.cfgR s.report = []

theorem Inv.of_outcome {P : AggCall D → Prop} {s' : Client D} {R : Res (Client D)} (i : Inv K B s) (h : Outcome K B (s.alive = true) A P .zero s R)
    (hR : R = .ok s') :
    Inv K B s' ∧ Same s s' := by
  rw [hR] at h
  rcases h with ⟨s1, h1, h2, h3⟩ | ⟨e, h1, _⟩
  · cases h1
    refine ⟨⟨?_, ?_⟩, h3⟩
    · rw [h3.alive]; exact h2
    · intro ha
      rw [h3.alive] at ha
      rw [h3.report ha]
      exact i.empty ha
  · cases h1

theorem Inv.new (h : new K = .ok s) : Inv K {} s := by
  have b := Books.new h
  unfold Client.new at h
  cases h1 : Check.new (D := D) K.envC K.cfgC <;> simp only [h1, bind, Except.bind, reduceCtorEq] at h
  cases h2 : Quota.new (D := D) K.envQ K.cfgQ (K.depth + 1) <;> simp only [h2, reduceCtorEq] at h
  cases h3 : Report.new (D := D) K.envR K.cfgR <;> simp only [h3, reduceCtorEq] at h
  cases h
  refine ⟨⟨b, [], [], [], ?_⟩, by simp⟩
  have c1 := Check.Reach.init h1
  have c2 := Quota.Reach.init h2
  have c3 := Report.Reach.init h3
  refine ⟨⟨c1, rfl⟩, ⟨c2, rfl⟩, ⟨c3, rfl⟩, by simp, fun _ => rfl, fun _ => rfl, rfl, rfl, fun _ _ => rfl, ?_, by simp, .nil K, by simp, by simp⟩
  intro _ k p hp; cases hp

theorem Inv.step {op : Op D} {s' : Client D} (i : Inv K B s) (h : step K op s = .ok s') : Inv K B s' := by
  unfold Client.step at h
  cases op with
  | call c t =>
    simp only at h
    split at h
    · cases h
    · rename_i hal
      have hal' : s.alive = true := by cases ha : s.alive with | true => rfl | false => exact absurd ha hal
      cases c with
      | check r => exact (i.of_outcome (check_spec r (present K (.check r) t) i.good hal' hal') h).1
      | quota r => exact (i.of_outcome (quota_spec r (present K (.quota r) t) i.good hal' hal') h).1
      | report r => exact (i.of_outcome (report_spec r (present K (.report r) t) i.good hal') h).1
  | complete id a =>
    simp only at h
    cases hf : s.pend.find? (·.id == id) with
    | none => unfold complete at h; rw [hf] at h; cases h
    | some p =>
      by_cases hd : Dangling s p
      · rw [complete_dangling hf hd] at h; cases h
      · exact (i.of_outcome (complete_spec (fun x hx => hx) a i.good hf hd) h).1
  | timer => exact (i.of_outcome (timer_spec i.good) h).1
  | destroy =>
    simp only at h
    split at h
    · cases h
    · rename_i hal
      have hal' : s.alive = true := by cases ha : s.alive with | true => rfl | false => exact absurd ha hal
      rcases destroy_spec i.good hal' with ⟨s1, h1, h2, h3, h4, h5⟩ | ⟨e, h1, _⟩
      · rw [h1] at h
        cases h
        refine ⟨?_, fun _ => h5⟩
        have : ¬ (s'.alive = true) := by rw [h3]; simp
        obtain ⟨b, hc, hq, hr, l⟩ := h2
        exact ⟨b, hc, hq, hr, l.weaken this⟩
      · rw [h1] at h; cases h

theorem Reach.inv (r : Reach K s) : Inv K {} s := by
  induction r with
  | new h => exact .new h
  | step _ hs ih => exact ih.step hs

end Verif.Client
