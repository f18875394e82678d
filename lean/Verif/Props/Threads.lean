import Verif.Lemmas.ThreadShut
import Verif.Spec.Threads
/-
C87 - C94: the client used by many threads.
-/
set_option linter.unusedSectionVars false
namespace Verif.Threads
open Client
variable {D : Type} [DoubleOps D] {K : Setup} {stops : Bool} {s : Sys D}

/-! ### Every call is answered once -/

omit [DoubleOps D] in
theorem calls_issued {os : Opens D} {own : List Nat} {owed : Stats} {c : Client D} (b : Books os own owed c) (i : Nat) :
    calls i c.trace = issued i c.calls := by
  unfold calls issued
  rw [countP_filterMap_eq, b.called]
  split
  · rename_i h
    exact List.count_eq_one_of_mem (List.nodup_range) (List.mem_range.mpr h)
  · rename_i h
    exact List.count_eq_zero_of_not_mem (fun hm => h (List.mem_range.mp hm))

omit [DoubleOps D] in
theorem openN_rest {i : Nat} (h : Rest i s) : openN i (opensOf s.acts) = 0 ∧ unsentN i (opensOf s.acts) = 0 := by
  have hz : ∀ x ∈ opensOf s.acts, x.1 ≠ i := by
    intro x hx hxi
    obtain ⟨a, ha, hxa⟩ := List.mem_flatMap.mp hx
    obtain ⟨t, ht, hat⟩ := List.mem_flatten.mp ha
    have hw := h t ht a hat
    cases a <;> simp only [Act.opens, List.not_mem_nil, List.mem_singleton] at hxa <;> try (subst hxa; exact hw (by simp [Act.worksOn, ← hxi]))
    rename_i p _
    obtain ⟨id, by_, req, own⟩ := p
    cases by_ with
    | none => simp [openOf] at hxa
    | some j =>
      simp only [openOf, List.mem_singleton] at hxa
      subst hxa
      exact hw (by simp [Act.worksOn, ← hxi])
  constructor
  · exact List.countP_eq_zero.mpr (fun x hx => by simp [hz x hx])
  · exact List.countP_eq_zero.mpr (fun x hx => by simp [hz x hx])

/-- C87: under every schedule a call is numbered once, its done callback is invoked at most once and never while it
waits for a transport, it is answered at once or at most one transport call is made for it; when no thread works on
it, one of these has happened. -/
theorem C87_exactly_once (r : Reach K stops s) (i : Nat) :
    calls i s.c.trace ≤ 1 ∧ dones i s.c.trace + outstandingFor i s.c.trace ≤ calls i s.c.trace ∧
      sends i s.c.trace + locals i s.c.trace ≤ calls i s.c.trace ∧
      (Rest i s → dones i s.c.trace + outstandingFor i s.c.trace = calls i s.c.trace ∧
        sends i s.c.trace + locals i s.c.trace = calls i s.c.trace) := by
  have b := r.inv.books
  have h1 := b.account i
  have h2 := b.sendsA i
  have h3 := calls_issued b i
  have h4 : issued i s.c.calls ≤ 1 := by unfold issued; split <;> omega
  refine ⟨by omega, by omega, by omega, fun hr => ?_⟩
  obtain ⟨h5, h6⟩ := openN_rest hr
  omega

/-- C87: when no thread is inside of the client and no transport call is outstanding, every call that was made has
been answered. -/
theorem C87_all_answered (r : Reach K stops s) (hq : Quiet s) (ho : outstanding s.c.trace = []) (i : Nat) :
    dones i s.c.trace = calls i s.c.trace := by
  have hr : Rest i s := fun t ht a ha => by rw [hq t ht] at ha; cases ha
  have h1 := ((C87_exactly_once r i).2.2.2 hr).1
  have h2 : outstandingFor i s.c.trace = 0 := by unfold outstandingFor; rw [ho]; rfl
  omega

/-- C87: a done callback belongs to a call that was made, and if it waited for a transport it reports what that
transport delivered for the request of the call. -/
theorem C87_done_reports (r : Reach K stops s) {i : Nat} {c : Call D} {st : Status} {reply : Reply} {via : Option Nat}
    (h : Ev.done i c st reply via ∈ s.c.trace) :
    (∃ t, Ev.called i c t ∈ s.c.trace) ∧ ∀ id, via = some id → Ev.sent id (some i) c ∈ s.c.trace ∧
      ∃ a, Ev.completed id (some i) c a ∈ s.c.trace ∧ st = a.status ∧ reply = replyOf c a := by
  have b := r.inv.books
  obtain ⟨h1, h2⟩ := b.doneOk _ _ _ _ _ h
  refine ⟨h1, fun id hid => ?_⟩
  obtain ⟨a, h3, h4, h5⟩ := h2 id hid
  exact ⟨b.complOk _ _ _ _ h3, a, h3, h4.symm, h5⟩

/-- C87: a transport is called for a call with the request of that call. -/
theorem C87_sent_as_called (r : Reach K stops s) {id i : Nat} {c : Call D} (h : Ev.sent id (some i) c ∈ s.c.trace) :
    ∃ t, Ev.called i c t ∈ s.c.trace := r.inv.books.byOk _ _ _ h

/-- C87: a transport call is completed at most once, and only if it was made. -/
theorem C87_completed_once (r : Reach K stops s) :
    (s.c.trace.filterMap Ev.completedId).Nodup ∧
      ∀ id b c a, Ev.completed id b c a ∈ s.c.trace → Ev.sent id b c ∈ s.c.trace :=
  ⟨r.inv.books.compl, r.inv.books.complOk⟩

/-! ### Statistics -/

/-- C88: no counter is ever ahead of the events it counts. -/
theorem C88_not_ahead (r : Reach K stops s) : Stats.le s.c.stats (Stats.ofTrace s.c.trace) := by
  have h := r.inv.books.stats
  rw [← h]
  simp [Stats.le, Stats.add]

/-- C88: when no thread is inside of the client the statistics are the numbers of calls, of transport calls made for
them and by flush callbacks, and of operations sent. -/
theorem C88_statistics (r : Reach K stops s) (hq : Quiet s) : s.c.stats = Stats.ofTrace s.c.trace := by
  have h := r.inv.books.stats
  have h0 : s.acts = [] := by
    unfold Sys.acts
    rw [List.flatten_eq_nil_iff]
    exact hq
  rw [h0] at h
  rwa [show owedOf ([] : List (Act D)) = Stats.zero from rfl, Stats.add_zero] at h

/-! ### Memory -/

/-- C89: when no thread is inside of the client every object on the heap belongs to exactly one outstanding transport
call; when none is outstanding none is left. -/
theorem C89_no_leak (r : Reach K stops s) (hq : Quiet s) :
    s.c.pend.map (fun p => (p.id, p.by_, p.req)) = outstanding s.c.trace ∧ s.c.heap.Perm (s.c.pend.flatMap (·.own)) ∧ s.c.heap.Nodup ∧
      (outstanding s.c.trace = [] → s.c.heap = []) := by
  have b := r.inv.books
  have h0 : s.acts = [] := by
    unfold Sys.acts
    rw [List.flatten_eq_nil_iff]
    exact hq
  rw [h0] at b
  have h1 : s.c.heap.Perm (s.c.pend.flatMap (·.own)) := b.heap
  refine ⟨b.pend, h1, b.nodup, fun h => ?_⟩
  have h2 := b.pend
  rw [h, List.map_eq_nil_iff] at h2
  rw [h2] at h1
  simpa using h1

omit [DoubleOps D] in
theorem Inv.alive_of_api {a : Act D} {R : List (Act D)} (i : Inv (a :: R) s) (h : a.api = true) : s.c.alive = true := by
  cases ha : s.c.alive with
  | true => rfl
  | false =>
    have := i.life.api (i.life.dead ha).1 a List.mem_cons_self
    rw [h] at this; cases this

omit [DoubleOps D] in
theorem touch_own {os : Opens D} {own own' : List Nat} {owed : Stats} {c : Client D} (b : Books os (own ++ own') owed c) :
    c.touch own = .ok () := by
  unfold Client.touch
  rw [if_pos]
  rw [List.all_eq_true]
  intro p hp
  exact decide_eq_true (b.heap.mem_iff.mpr (List.mem_append_left _ (List.mem_append_left _ hp)))

theorem aggC_error {x : Check.Call D} {e : Fault} (h : aggC K x s = .error e) : Check.step K.envC K.cfgC x s.c.check = .error e := by
  unfold aggC at h
  cases hx : Check.step K.envC K.cfgC x s.c.check with
  | error e' => rw [hx] at h; cases h; rfl
  | ok y => rw [hx] at h; cases h

theorem aggQ_error {x : Quota.Call D} {e : Fault} (h : aggQ K x s = .error e) :
    Quota.step K.envQ K.cfgQ (K.depth + 1) x s.c.quota = .error e := by
  unfold aggQ at h
  cases hx : Quota.step K.envQ K.cfgQ (K.depth + 1) x s.c.quota with
  | error e' => rw [hx] at h; cases h; rfl
  | ok y => rw [hx] at h; cases h

theorem aggR_error {x : Report.Call D} {e : Fault} (h : aggR K x s = .error e) : Report.step K.envR K.cfgR x s.c.report = .error e := by
  unfold aggR at h
  cases hx : Report.step K.envR K.cfgR x s.c.report with
  | error e' => rw [hx] at h; cases h; rfl
  | ok y => rw [hx] at h; cases h

section
variable {hc : Check.Hist D} {hq : Quota.Hist D} {hr : Report.Hist D} {A : List (Act D)}

theorem links_errC (l : Links K hc hq hr A s) (hs : Sane K) {x : Check.Call D} {e : Fault} (h : aggC K x s = .error e) :
    (∃ q, x = .check q) ∧ e = .signedOverflow := by
  obtain ⟨s', g1, g2⟩ := CheckIs.error l.c (aggC_error h)
  rcases Check.C68_check_returns g1 hs.c x with ⟨y, g3⟩ | ⟨g3, g4⟩
  · rw [g3] at g2; cases g2
  · rw [g4] at g2; cases g2; exact ⟨g3, rfl⟩

theorem links_errR (l : Links K hc hq hr A s) (hs : Sane K) {x : Report.Call D} {e : Fault} (h : aggR K x s = .error e) :
    (∃ q, x = .report q) ∧ e = .signedOverflow := by
  obtain ⟨s', g1, g2⟩ := ReportIs.error l.r (aggR_error h)
  have h1 := Report.C64_report_flush_returns g1 hs.r
  cases x with
  | report q =>
    rcases Report.C64_report_returns g1 hs.r (.report q) with ⟨y, g3⟩ | g3
    · rw [g3] at g2; cases g2
    · rw [g3] at g2; cases g2; exact ⟨⟨q, rfl⟩, rfl⟩
  | flush => obtain ⟨⟨_, _, g⟩, _⟩ := h1; rw [g] at g2; cases g2
  | flushAll => obtain ⟨_, _, _, g⟩ := h1; rw [g] at g2; cases g2

theorem links_errQ (l : Links K hc hq hr A s) (hs : Sane K) {x : Quota.Call D} {e : Fault} (h : aggQ K x s = .error e) :
    ∃ q, x = .quota q := by
  obtain ⟨s', g1, g2⟩ := QuotaIs.error l.q (aggQ_error h)
  by_cases hx : ∃ q, x = .quota q
  · exact hx
  · obtain ⟨y, g⟩ := quota_returns hs.q g1 x (fun q hq => hx ⟨q, hq⟩)
    rw [g] at g2; cases g2

end

/-- What may go wrong in one piece of code. -/
inductive Wrong (K : Setup) (s : Sys D) : Act D → Fault → Prop
  /-- a flush callback calls a default transport that is empty -/
  | empty {c} : hasDefault K c = false → Wrong K s (.calling c) .badFunctionCall
  /-- the callback of a quota request sent by a flush starts after the destruction -/
  | late {p a q} : s.c.alive = false → p.by_ = none → p.req = .quota q → Wrong K s (.fin p a) .useAfterFree
  /-- it is still running after the destruction -/
  | running {own} : s.c.alive = false → Wrong K s (.free own true) .useAfterFree
  /-- a time or a counter overflows in the check or the report aggregator -/
  | overflow {i c} : (∀ q, c ≠ .quota q) → Wrong K s (.agg i c) .signedOverflow
  /-- a quota call in its aggregator -/
  | quota {i q e} : Wrong K s (.agg i (.quota q)) e

theorem runFin_error (hs : Sane K) {hc : Check.Hist D} {hq : Quota.Hist D} {hr : Report.Hist D} {p : Pend D} {a : Answer} {R : List (Act D)}
    (i : Inv (.fin p a :: R) s) (l : Links K hc hq hr (.fin p a :: R) s) {e : Fault} (h : runFin K p a s = .error e) : Wrong K s (.fin p a) e := by
  have ht : s.c.touch p.own = .ok () := touch_own (own' := ownOf R) i.books
  obtain ⟨id, by_, req, own⟩ := p
  cases req with
  | check r =>
    cases by_ with
    | some j =>
      simp only [runFin, bind, Except.bind] at h
      split at h
      · rw [ht] at h
        simp only at h
        cases hx : aggC K (.cacheResponse r a.check) s with
        | error e' => obtain ⟨⟨q, g⟩, _⟩ := links_errC l hs hx; cases g
        | ok y => rw [hx] at h; cases h
      · cases h
    | none => simp only [runFin] at h; cases h
  | quota r =>
    cases by_ with
    | some j =>
      simp only [runFin, bind, Except.bind] at h
      rw [ht] at h
      simp only at h
      cases hx : aggQ K (.cacheResponse r (if a.status = .ok then a.quota else .default)) s with
      | error e' => obtain ⟨q, g⟩ := links_errQ l hs hx; cases g
      | ok y => rw [hx] at h; cases h
    | none =>
      simp only [runFin, bind, Except.bind] at h
      split at h
      · rename_i hal
        cases h
        exact .late hal rfl rfl
      · rw [ht] at h
        simp only at h
        cases hx : aggQ K (.cacheResponse r (if a.status = .ok then a.quota else .default)) s with
        | error e' => obtain ⟨q, g⟩ := links_errQ l hs hx; cases g
        | ok y => rw [hx] at h; cases h
  | report r => cases by_ <;> (simp only [runFin] at h; cases h)

theorem exec_error (hs : Sane K) {hc : Check.Hist D} {hq : Quota.Hist D} {hr : Report.Hist D} {a : Act D} {R : List (Act D)}
    (i : Inv (a :: R) s) (l : Links K hc hq hr (a :: R) s) {e : Fault} (h : exec K stops a s = some (.error e)) : Wrong K s a e := by
  have api : a.api = true → s.c.alive = true := i.alive_of_api
  cases a with
  | user => simp only [exec] at h; cases h
  | start j c t => simp only [exec, this, api rfl] at h; cases h
  | agg j c =>
    simp only [exec, this, api rfl, Bool.true_eq_false, if_false, Option.some.injEq] at h
    cases c with
    | check r =>
      simp only [runCall, bind, Except.bind] at h
      cases hx : aggC K (.check r) s with
      | error e' =>
        rw [hx] at h; cases h
        obtain ⟨_, rfl⟩ := links_errC l hs hx
        exact .overflow (by simp)
      | ok y => rw [hx] at h; cases h
    | quota r => exact .quota
    | report r =>
      simp only [runCall, bind, Except.bind] at h
      cases hx : aggR K (.report r) s with
      | error e' =>
        rw [hx] at h; cases h
        obtain ⟨_, rfl⟩ := links_errR l hs hx
        exact .overflow (by simp)
      | ok y => rw [hx] at h; cases h
  | result j c st reply =>
    simp only [exec, this, api rfl, Bool.true_eq_false, if_false, Option.some.injEq] at h
    split at h <;> cases h
  | count i' c' xs =>
    cases xs with
    | nil => simp only [exec] at h; cases h
    | cons x xs => simp only [exec, this, api rfl] at h; cases h
  | finish j c st reply via =>
    simp only [exec] at h
    split at h
    · rename_i hj
      have hz := i.dones_zero (j := j) (c := c) (u := via.isNone) (by simp [opensOf_cons, Act.opens])
      have hfr := i.frames.find (i.frames.live j hj hz.1)
      simp only [hfr] at h
      cases h
    · cases h
  | setValue j st => simp only [exec] at h; cases h
  | wait j =>
    simp only [exec] at h
    split at h <;> cases h
  | fin p a =>
    simp only [exec, Option.some.injEq] at h
    exact runFin_error hs i l h
  | free own th =>
    simp only [exec, Option.some.injEq] at h
    obtain ⟨c', h1, _⟩ := Books.freeAll own (own := ownOf R) (s := s.c) i.books
    rw [h1] at h
    simp only [bind, Except.bind] at h
    split at h
    · rename_i hx
      cases h
      simp only [Bool.and_eq_true, Bool.not_eq_true'] at hx
      obtain ⟨rfl, hx⟩ := hx
      exact .running hx
    · cases h
  | timer n =>
    simp only [exec, Option.some.injEq] at h
    match n with
    | 0 =>
      simp only [runTimer, bind, Except.bind] at h
      cases hx : aggC K .flush s with
      | error e' => obtain ⟨⟨q, g⟩, _⟩ := links_errC l hs hx; cases g
      | ok y => rw [hx] at h; cases h
    | 1 =>
      simp only [runTimer, bind, Except.bind] at h
      cases hx : aggQ K .flush s with
      | error e' => obtain ⟨q, g⟩ := links_errQ l hs hx; cases g
      | ok y => rw [hx] at h; cases h
    | 2 =>
      simp only [runTimer, bind, Except.bind] at h
      cases hx : aggR K .flush s with
      | error e' => obtain ⟨⟨q, g⟩, _⟩ := links_errR l hs hx; cases g
      | ok y => rw [hx] at h; cases h
    | n + 3 => simp only [runTimer] at h; cases h
  | destroy n =>
    simp only [exec] at h
    match n with
    | 0 =>
      simp only [runDestroy, bind, Except.bind, Option.some.injEq] at h
      cases hx : aggC K .flushAll s with
      | error e' => obtain ⟨⟨q, g⟩, _⟩ := links_errC l hs hx; cases g
      | ok y => rw [hx] at h; cases h
    | 1 =>
      simp only [runDestroy, bind, Except.bind, Option.some.injEq] at h
      cases hx : aggQ K .flushAll s with
      | error e' => obtain ⟨q, g⟩ := links_errQ l hs hx; cases g
      | ok y => rw [hx] at h; cases h
    | 2 =>
      simp only [runDestroy, bind, Except.bind, Option.some.injEq] at h
      cases hx : aggR K .flushAll s with
      | error e' => obtain ⟨⟨q, g⟩, _⟩ := links_errR l hs hx; cases g
      | ok y => rw [hx] at h; cases h
    | 3 => simp only [runDestroy] at h; split at h <;> cases h
    | 4 => simp only [runDestroy] at h; split at h <;> cases h
    | 5 => simp only [runDestroy, unset] at h; split at h <;> cases h
    | 6 => simp only [runDestroy, unset] at h; split at h <;> cases h
    | 7 => simp only [runDestroy, unset] at h; split at h <;> cases h
    | n + 8 => simp only [runDestroy] at h; cases h
  | flush c => simp only [exec] at h; split at h <;> cases h
  | calling c =>
    simp only [exec] at h
    split at h
    · cases h
    · rename_i hcb
      have hal : s.c.alive = true := by
        cases ha : s.c.alive with
        | true => rfl
        | false => exact absurd ((i.life.dead ha).2 _) hcb
      simp only [this, hal, Bool.true_eq_false, if_false, Option.some.injEq] at h
      split at h
      · rename_i hd
        cases h
        exact .empty hd
      · cases h
  | after k xs =>
    cases xs with
    | nil => simp only [exec] at h; cases h
    | cons x xs =>
      have hal : s.c.alive = true := by
        cases ha : s.c.alive with
        | true => rfl
        | false =>
          have := i.life.after k (x :: xs) List.mem_cons_self (by simp)
          rw [(i.life.dead ha).2 k] at this; cases this
      simp only [exec, this, hal] at h; cases h

/-- C89: under every schedule, a client with sane clocks reads and deletes no freed object, calls no empty function, and sets
no promise twice, except: a flush callback calls a default transport that is empty; the completion of a quota request
sent by a flush starts or ends after the destruction of the client; a time or a counter overflows in a call of an aggregator;
a quota call fails in its aggregator. -/
theorem C89_memory_safe_partial (hs : Sane K) (r : Reach K stops s) {a : Act D} {e : Fault} (ha : Next a s)
    (h : exec K stops a s = some (.error e)) : Wrong K s a e := by
  obtain ⟨l1, t, l2, hth⟩ := ha
  obtain ⟨hc, hq, hr, l⟩ := r.links
  have hperm : (a :: (t ++ (l1 ++ l2).flatten)).Perm s.acts := by
    unfold Sys.acts; rw [hth]
    exact (acts_at (t := a :: t)).symm
  exact exec_error hs (r.inv.perm hperm) (l.perm hperm) h

/-! ### Calls that wait for their own done callback -/

/-- C90: what a call without a done callback returns is the status its own done callback was invoked with; it returns
once. -/
theorem C90_returns (r : Reach K stops s) :
    (∀ i st, (i, st) ∈ s.returns → i ∈ s.syncs ∧ Answered i st s.c.trace) ∧ (s.returns.map (·.1)).Nodup :=
  ⟨fun i st h => r.inv.frames.rets i st h, r.inv.frames.once⟩

/-- C90: until it returns there is exactly one thread that waits, or will wait, for it. -/
theorem C90_waits (r : Reach K stops s) {i : Nat} (hi : i ∈ s.syncs) :
    (s.threads.flatten.countP (Act.waitsFor i) = if i ∈ s.returns.map (·.1) then 0 else 1) := by
  have f := r.inv.frames
  have hw := f.waits i
  have he : s.threads.flatten.countP (Act.waitsFor i) = s.acts.countP (Act.isWait i) := by
    refine List.countP_congr (fun a _ => ?_)
    cases a <;> simp [Act.isWait, Act.waitsFor]
  rw [he, hw]
  by_cases hr : i ∈ s.returns.map (·.1)
  · rw [if_pos hr]
    refine List.countP_eq_zero.mpr (fun x hx => ?_)
    have := f.gone i hr
    intro hxi
    exact this (List.mem_map.mpr ⟨x, hx, by simpa using hxi⟩)
  · rw [if_neg hr]
    have hm : i ∈ s.frames.map (·.1) := by
      rcases f.back i hi with h | h
      · exact h
      · exact absurd h hr
    have : s.frames.countP (fun x => x.1 == i) = (s.frames.map (·.1)).count i := by
      rw [List.count, List.countP_map]; rfl
    rw [this]
    exact List.count_eq_one_of_mem f.nodup hm

/-- C90: a thread that waits is blocked only until the done callback of its call has been invoked and has set the
value. -/
theorem C90_blocked (r : Reach K stops s) {i : Nat} (ha : Next (.wait i) s) (h : exec K stops (.wait i) s = none) :
    dones i s.c.trace = 0 ∨ ∃ st, .setValue i st ∈ s.threads.flatten := by
  obtain ⟨l1, t, l2, hth⟩ := ha
  have f := r.inv.frames
  have hm : Act.wait i ∈ s.acts := by unfold Sys.acts; rw [hth]; simp
  have hc : 0 < s.frames.countP (·.1 == i) := by
    rw [← f.waits i]
    exact List.countP_pos_iff.mpr ⟨_, hm, by simp [Act.isWait]⟩
  obtain ⟨⟨j, b⟩, hx, hj⟩ := List.countP_pos_iff.mp hc
  have hj : j = i := by simpa using hj
  subst hj
  cases b with
  | true => exact .inl (f.unset j hx)
  | false =>
    rcases f.moved j hx with ⟨st, g⟩ | ⟨st, g⟩
    · exact .inr ⟨st, g⟩
    · exfalso
      simp only [exec] at h
      cases hf : s.values.find? (·.1 == j) with
      | none =>
        have := List.find?_eq_none.mp hf _ g
        simp at this
      | some y => rw [hf] at h; cases h

/-! ### Reports -/

section
variable {hc : Check.Hist D} {hq : Quota.Hist D} {hr : Report.Hist D}

/-- The reports among requests. -/
def reportsIn (l : List (Call D)) : List (ReportRequest D) := l.filterMap (fun c => match c with | .report r => some r | _ => none)

omit [DoubleOps D] in
theorem reportsIn_perm {a b : List (Call D)} (h : a.Perm b) : (reportsIn a).Perm (reportsIn b) := h.filterMap _

omit [DoubleOps D] in
theorem reportsIn_append (a b : List (Call D)) : reportsIn (a ++ b) = reportsIn a ++ reportsIn b := by
  simp [reportsIn, List.filterMap_append]

omit [DoubleOps D] in
theorem reportsIn_flushed (tr : List (Ev D)) : reportsIn (flushedCalls tr) = flushedReports tr := by
  unfold reportsIn flushedCalls flushedReports
  rw [List.filterMap_filterMap]
  refine List.filterMap_congr (fun e _ => ?_)
  cases e with
  | sent id b c => cases b <;> cases c <;> rfl
  | _ => rfl

omit [DoubleOps D] in
theorem reportsIn_carried (s : Sys D) : reportsIn (s.acts.flatMap Act.way) = carried s := by
  unfold carried Sys.acts
  generalize s.threads.flatten = l
  induction l with
  | nil => rfl
  | cons a l ih =>
    rw [List.flatMap_cons, reportsIn_append, ih]
    cases a <;> try rfl
    all_goals (rename_i c; cases c <;> rfl)

omit [DoubleOps D] in
theorem promised_eq (s : Sys D) : s.acts.flatMap Act.accepts = promised s := by
  unfold promised Sys.acts
  refine List.flatMap_congr (fun a _ => ?_)
  cases a with
  | result i c st reply => cases c <;> cases st <;> rfl
  | finish i c st reply via => cases c <;> cases st <;> cases via <;> rfl
  | _ => rfl

theorem reportsIn_asked : reportsIn (asked hc hq hr) = reqsR hr := by
  unfold asked
  have h1 : ∀ l : List (CheckRequest D), reportsIn (l.map .check) = [] := by
    intro l; induction l with
    | nil => rfl
    | cons a l ih => exact ih
  have h2 : ∀ l : List (AllocateQuotaRequest D), reportsIn (l.map .quota) = [] := by
    intro l; induction l with
    | nil => rfl
    | cons a l ih => exact ih
  have h3 : ∀ l : List (ReportRequest D), reportsIn (l.map .report) = l := by
    intro l; induction l with
    | nil => rfl
    | cons a l ih => exact congrArg (a :: ·) ih
  rw [reportsIn_append, reportsIn_append, h1, h2, h3]; rfl

theorem sent_perm {A : List (Act D)} (hA : A = s.acts) (l : Links K hc hq hr A s) :
    (((flushedReports s.c.trace) ++ carried s ++ lost s).flatMap (·.operations)).Perm (Report.flushedOps hr) := by
  subst hA
  have h := reportsIn_perm l.items
  rw [reportsIn_append, reportsIn_append, reportsIn_flushed, reportsIn_carried, reportsIn_asked] at h
  rw [← flushedOps_reqs]
  exact h.flatMap_right _

omit [DoubleOps D] in
theorem intTotal_perm (H : Bytes → Bytes) {a b : List (Operation D)} (h : a.Perm b) (n k : Bytes) :
    Report.intTotal H a n k = Report.intTotal H b n k := by
  unfold Report.intTotal
  have : (reported H a n k).Perm (reported H b n k) := by
    unfold reported; exact h.flatMap_right _
  exact (this.map _).sum_eq

end

/-- C91: under every schedule the log entries of reports answered OK at once, or about to be, are those sent by flushes,
those on their way to the flush callback, those passed on after the callback was unset, and those still cached. -/
theorem C91_log_entries (r : Reach K stops s) :
    (((flushedReports s.c.trace ++ carried s ++ lost s).flatMap (·.operations) ++ Report.cachedOps K.cfgR s.c.report).flatMap (·.logEntries)).Perm
      ((acceptedOps s.c.trace ++ promised s).flatMap (·.logEntries)) := by
  obtain ⟨hc, hq, hr, l⟩ := r.links
  have h1 := sent_perm rfl l
  have h2 := l.acc
  rw [promised_eq] at h2
  refine List.Perm.trans ?_ ((Report.C38_log_entries l.r.reach).trans (h2.symm.flatMap_right _))
  exact (h1.append_right _).flatMap_right _

/-- C91: the same for the totals of integer values of delta metrics. -/
theorem C91_delta_totals (r : Reach K stops s) (n k : Bytes) (hk : IsDelta K.cfgR.kinds n)
    (hint : ∀ v ∈ reported K.cfgR.H (acceptedOps s.c.trace ++ promised s) n k, IsInt v) :
    Report.intTotal K.cfgR.H ((flushedReports s.c.trace ++ carried s ++ lost s).flatMap (·.operations)) n k +
        Report.intTotal K.cfgR.H (Report.cachedOps K.cfgR s.c.report) n k =
      Report.intTotal K.cfgR.H (acceptedOps s.c.trace ++ promised s) n k := by
  obtain ⟨hc, hq, hr, l⟩ := r.links
  have h1 := sent_perm rfl l
  have h2 := l.acc
  rw [promised_eq] at h2
  rw [intTotal_perm _ h1, intTotal_perm _ h2]
  refine Report.C38_delta_totals l.r.reach n k hk (fun v hv => hint v ?_)
  have : (reported K.cfgR.H (acceptedOps s.c.trace ++ promised s) n k).Perm (reported K.cfgR.H (Report.acceptedOps hr) n k) := by
    unfold reported; exact h2.flatMap_right _
  exact this.mem_iff.mpr hv

/-- Nothing is on its way after the destruction if the timer waits for its function. -/
theorem nothing_left (r : Reach K true s) (hd : Ev.destroyed ∈ s.c.trace) :
    carried s = [] ∧ lost s = [] ∧ promised s = [] ∧ Report.cachedOps K.cfgR s.c.report = [] := by
  obtain ⟨hc, hq, hr, l⟩ := r.links
  have i := r.inv
  have sh := r.shut
  have hal : s.c.alive = false := by
    cases ha : s.c.alive with
    | false => rfl
    | true => exact absurd hd (l.gone.mp ha)
  have hdy := (i.life.dead hal).1
  have api := i.life.api hdy
  have hti : s.acts.countP Act.isTimer = 0 := by rw [← sh.timers]; exact (sh.idle rfl (.inr hal)).1
  have hde : s.acts.countP Act.isDestroy = 0 := by rw [i.life.destr, hal]; simp
  have hsrc : ∀ a ∈ s.acts, a.source = false := by
    intro a ha
    have h1 := List.countP_eq_zero.mp hti a ha
    have h2 := List.countP_eq_zero.mp hde a ha
    have h3 := api a ha
    cases a <;> first | exact absurd rfl h1 | exact absurd rfl h2 | exact h3
  refine ⟨?_, ?_, ?_, sh.empty (.inr hal)⟩
  · have hpar : ∀ t ∈ s.threads, ∀ a ∈ t, ¬ a.brings := by
      intro t ht a hat hb
      have hp := r.par t ht
      have hs : ∀ b ∈ t, b.source = false := fun b hb => hsrc b (List.mem_flatten.mpr ⟨t, ht, hb⟩)
      clear ht
      induction t with
      | nil => cases hat
      | cons x t ih =>
        rcases List.mem_cons.mp hat with h | h
        · subst h
          obtain ⟨b, hb1, hb2⟩ := hp.1 hb
          rw [hs b (List.mem_cons_of_mem _ hb1)] at hb2; cases hb2
        · exact ih h hp.2 (fun b hb => hs b (List.mem_cons_of_mem _ hb))
    unfold carried
    rw [List.filterMap_eq_nil_iff]
    intro a ha
    obtain ⟨t, ht, hat⟩ := List.mem_flatten.mp ha
    have := hpar t ht a hat
    cases a <;> try rfl
    all_goals
      rename_i c
      cases c <;> try rfl
      first | exact absurd ⟨_, .inl rfl⟩ this | exact absurd ⟨_, .inr rfl⟩ this
  · unfold lost
    rw [List.filterMap_eq_nil_iff]
    intro c hcm
    cases c <;> try rfl
    exact absurd hcm (sh.kept rfl _)
  · unfold promised
    rw [List.flatMap_eq_nil_iff]
    intro a ha
    have h3 := api a ha
    cases a <;> try rfl
    · cases h3
    · rename_i c st reply via
      cases via with
      | none => cases h3
      | some _ => cases c <;> cases st <;> rfl

/-- C91: if stopping the timer waits for the function it is calling, then under every schedule everything in reports answered OK at
once has been sent when the destructor returns, whatever other threads do meanwhile and afterwards. -/
theorem C91_all_sent_partial (r : Reach K true s) (hd : Ev.destroyed ∈ s.c.trace) :
    (((flushedReports s.c.trace).flatMap (·.operations)).flatMap (·.logEntries)).Perm ((acceptedOps s.c.trace).flatMap (·.logEntries)) ∧
    ∀ n k, IsDelta K.cfgR.kinds n → (∀ v ∈ reported K.cfgR.H (acceptedOps s.c.trace) n k, IsInt v) →
      Report.intTotal K.cfgR.H ((flushedReports s.c.trace).flatMap (·.operations)) n k = Report.intTotal K.cfgR.H (acceptedOps s.c.trace) n k := by
  obtain ⟨h1, h2, h3, h4⟩ := nothing_left r hd
  refine ⟨?_, fun n k hk hint => ?_⟩
  · have := C91_log_entries r
    rwa [h1, h2, h3, h4, List.append_nil, List.append_nil, List.append_nil, List.append_nil] at this
  · have := C91_delta_totals r n k hk (by rw [h3, List.append_nil]; exact hint)
    rw [h1, h2, h3, h4, List.append_nil, List.append_nil, List.append_nil] at this
    rw [← this]
    simp [Report.intTotal, reported]

/-! ### After the destruction -/

/-- C93: under every schedule nothing is observed of a client after its destructor has returned, except that transports
complete earlier calls and the calls waiting for them are answered. -/
theorem C93_nothing_after (r : Reach K stops s) {pre post : List (Ev D)} {e : Ev D} (h : s.c.trace = pre ++ e :: post)
    (hd : Ev.destroyed ∈ pre) : (∃ id b c a, e = .completed id b c a) ∨ ∃ i c st reply id, e = .done i c st reply (some id) := by
  obtain ⟨_, _, _, l⟩ := r.links
  have hl := (l.ok pre e post h).late hd
  cases e with
  | completed id b c a => exact .inl ⟨_, _, _, _, rfl⟩
  | done i c st reply via =>
    cases via with
    | none => cases hl
    | some id => exact .inr ⟨_, _, _, _, _, rfl⟩
  | _ => cases hl

/-! ### Local answers -/

/-- C94: under every schedule a check answered OK without a transport call gets a response that a transport has delivered
before, without an error, for a check of the user of the same signature. -/
theorem C94_check_answer (r : Reach K stops s) {pre post : List (Ev D)} {i : Nat} {q : CheckRequest D} {reply : Reply}
    (h : s.c.trace = pre ++ .done i (.check q) .ok reply none :: post) :
    ∃ p id j q' a, reply = .check p ∧ Ev.completed id (some j) (.check q') a ∈ pre ∧ a.status = .ok ∧ a.check = p ∧
      checkRequestSig K.cfgC.H q' = checkRequestSig K.cfgC.H q := by
  obtain ⟨_, _, _, l⟩ := r.links
  exact ((l.ok pre _ post h).backed i _ .ok reply rfl).2.backed rfl

/-- C94: a quota call answered OK without a transport call gets the empty response, or what a quota request of the same
signature that has completed before granted. -/
theorem C94_quota_answer (hq : SaneQ K) (r : Reach K stops s) {pre post : List (Ev D)} {i : Nat} {q : AllocateQuotaRequest D} {reply : Reply}
    (h : s.c.trace = pre ++ .done i (.quota q) .ok reply none :: post) :
    ∃ p, reply = .quota p ∧ (p = .default ∨ ∃ id b q' a, Ev.completed id b (.quota q') a ∈ pre ∧ granted a = p ∧
      allocateQuotaSig K.cfgQ.H q' = allocateQuotaSig K.cfgQ.H q) := by
  obtain ⟨_, _, _, l⟩ := r.links
  exact ((l.ok pre _ post h).backed i _ .ok reply rfl).2.backed rfl hq

end Verif.Threads
