import Verif.Lemmas.ClientOps
import Verif.Lemmas.Tame
/-
C49 - C56, C59, C74 - C77: the client.
-/
set_option linter.unusedSectionVars false
namespace Verif.Client
open Lru
variable {D : Type} [DoubleOps D] {K : Setup} {s s' : Client D}

/-! ### Completion -/

omit [DoubleOps D] in
theorem countP_filterMap_eq {α : Type} (f : α → Option Nat) (i : Nat) : ∀ l : List α,
    l.countP (fun e => f e == some i) = (l.filterMap f).count i
  | [] => rfl
  | e :: l => by
    rw [List.countP_cons, countP_filterMap_eq f i l]
    cases h : f e with
    | none => rw [List.filterMap_cons_none h]; simp
    | some j =>
      rw [List.filterMap_cons_some h, List.count_cons]
      by_cases hj : j = i
      · subst hj; simp
      · simp [hj]

theorem calls_issued {o : Open D} {own : List Nat} {owed : Stats} (b : Books o own owed s) (i : Nat) :
    calls i s.trace = issued i s.calls := by
  unfold calls issued
  rw [countP_filterMap_eq, b.called]
  split
  · rename_i h
    exact List.count_eq_one_of_mem (List.nodup_range) (List.mem_range.mpr h)
  · rename_i h
    exact List.count_eq_zero_of_not_mem (fun hm => h (List.mem_range.mp hm))

omit [DoubleOps D] in
theorem eq_of_countP_le_one {α : Type} {p : α → Bool} {l : List α} (h : l.countP p ≤ 1) {a b : α} (ha : a ∈ l) (hb : b ∈ l)
    (pa : p a = true) (pb : p b = true) : a = b := by
  rw [List.countP_eq_length_filter] at h
  have ha' : a ∈ l.filter p := List.mem_filter.mpr ⟨ha, pa⟩
  have hb' : b ∈ l.filter p := List.mem_filter.mpr ⟨hb, pb⟩
  match hl : l.filter p, h with
  | [], _ => rw [hl] at ha'; cases ha'
  | [x], _ =>
    rw [hl, List.mem_singleton] at ha' hb'
    rw [ha', hb']
  | _ :: _ :: _, h => simp at h

/-- C50: every call is numbered once; its done callback has been invoked once, or it waits for exactly
one transport call; it was answered at once, or exactly one transport call was made for it. -/
theorem C50_exactly_once (r : Reach K s) (i : Nat) :
    calls i s.trace ≤ 1 ∧ dones i s.trace + outstandingFor i s.trace = calls i s.trace ∧
      sends i s.trace + locals i s.trace = calls i s.trace := by
  have b := r.inv.good.books
  have h1 := b.account i
  have h2 := b.sendsA i
  have h3 := calls_issued b i
  simp only [openAt, unsentAt, Nat.add_zero] at h1 h2
  refine ⟨?_, by rw [h3, h1], by rw [h3, h2]⟩
  rw [h3]; unfold issued; split <;> omega

/-- C50: a done callback belongs to a call that was made, and if it waited for a transport it reports what that
transport delivered for the request of the call. -/
theorem C50_done_reports (r : Reach K s) {i : Nat} {c : Call D} {st : Status} {reply : Reply} {via : Option Nat}
    (h : Ev.done i c st reply via ∈ s.trace) :
    (∃ t, Ev.called i c t ∈ s.trace) ∧ ∀ id, via = some id → Ev.sent id (some i) c ∈ s.trace ∧
      ∃ a, Ev.completed id (some i) c a ∈ s.trace ∧ st = a.status ∧ reply = replyOf c a := by
  have b := r.inv.good.books
  obtain ⟨h1, h2⟩ := b.doneOk _ _ _ _ _ h
  refine ⟨h1, fun id hid => ?_⟩
  obtain ⟨a, h3, h4, h5⟩ := h2 id hid
  exact ⟨b.complOk _ _ _ _ h3, a, h3, h4.symm, h5⟩

/-- C50: a transport is called for a call with the request of that call. -/
theorem C50_sent_as_called (r : Reach K s) {id i : Nat} {c : Call D} (h : Ev.sent id (some i) c ∈ s.trace) :
    ∃ t, Ev.called i c t ∈ s.trace := r.inv.good.books.byOk _ _ _ h

theorem answered_aux (r : Reach K s) {id i : Nat} {c : Call D} {a : Answer} (h : Ev.completed id (some i) c a ∈ s.trace) :
    Ev.done i c a.status (replyOf c a) (some id) ∈ s.trace := by
  have b := r.inv.good.books
  have hsent := b.complOk _ _ _ _ h
  obtain ⟨h1, h2, h3⟩ := C50_exactly_once r i
  have hs1 : 0 < sends i s.trace := List.countP_pos_iff.mpr ⟨_, hsent, by simp [Ev.sentFor]⟩
  have huniq : ∀ id' c', Ev.sent id' (some i) c' ∈ s.trace → id' = id ∧ c' = c := by
    intro id' c' h'
    have := eq_of_countP_le_one (p := fun e => e.sentFor == some i) (l := s.trace) (by unfold sends at h3; omega) h' hsent
      (by simp [Ev.sentFor]) (by simp [Ev.sentFor])
    cases this
    exact ⟨rfl, rfl⟩
  have hout : outstandingFor i s.trace = 0 := by
    unfold outstandingFor
    rw [List.countP_eq_zero]
    intro x hx hxi
    have hx2 : x.2.1 = some i := by simpa using hxi
    obtain ⟨id', b', c'⟩ := x
    obtain ⟨g1, g2⟩ := mem_outstanding hx
    simp only at hx2 g1 g2
    subst hx2
    obtain ⟨rfl, _⟩ := huniq _ _ g1
    exact g2 (List.mem_filterMap.mpr ⟨_, h, rfl⟩)
  have hd : 0 < dones i s.trace := by omega
  obtain ⟨e, he, hei⟩ := List.countP_pos_iff.mp hd
  have hl : locals i s.trace = 0 := by omega
  cases e <;> simp only [Ev.doneNo, beq_iff_eq, reduceCtorEq, Option.some.injEq] at hei
  rename_i j c' st reply via
  subst hei
  cases via with
  | none =>
    unfold locals at hl
    rw [List.countP_eq_zero] at hl
    exact absurd (by simp [Ev.localNo]) (hl _ he)
  | some id' =>
    obtain ⟨_, g2⟩ := C50_done_reports r he
    obtain ⟨g3, a', g4, g5, g6⟩ := g2 id' rfl
    obtain ⟨rfl, rfl⟩ := huniq _ _ g3
    have : a' = a := by
      have hc := b.compl
      have := eq_of_countP_le_one (p := fun e => e.completedId == some id') (l := s.trace)
        (by rw [countP_filterMap_eq]; exact List.nodup_iff_count_le_one.mp hc id') g4 h (by simp [Ev.completedId]) (by simp [Ev.completedId])
      cases this; rfl
    subst this
    rw [g5, g6] at he
    exact he

/-- C50: when the transport call a call waits for completes, the call is done, with what was delivered. -/
theorem C50_completed_answered (r : Reach K s) {id i : Nat} {c : Call D} {a : Answer} (h : Ev.completed id (some i) c a ∈ s.trace) :
    Ev.done i c a.status (replyOf c a) (some id) ∈ s.trace := answered_aux r h

/-- C51: the statistics are the numbers of calls, of transport calls made for them and by flush callbacks, and of
operations sent. -/
theorem C51_statistics (r : Reach K s) : s.stats = Stats.ofTrace s.trace := by
  have := r.inv.good.books.stats
  rwa [Stats.add_zero] at this

/-- C74: every object on the heap belongs to exactly one outstanding transport call; when none is outstanding
none is left. -/
theorem C74_no_leak (r : Reach K s) :
    s.pend.map (fun p => (p.id, p.by_, p.req)) = outstanding s.trace ∧ s.heap.Perm (s.pend.flatMap (·.own)) ∧ s.heap.Nodup ∧
      (outstanding s.trace = [] → s.heap = []) := by
  have b := r.inv.good.books
  have h1 : s.heap.Perm (s.pend.flatMap (·.own)) := b.heap
  refine ⟨b.pend, h1, b.nodup, fun h => ?_⟩
  have h2 := b.pend
  rw [h, List.map_eq_nil_iff] at h2
  rw [h2] at h1
  simpa using h1

/-! ### Local answers -/

/-- C75: a check answered OK without a transport call gets the response that was delivered last, without an error,
for a check of its signature. -/
theorem C75_check_answer (r : Reach K s) {pre post : List (Ev D)} {e : Ev D} (h : s.trace = pre ++ e :: post) :
    e.CheckOk K.cfgC.H pre := by
  obtain ⟨_, _, _, _, l⟩ := r.inv.good
  exact (l.ok pre e post h).check

/-- C76: a quota call answered OK without a transport call gets what was granted last, when it was made, for its
signature, or the empty response. -/
theorem C76_quota_answer (hq : SaneQ K) (r : Reach K s) {pre post : List (Ev D)} {e : Ev D} (h : s.trace = pre ++ e :: post) :
    e.QuotaOk K.cfgQ.H pre := by
  obtain ⟨_, _, _, _, l⟩ := r.inv.good
  exact (l.ok pre e post h).quota hq

/-- C49: if the last completed quota request of its signature failed, a quota call answered locally with OK gets the
empty response, which is positive. -/
theorem C49_fail_open (hq : SaneQ K) (r : Reach K s) {i : Nat} {q q' : AllocateQuotaRequest D} {t : Bool} {reply : Reply}
    {b1 c2 b2 post : List (Ev D)} {id : Nat} {by_ : Option Nat} {a : Answer}
    (h : s.trace = b1 ++ .completed id by_ (.quota q') a :: c2 ++ .called i (.quota q) t :: b2 ++ .done i (.quota q) .ok reply none :: post)
    (hsig : allocateQuotaSig K.cfgQ.H q' = allocateQuotaSig K.cfgQ.H q) (hfail : a.status ≠ .ok)
    (hlast : ∀ id by_ q'' a, Ev.completed id by_ (.quota q'') a ∈ c2 → allocateQuotaSig K.cfgQ.H q'' ≠ allocateQuotaSig K.cfgQ.H q) :
    reply = .quota .default ∧ AllocateQuotaResponse.default.allocateErrors = [] := by
  refine ⟨?_, rfl⟩
  obtain ⟨p, x1, t', x2, h1, h2, h3⟩ := C76_quota_answer hq r h i q reply rfl
  have hn := r.inv.good.books.called
  -- the call is made only once
  have huniq : x1 = b1 ++ .completed id by_ (.quota q') a :: c2 := by
    have hnd : (s.trace.filterMap Ev.calledNo).Nodup := by rw [hn]; exact List.nodup_range
    have key : ∀ (A B A' B' : List (Ev D)) (t t' : Bool), ((A ++ .called i (.quota q) t :: B).filterMap Ev.calledNo).Nodup →
        A ++ .called i (.quota q) t :: B = A' ++ .called i (.quota q) t' :: B' → A' = A := by
      intro A
      induction A with
      | nil =>
        intro B A' B' t t' hN he
        cases A' with
        | nil => rfl
        | cons x A' =>
          exfalso
          simp only [List.nil_append, List.cons_append, List.cons.injEq] at he
          obtain ⟨rfl, rfl⟩ := he
          simp [Ev.calledNo, List.filterMap_append] at hN
      | cons y A ih =>
        intro B A' B' t t' hN he
        cases A' with
        | nil =>
          exfalso
          simp only [List.nil_append, List.cons_append, List.cons.injEq] at he
          obtain ⟨rfl, rfl⟩ := he
          simp [Ev.calledNo, List.filterMap_append] at hN
        | cons x A' =>
          simp only [List.cons_append, List.cons.injEq] at he
          obtain ⟨rfl, he⟩ := he
          rw [ih B A' B' t t' ?_ he]
          exact hN.sublist ((List.sublist_cons_self _ _).filterMap _)
    refine key _ (b2 ++ .done i (.quota q) .ok reply none :: post) x1 (x2 ++ .done i (.quota q) .ok reply none :: post) t t' ?_ ?_
    · rw [h] at hnd
      simpa using hnd
    · have h2' := congrArg (· ++ Ev.done i (.quota q) .ok reply none :: post) h2
      simpa using h2'
  subst huniq
  have hg : lastGrant K.cfgQ.H (allocateQuotaSig K.cfgQ.H q) (b1 ++ .completed id by_ (.quota q') a :: c2) = some .default := by
    rw [show b1 ++ Ev.completed id by_ (.quota q') a :: c2 = (b1 ++ [.completed id by_ (.quota q') a]) ++ c2 by simp]
    rw [lastGrant_quiet]
    · rw [lastGrant_one]
      simp only [grantEv, if_pos hsig, Option.some_or, granted, if_neg hfail]
    · intro e he
      cases e with
      | completed id' b' c' a' =>
        cases c' with
        | quota q'' => simp only [grantEv]; rw [if_neg (hlast _ _ _ _ he)]
        | check => rfl
        | report => rfl
      | _ => rfl
  rcases h3 with h3 | h3
  · rw [h1, h3]
  · rw [hg] at h3
    rw [h1, ← Option.some.inj h3]

/-! ### What can go wrong -/

/-- The operation breaks the contract of the client: it is used or destroyed after its destruction, or a transport
completes a call that is not outstanding. -/
def Misuse (s : Client D) (op : Op D) : Prop :=
  match op with
  | .call _ _ => .destroyed ∈ s.trace
  | .destroy => .destroyed ∈ s.trace
  | .complete id _ => ∀ x ∈ outstanding s.trace, x.1 ≠ id
  | .timer => False

/-- The operation completes a quota request sent by a flush callback, after the destruction of the client. -/
def Late (s : Client D) (op : Op D) : Prop :=
  .destroyed ∈ s.trace ∧ ∃ id a r, op = .complete id a ∧ (id, none, .quota r) ∈ outstanding s.trace

/-- The calls an operation makes on the aggregators. -/
def Tries (op : Op D) (x : AggCall D) : Prop :=
  isResponse x ∨ match op with
  | .call (.check r) _ => x = .c (.check r)
  | .call (.quota r) _ => x = .q (.quota r)
  | .call (.report r) _ => x = .r (.report r)
  | .complete _ _ => False
  | .timer => x = .c .flush ∨ x = .q .flush ∨ x = .r .flush
  | .destroy => x = .c .flushAll ∨ x = .q .flushAll ∨ x = .r .flushAll

theorem alive_iff (r : Reach K s) : s.alive = false ↔ Ev.destroyed ∈ s.trace := by
  obtain ⟨_, _, _, _, l⟩ := r.inv.good
  refine ⟨l.gone, fun hd => ?_⟩
  cases ha : s.alive with
  | false => rfl
  | true => exact absurd hd (l.fired ha)

theorem Err.imp {A A' : Prop} {P Q : AggCall D → Prop} {e : Fault} (h : Err K A P e) (ha : A → A') (hpq : ∀ x, P x → Q x) : Err K A' Q e := by
  cases h with
  | empty a h => exact .empty (ha a) h
  | locked a h => exact .locked (ha a) h
  | c h1 h2 h3 => exact .c (hpq _ h1) h2 h3
  | q h1 h2 h3 => exact .q (hpq _ h1) h2 h3
  | r h1 h2 h3 => exact .r (hpq _ h1) h2 h3

theorem find_outstanding (r : Reach K s) {id : Nat} {p : Pend D} (h : s.pend.find? (·.id == id) = some p) :
    (id, p.by_, p.req) ∈ outstanding s.trace := by
  rw [← r.inv.good.books.pend]
  have hid : p.id = id := by simpa using List.find?_some h
  exact List.mem_map.mpr ⟨p, List.mem_of_find?_eq_some h, by rw [hid]⟩

theorem outstanding_find (r : Reach K s) {id : Nat} {by_ : Option Nat} {c : Call D} (h : (id, by_, c) ∈ outstanding s.trace) :
    ∃ p, s.pend.find? (·.id == id) = some p ∧ p.by_ = by_ ∧ p.req = c := by
  have hb := r.inv.good.books
  rw [← hb.pend] at h
  obtain ⟨p, hp, he⟩ := List.mem_map.mp h
  simp only [Prod.mk.injEq] at he
  obtain ⟨h1, h2, h3⟩ := he
  cases hf : s.pend.find? (·.id == id) with
  | none => simp only [List.find?_eq_none] at hf; exact absurd (by simpa using h1) (hf p hp)
  | some p' =>
    have hid : p'.id = id := by simpa using List.find?_some hf
    have hnd := hb.pend_nodup
    have : p' = p := List.inj_on_of_nodup_map hnd (List.mem_of_find?_eq_some hf) hp (by rw [hid, h1])
    subst this
    exact ⟨p', rfl, h2, h3⟩

/-- An operation returns, or the contract is broken, or it completes a flushed quota request too late, or a known
error occurs. -/
theorem step_cases (r : Reach K s) (op : Op D) :
    (∃ s', step K op s = .ok s') ∨ step K op s = .error .useAfterFree ∧ (Misuse s op ∨ Late s op) ∨
      ∃ e, step K op s = .error e ∧ Err K (Ev.destroyed ∉ s.trace) (Tries op) e := by
  have i := r.inv
  have hdead := alive_iff r
  have hA : s.alive = true → Ev.destroyed ∉ s.trace := by
    intro ha hd
    rw [hdead.mpr hd] at ha
    cases ha
  have out : ∀ {A P R}, Outcome K {} (s.alive = true) A P .zero s R → (A → Ev.destroyed ∉ s.trace) → (∀ x, P x → Tries op x) →
      (∃ s', R = .ok s') ∨ ∃ e, R = .error e ∧ Err K (Ev.destroyed ∉ s.trace) (Tries op) e := by
    intro A P R h ha hp
    rcases h with ⟨s', h1, _⟩ | ⟨e, h1, h2⟩
    · exact .inl ⟨s', h1⟩
    · exact .inr ⟨e, h1, h2.imp ha hp⟩
  have skip : ∀ {X Y Z : Prop}, X ∨ Z → X ∨ Y ∨ Z := fun h => h.elim .inl (fun h => .inr (.inr h))
  cases op with
  | call c t =>
    simp only [step]
    split
    · rename_i hal; exact .inr (.inl ⟨rfl, .inl (hdead.mp hal)⟩)
    · rename_i hal
      have hal' : s.alive = true := by cases ha : s.alive with | true => rfl | false => exact absurd ha hal
      cases c with
      | check q => exact skip (out (check_spec q (present K (.check q) t) i.good hal' hal') (fun _ => hA hal') (fun x hx => hx.elim .inr .inl))
      | quota q => exact skip (out (quota_spec q (present K (.quota q) t) i.good hal' hal') (fun _ => hA hal') (fun x hx => hx.elim .inr .inl))
      | report q => exact skip (out (report_spec q (present K (.report q) t) i.good hal') (fun _ => hA hal') (fun x hx => hx.elim .inr .inl))
  | complete id a =>
    simp only [step]
    cases hf : s.pend.find? (·.id == id) with
    | none =>
      refine .inr (.inl ⟨by unfold complete; rw [hf], .inl ?_⟩)
      rintro ⟨id', b, c⟩ hx rfl
      obtain ⟨p, hp, _⟩ := outstanding_find r hx
      rw [hf] at hp; cases hp
    | some p =>
      by_cases hd : Dangling s p
      · refine .inr (.inl ⟨complete_dangling hf hd, .inr ?_⟩)
        obtain ⟨h1, h2, q, h3⟩ := hd
        have := find_outstanding r hf
        rw [h2, h3] at this
        exact ⟨hdead.mp h1, id, a, q, rfl, this⟩
      · exact skip (out (complete_spec (P := isResponse) (fun x hx => hx) a i.good hf hd) hA (fun x hx => .inl hx))
  | timer =>
    simp only [step]
    by_cases hal : s.alive = true
    · refine skip (out (timer_spec i.good) (fun _ => hA hal) ?_)
      rintro x (h | h | h | h)
      · exact .inr (.inl h)
      · exact .inr (.inr (.inl h))
      · exact .inr (.inr (.inr h))
      · exact .inl h
    · left
      obtain ⟨_, _, _, _, l⟩ := i.good
      unfold timer
      rw [l.timer (by simpa using hal)]
      exact ⟨_, rfl⟩
  | destroy =>
    simp only [step]
    split
    · rename_i hal; exact .inr (.inl ⟨rfl, .inl (hdead.mp hal)⟩)
    · rename_i hal
      have hal' : s.alive = true := by cases ha : s.alive with | true => rfl | false => exact absurd ha hal
      rcases destroy_spec i.good hal' with ⟨s1, h1, _⟩ | ⟨e, h1, h2⟩
      · exact .inl ⟨s1, h1⟩
      · refine .inr (.inr ⟨e, h1, h2.imp (fun _ => hA hal') ?_⟩)
        rintro x (h | h | h | h)
        · exact .inr (.inl h)
        · exact .inr (.inr (.inl h))
        · exact .inr (.inr (.inr h))
        · exact .inl h

/-- The assumptions on the environment: clocks do not go back (for the check and report aggregators this matters
only for assertions), and the loops of the quota cache are given enough steps. -/
structure Sane (K : Setup) : Prop where
  c : K.envC.dbg = true → Mono K.envC.clk
  r : K.envR.dbg = true → Mono K.envR.clk
  q : SaneQ K

theorem quota_none_returns {h : Quota.Hist D} {st : Quota.State D} (r : Quota.Reach K.envQ K.cfgQ h st) (hn : K.cfgQ.numEntries ≤ 0)
    (x : Quota.Call D) : ∃ res, Quota.step K.envQ K.cfgQ (K.depth + 1) x st = .ok res := by
  have hc := r.none hn
  cases x with
  | quota q =>
    simp only [Quota.step, Quota.quota]
    split
    · exact ⟨_, rfl⟩
    split
    · exact ⟨_, rfl⟩
    · simp only [withBuffer, hc, bind, Except.bind]; exact ⟨_, rfl⟩
  | cacheResponse q p => simp only [Quota.step, Quota.cacheResponse, withBuffer, hc, bind, Except.bind]; exact ⟨_, rfl⟩
  | flush => simp only [Quota.step, Quota.flush, withBuffer, hc, bind, Except.bind]; exact ⟨_, rfl⟩
  | flushAll => simp only [Quota.step, Quota.flushAll, withBuffer, hc, bind, Except.bind]; exact ⟨_, rfl⟩

/-- Everything but `Quota` returns. -/
theorem quota_returns {h : Quota.Hist D} {st : Quota.State D} (hq : SaneQ K) (r : Quota.Reach K.envQ K.cfgQ h st) (x : Quota.Call D)
    (hx : ∀ q, x ≠ .quota q) : ∃ res, Quota.step K.envQ K.cfgQ (K.depth + 1) x st = .ok res := by
  by_cases hn : K.cfgQ.numEntries ≤ 0
  · exact quota_none_returns r hn x
  · cases x with
    | quota q => exact absurd rfl (hx q)
    | cacheResponse q p => exact Quota.cacheResponse_returns hq.1 hq.2 (by omega) r q p
    | flush =>
      obtain ⟨s0, inAll, rfl, hi⟩ := r.inv hq.1 hq.2 (by omega)
      exact ⟨_, Quota.flush_eq hq.1 hq.2 K.cfgQ inAll K.depth s0 hi.inv hi.out⟩
    | flushAll =>
      obtain ⟨s0, inAll, rfl, hi⟩ := r.inv hq.1 hq.2 (by omega)
      exact ⟨_, Quota.flushAll_eq K.cfgQ inAll K.depth s0 hi.inv hi.out⟩

/-- The known errors, when the clocks are sane. -/
theorem Err.sane {A : Prop} {P : AggCall D → Prop} {e : Fault} (hs : Sane K) (h : Err K A P e) :
    (A ∧ e = .badFunctionCall ∧ (K.hasC = false ∨ K.hasQ = false ∨ K.hasR = false)) ∨
    (A ∧ e = .deadlock ∧ ∃ id a, K.answer id = some a) ∨
    (e = .signedOverflow ∧ ((∃ q, P (.c (.check q))) ∨ ∃ q, P (.r (.report q)))) ∨
    ∃ q, P (.q (.quota q)) := by
  cases h with
  | empty a h => exact .inl ⟨a, rfl, h⟩
  | locked a h => exact .inr (.inl ⟨a, rfl, _, _, h⟩)
  | @c _ _ x _ h1 h2 h3 =>
    rcases Check.C68_check_returns h2 hs.c x with ⟨res, g⟩ | ⟨⟨q, rfl⟩, g⟩
    · rw [h3] at g; cases g
    · rw [h3] at g; cases g
      exact .inr (.inr (.inl ⟨rfl, .inl ⟨q, h1⟩⟩))
  | @q _ _ x _ h1 h2 h3 =>
    by_cases hx : ∃ q, x = .quota q
    · obtain ⟨q, rfl⟩ := hx; exact .inr (.inr (.inr ⟨q, h1⟩))
    · obtain ⟨res, g⟩ := quota_returns hs.q h2 x (fun q hq => hx ⟨q, hq⟩)
      rw [h3] at g; cases g
  | @r _ _ x _ h1 h2 h3 =>
    cases x with
    | report q =>
      rcases Report.C64_report_returns h2 hs.r (.report q) with ⟨res, g⟩ | g
      · rw [h3] at g; cases g
      · rw [h3] at g; cases g
        exact .inr (.inr (.inl ⟨rfl, .inr ⟨q, h1⟩⟩))
    | flush =>
      obtain ⟨_, _, g⟩ := (Report.C64_report_flush_returns h2 hs.r).1
      rw [h3] at g; cases g
    | flushAll =>
      obtain ⟨_, _, g⟩ := (Report.C64_report_flush_returns h2 hs.r).2
      rw [h3] at g; cases g

/-- C77: an operation that keeps to the contract returns, unless a flush finds no default transport, a transport that
completes in place needs a lock its own thread holds, numbers of operations merged overflow, a quota request sent by a flush is
completed after the destruction, or it is a quota call. -/
theorem C77_returns (hs : Sane K) (r : Reach K s) (op : Op D) (hm : ¬ Misuse s op) (hl : ¬ Late s op)
    (ht : K.hasC = true ∧ K.hasQ = true ∧ K.hasR = true) (hn : ∀ id, K.answer id = none) (hq : ∀ q t, op ≠ .call (.quota q) t) :
    (∃ s', step K op s = .ok s') ∨
      ((∃ q t, op = .call (.check q) t) ∨ ∃ q t, op = .call (.report q) t) ∧ step K op s = .error .signedOverflow := by
  rcases step_cases r op with h | ⟨_, h | h⟩ | ⟨e, h1, h2⟩
  · exact .inl h
  · exact absurd h hm
  · exact absurd h hl
  · rcases h2.sane hs with ⟨_, _, g⟩ | ⟨_, _, id, a, g⟩ | ⟨rfl, g⟩ | ⟨q, g⟩
    · obtain ⟨t1, t2, t3⟩ := ht
      rw [t1, t2, t3] at g
      simp at g
    · rw [hn id] at g; cases g
    · refine .inr ⟨?_, h1⟩
      rcases g with ⟨q, g⟩ | ⟨q, g⟩
      · rcases g with g | g
        · cases g
        · match op, g with
          | .call (.check q') t, g => exact .inl ⟨q', t, rfl⟩
          | .call (.quota q') t, g => cases g
          | .call (.report q') t, g => cases g
          | .timer, g => simp at g
          | .destroy, g => simp at g
      · rcases g with g | g
        · cases g
        · match op, g with
          | .call (.check q') t, g => cases g
          | .call (.quota q') t, g => cases g
          | .call (.report q') t, g => exact .inr ⟨q', t, rfl⟩
          | .timer, g => simp at g
          | .destroy, g => simp at g
    · exfalso
      rcases g with g | g
      · cases g
      · match op, g with
        | .call (.check q') t, g => cases g
        | .call (.quota q') t, g => exact hq q' t rfl
        | .call (.report q') t, g => cases g
        | .timer, g => simp at g
        | .destroy, g => simp at g

/-- C56: a call whose transport is empty is answered at once with INVALID_ARGUMENT; nothing is sent and nothing is
aggregated. -/
theorem C56_empty_transport_partial (hal : s.alive = true) (c : Call D) (t : Transport)
    (ht : t = .given false ∨ t = .default ∧
      (match c with | .check _ => K.hasC | .quota _ => K.hasQ | .report _ => K.hasR) = false) :
    ∃ s', step K (.call c t) s = .ok s' ∧ s'.trace = s.trace ++ [.called s.calls c false, .done s.calls c .invalidArgument .none none] ∧
      s'.check = s.check ∧ s'.quota = s.quota ∧ s'.report = s.report ∧ s'.pend = s.pend ∧ s'.heap = s.heap := by
  have ht : present K c t = false := by
    rcases ht with rfl | ⟨rfl, ht⟩
    · rfl
    · exact ht
  cases c <;> (
    simp only [step, hal, ht, check, quota, report]
    exact ⟨_, rfl, by simp [Client.done, Client.log], rfl, rfl, rfl, rfl, rfl⟩)

/-- C56: if there are default transports an empty function is never called. -/
theorem C56_never_called_partial (r : Reach K s) (op : Op D) (ht : K.hasC = true ∧ K.hasQ = true ∧ K.hasR = true) :
    step K op s ≠ .error .badFunctionCall := by
  intro he
  rcases step_cases r op with ⟨s', h⟩ | ⟨h, _⟩ | ⟨e, h, h2⟩
  · rw [h] at he; cases he
  · rw [h] at he; cases he
  · rw [h] at he; cases he
    obtain ⟨t1, t2, t3⟩ := ht
    cases h2 with
    | empty _ g => rw [t1, t2, t3] at g; simp at g
    | c _ _ g => exact (Check.step_tame _ _ _ _).1 g
    | q _ _ g => exact (Quota.step_tame _ _ _ _ _).1 g
    | r _ _ g => exact (Report.step_tame _ _ _ _).1 g

/-- C59: if no transport completes in place, no operation waits for a lock its own thread holds. -/
theorem C59_no_deadlock_partial (r : Reach K s) (op : Op D) (hn : ∀ id, K.answer id = none) : step K op s ≠ .error .deadlock := by
  intro he
  rcases step_cases r op with ⟨s', h⟩ | ⟨h, _⟩ | ⟨e, h, h2⟩
  · rw [h] at he; cases he
  · rw [h] at he; cases he
  · rw [h] at he; cases he
    cases h2 with
    | locked _ g => rw [hn] at g; cases g
    | c _ _ g => exact (Check.step_tame _ _ _ _).2 g
    | q _ _ g => exact (Quota.step_tame _ _ _ _ _).2 g
    | r _ _ g => exact (Report.step_tame _ _ _ _).2 g

/-! ### Errors from a transport -/

omit [DoubleOps D] in
theorem freeAll_frame : ∀ (ps : List Nat) {s s' : Client D}, s.freeAll ps = .ok s' → ∃ h, s' = { s with heap := h }
  | [], s, s', h => ⟨s.heap, by cases h; rfl⟩
  | p :: ps, s, s', h => by
    simp only [Client.freeAll, List.foldlM_cons, bind, Except.bind] at h
    cases hf : s.free p with
    | error e => rw [hf] at h; cases h
    | ok s1 =>
      rw [hf] at h
      unfold Client.free at hf
      split at hf
      · cases hf
        obtain ⟨h', rfl⟩ := freeAll_frame ps h
        exact ⟨h', rfl⟩
      · cases hf

/-- C52: a check whose transport reports an error is answered with that error, and what is cached does not change. -/
theorem C52_error_not_cached (r : Reach K s) {id i : Nat} {q : CheckRequest D} (h : (id, some i, .check q) ∈ outstanding s.trace)
    (a : Answer) (ha : a.status ≠ .ok) :
    ∃ s', step K (.complete id a) s = .ok s' ∧
      s'.trace = s.trace ++ [.completed id (some i) (.check q) a, .done i (.check q) a.status (.check a.check) (some id)] ∧
      s'.check = s.check ∧ s'.quota = s.quota ∧ s'.report = s.report := by
  obtain ⟨p, hp, hb, hreq⟩ := outstanding_find r h
  obtain ⟨b, hc, hq, hr, l⟩ := r.inv.good
  obtain ⟨s1, h1, b1, l1, h2⟩ := begin_finish a b l hp hb
  simp only [step, complete, hp, hb, hreq, finishCheck, h1, if_neg ha, bind, Except.bind]
  rw [← List.append_nil p.own] at b1
  obtain ⟨s2, k1, b2, k2⟩ := Books.freeAll p.own b1
  rw [k1]
  obtain ⟨hh, rfl⟩ := freeAll_frame _ k1
  refine ⟨_, rfl, ?_, ?_, ?_, ?_⟩ <;> rw [h2]
  · simp [Client.done, Client.log, hreq]
  all_goals rfl

/-! ### Destruction -/

omit [DoubleOps D] in
theorem flushedOps_reqs (h : Report.Hist D) : (reqsR h).flatMap (·.operations) = Report.flushedOps h := by
  induction h with
  | nil => rfl
  | cons ev h ih => rw [reqsR_cons, List.flatMap_append, ih]; rfl

/-- C53: the log entries of reports answered OK at once are those sent by flushes and those still cached. -/
theorem C53_log_entries (r : Reach K s) :
    (((flushedReports s.trace).flatMap (·.operations) ++ Report.cachedOps K.cfgR s.report).flatMap (·.logEntries)).Perm
      ((acceptedOps s.trace).flatMap (·.logEntries)) := by
  obtain ⟨_, _, _, hr, l⟩ := r.inv.good
  have h1 := l.fr
  have h2 := l.acc
  rw [List.append_nil] at h1 h2
  rw [h1, h2, flushedOps_reqs]
  have := Report.C38_log_entries l.r.reach
  exact this

/-- C53: the same for the totals of integer values of delta metrics. -/
theorem C53_delta_totals (r : Reach K s) (n k : Bytes) (hk : IsDelta K.cfgR.kinds n)
    (hint : ∀ v ∈ reported K.cfgR.H (acceptedOps s.trace) n k, IsInt v) :
    Report.intTotal K.cfgR.H ((flushedReports s.trace).flatMap (·.operations)) n k + Report.intTotal K.cfgR.H (Report.cachedOps K.cfgR s.report) n k =
      Report.intTotal K.cfgR.H (acceptedOps s.trace) n k := by
  obtain ⟨_, _, _, hr, l⟩ := r.inv.good
  have h1 := l.fr
  have h2 := l.acc
  rw [List.append_nil] at h1 h2
  rw [h2] at hint ⊢
  rw [h1, flushedOps_reqs]
  have := Report.C38_delta_totals l.r.reach n k hk hint
  exact this

/-- C53: once a client is destroyed, everything in reports answered OK at once has been sent. -/
theorem C53_all_sent (r : Reach K s) (hd : Ev.destroyed ∈ s.trace) :
    (((flushedReports s.trace).flatMap (·.operations)).flatMap (·.logEntries)).Perm ((acceptedOps s.trace).flatMap (·.logEntries)) ∧
    ∀ n k, IsDelta K.cfgR.kinds n → (∀ v ∈ reported K.cfgR.H (acceptedOps s.trace) n k, IsInt v) →
      Report.intTotal K.cfgR.H ((flushedReports s.trace).flatMap (·.operations)) n k = Report.intTotal K.cfgR.H (acceptedOps s.trace) n k := by
  have he := r.inv.empty ((alive_iff r).mpr hd)
  refine ⟨?_, fun n k hk hint => ?_⟩
  · have := C53_log_entries r
    rwa [he, List.append_nil] at this
  · have := C53_delta_totals r n k hk hint
    rw [he] at this
    rw [← this]
    simp [Report.intTotal, reported]

/-- C53: destroying a client returns and leaves nothing in the caches of the check and report aggregators. -/
theorem C53_destroy_returns (hs : Sane K) (r : Reach K s) (hd : Ev.destroyed ∉ s.trace)
    (ht : K.hasC = true ∧ K.hasQ = true ∧ K.hasR = true) (hn : ∀ id, K.answer id = none) :
    ∃ s', step K .destroy s = .ok s' ∧ Ev.destroyed ∈ s'.trace ∧ Check.pendingOps K.cfgC s'.check = [] ∧
      Report.cachedOps K.cfgR s'.report = [] := by
  rcases C77_returns hs r .destroy hd (by rintro ⟨h, _⟩; exact hd h) ht hn (by simp) with ⟨s', h⟩ | ⟨h, _⟩
  · have hal : s.alive = true := by
      cases ha : s.alive with
      | true => rfl
      | false => exact absurd ((alive_iff r).mp ha) hd
    refine ⟨s', h, ?_⟩
    have r' := r.step h
    simp only [step, hal] at h
    rcases destroy_spec r.inv.good hal with ⟨s1, h1, _, h2, h3, h4⟩ | ⟨e, h1, _⟩
    · rw [h1] at h
      cases h
      exact ⟨(alive_iff r').mp h2, h3, h4⟩
    · rw [h1] at h; cases h
  · rcases h with ⟨_, _, h⟩ | ⟨_, _, h⟩ <;> cases h

/-- C53: after the destruction no transport is called; what still happens is that calls made before are completed
and answered. -/
theorem C53_nothing_after (r : Reach K s) {pre post : List (Ev D)} {e : Ev D} (h : s.trace = pre ++ e :: post)
    (hd : Ev.destroyed ∈ pre) : (∃ id b c a, e = .completed id b c a) ∨ ∃ i c st reply id, e = .done i c st reply (some id) := by
  obtain ⟨_, _, _, _, l⟩ := r.inv.good
  have hl := (l.ok pre e post h).late hd
  cases e with
  | completed id b c a => exact .inl ⟨_, _, _, _, rfl⟩
  | done i c st reply via =>
    cases via with
    | none => cases hl
    | some id => exact .inr ⟨_, _, _, _, _, rfl⟩
  | _ => cases hl

theorem check_quiet {h : Check.Hist D} {c : Check.Call D} {s s' : AggState (Check.Elem D)} {out : Check.Out} {fl : List (CheckRequest D)}
    (i : CheckIs K h false s) (hs : Check.step K.envC K.cfgC c s = .ok (s', out, fl)) : fl = [] := by
  obtain ⟨_, _, _, _, _, h5, _⟩ := i.step hs
  exact h5 rfl

theorem quota_quiet {h : Quota.Hist D} {c : Quota.Call D} {s s' : Quota.State D} {out : Quota.Out} {fl : List (AllocateQuotaRequest D)}
    (i : QuotaIs K h false s) (hs : Quota.step K.envQ K.cfgQ (K.depth + 1) c s = .ok (s', out, fl)) : fl = [] := by
  obtain ⟨_, _, _, _, _, h5, _⟩ := i.step hs
  exact h5 rfl

theorem aggCheck_quiet {h : Check.Hist D} {x : Check.Call D} {v : Client D × Check.Out} (i : CheckIs K h false s.check)
    (hs : s.aggCheck K (Check.step K.envC K.cfgC x) = .ok v) : ∃ c, v.1 = { s with check := c } := by
  simp only [Client.aggCheck, bind, Except.bind] at hs
  cases hw : Check.step K.envC K.cfgC x s.check with
  | error e => rw [hw] at hs; cases hs
  | ok w =>
    obtain ⟨c, o, f⟩ := w
    rw [hw, check_quiet i hw] at hs
    simp only [List.foldlM_nil, pure, Except.pure] at hs
    cases hs
    exact ⟨c, rfl⟩

theorem aggQuota_quiet {h : Quota.Hist D} {x : Quota.Call D} {v : Client D × Quota.Out} (i : QuotaIs K h false s.quota)
    (hs : s.aggQuota K (Quota.step K.envQ K.cfgQ (K.depth + 1) x) = .ok v) : ∃ c, v.1 = { s with quota := c } := by
  simp only [Client.aggQuota, bind, Except.bind] at hs
  cases hw : Quota.step K.envQ K.cfgQ (K.depth + 1) x s.quota with
  | error e => rw [hw] at hs; cases hs
  | ok w =>
    obtain ⟨c, o, f⟩ := w
    rw [hw, quota_quiet i hw] at hs
    simp only [List.foldlM_nil, pure, Except.pure] at hs
    cases hs
    exact ⟨c, rfl⟩

/-- What a completion adds to the trace after the destruction. -/
theorem complete_trace (r : Reach K s) (hal : s.alive = false) {id : Nat} {a : Answer} {p : Pend D} (hp : s.pend.find? (·.id == id) = some p)
    (h : complete K id a s = .ok s') :
    s'.trace = s.trace ++ .completed id p.by_ p.req a ::
      (match p.by_ with | some i => [.done i p.req a.status (replyOf p.req a) (some id)] | none => []) := by
  obtain ⟨_, hc, hq, _, l⟩ := r.inv.good
  have lc := l.c
  have lq := l.q
  rw [hal] at lc lq
  obtain ⟨s1, ht, e1, e2, e3⟩ : ∃ s1, s.take id a = .ok (p, s1) ∧ s1.check = s.check ∧ s1.quota = s.quota ∧
      s1.trace = s.trace ++ [.completed id p.by_ p.req a] := ⟨_, take_ok a hp, rfl, rfl, rfl⟩
  rw [← e1] at lc
  rw [← e2] at lq
  have hfree : ∀ {ps : List Nat} {x y : Client D}, x.freeAll ps = .ok y → y.trace = x.trace := by
    intro ps x y h
    obtain ⟨_, rfl⟩ := freeAll_frame _ h
    rfl
  unfold complete at h
  rw [hp] at h
  simp only at h
  cases hb : p.by_ with
  | none =>
    have hfin : finishPlain id a s = .ok s' → s'.trace = s.trace ++ [.completed id none p.req a] := by
      intro h
      unfold finishPlain at h
      rw [ht] at h
      simp only [bind, Except.bind] at h
      rw [hfree h, e3, hb]
    cases hreq : p.req with
    | check q => rw [hb, hreq] at h; rw [← hreq]; exact hfin h
    | report q => rw [hb, hreq] at h; rw [← hreq]; exact hfin h
    | quota q =>
      have hd : Dangling s p := ⟨hal, hb, q, hreq⟩
      have := complete_dangling (K := K) (a := a) hp hd
      unfold complete at this
      rw [hp] at this
      simp only at this
      rw [this] at h; cases h
  | some i =>
    rw [hb] at e3
    cases hreq : p.req with
    | check q =>
      rw [hreq] at e3
      rw [hb, hreq] at h
      simp only [finishCheck, ht, bind, Except.bind] at h
      by_cases ha : a.status = .ok
      · rw [if_pos ha] at h
        cases ht1 : s1.touch p.own with
        | error e => rw [ht1] at h; cases h
        | ok u =>
        rw [ht1] at h
        simp only at h
        cases hv : s1.aggCheck K (Check.cacheResponse K.envC K.cfgC q a.check) with
        | error e => rw [hv] at h; cases h
        | ok v =>
        rw [hv] at h
        simp only at h
        obtain ⟨c', hc'⟩ := aggCheck_quiet (x := .cacheResponse q a.check) lc hv
        cases hy : v.1.freeAll p.own with
        | error e => rw [hy] at h; cases h
        | ok y =>
        rw [hy] at h
        cases h
        have h1 := hfree hy
        rw [hc'] at h1
        show y.trace ++ [_] = _
        rw [h1]
        show s1.trace ++ [_] = _
        rw [e3]; simp [replyOf]
      · rw [if_neg ha] at h
        cases hy : s1.freeAll p.own with
        | error e => rw [hy] at h; cases h
        | ok y =>
        rw [hy] at h
        cases h
        show y.trace ++ [_] = _
        rw [hfree hy, e3]; simp [replyOf]
    | quota q =>
      rw [hreq] at e3
      rw [hb, hreq] at h
      simp only [finishQuota, ht, bind, Except.bind] at h
      cases ht1 : s1.touch p.own with
      | error e => rw [ht1] at h; cases h
      | ok u =>
      rw [ht1] at h
      simp only at h
      generalize (if a.status = .ok then a.quota else AllocateQuotaResponse.default) = resp at h
      cases hv : s1.aggQuota K (Quota.cacheResponse K.envQ K.cfgQ (K.depth + 1) q resp) with
      | error e => rw [hv] at h; cases h
      | ok v =>
      rw [hv] at h
      simp only at h
      obtain ⟨c', hc'⟩ := aggQuota_quiet (x := .cacheResponse q resp) lq hv
      cases hy : v.1.freeAll p.own with
      | error e => rw [hy] at h; cases h
      | ok y =>
      rw [hy] at h
      cases h
      have h1 := hfree hy
      rw [hc'] at h1
      show y.trace ++ [_] = _
      rw [h1]
      show s1.trace ++ [_] = _
      rw [e3]; simp [replyOf]
    | report q =>
      rw [hreq] at e3
      rw [hb, hreq] at h
      simp only [finishReport, ht, bind, Except.bind] at h
      cases h
      show s1.trace ++ [_] = _
      rw [e3]; simp [replyOf]

/-- C54: after the destruction a transport may complete any outstanding call, except a quota request sent by a
flush: the caller is answered, and nothing else happens. -/
theorem C54_late_completion_partial (hs : Sane K) (r : Reach K s) (hd : Ev.destroyed ∈ s.trace) {id : Nat} {b : Option Nat} {c : Call D}
    (h : (id, b, c) ∈ outstanding s.trace) (hq : b = none → ∀ q, c ≠ .quota q) (a : Answer) :
    ∃ s', step K (.complete id a) s = .ok s' ∧
      s'.trace = s.trace ++ .completed id b c a :: (match b with | some i => [.done i c a.status (replyOf c a) (some id)] | none => []) := by
  obtain ⟨p, hp, rfl, rfl⟩ := outstanding_find r h
  have hal := (alive_iff r).mpr hd
  have hdang : ¬ Dangling s p := by rintro ⟨_, h1, q, h2⟩; exact hq h1 q h2
  rcases complete_spec (P := isResponse) (fun x hx => hx) a r.inv.good hp hdang with ⟨s', h1, _⟩ | ⟨e, h1, h2⟩
  · exact ⟨s', h1, complete_trace r hal hp h1⟩
  · exfalso
    rcases h2.sane hs with ⟨g, _⟩ | ⟨g, _⟩ | ⟨_, ⟨q, g⟩ | ⟨q, g⟩⟩ | ⟨q, g⟩
    · rw [hal] at g; cases g
    · rw [hal] at g; cases g
    · exact g
    · exact g
    · exact g

/-- C54: completing a quota request sent by a flush after the destruction always uses the destroyed client. -/
theorem C54_false_flushed_quota (r : Reach K s) (hd : Ev.destroyed ∈ s.trace) {id : Nat} {q : AllocateQuotaRequest D}
    (h : (id, none, .quota q) ∈ outstanding s.trace) (a : Answer) : step K (.complete id a) s = .error .useAfterFree := by
  obtain ⟨p, hp, hb, hreq⟩ := outstanding_find r h
  exact complete_dangling hp ⟨(alive_iff r).mpr hd, hb, q, hreq⟩

/-! ### The timer -/

/-- The intervals at which the enabled caches want to be flushed. -/
def intervals (K : Setup) : List Int :=
  ((if 0 < K.cfgC.numEntries then [K.cfgC.expirationMs] else []) ++ (if 0 < K.cfgQ.numEntries then [K.cfgQ.flushMs] else []) ++
    (if 0 < K.cfgR.numEntries then [K.cfgR.flushMs] else [])).filter (0 ≤ ·)

/-- The smaller of three values, each of which is left out if it is negative or not enabled. -/
theorem min_orMax (M n : Int) (x1 x2 x3 : Int) (p1 p2 p3 : Prop) [Decidable p1] [Decidable p2] [Decidable p3]
    (l : List Int) (hl : l = ((if p1 then [x1] else []) ++ (if p2 then [x2] else []) ++ (if p3 then [x3] else [])).filter (0 ≤ ·))
    (hM : ∀ m ∈ l, m ≤ M) (om : Int → Int) (hom : ∀ x, om x = if x < 0 then M else x) :
    n = min (om (if p1 then x1 else -1)) (min (om (if p2 then x2 else -1)) (om (if p3 then x3 else -1))) ↔
      n ∈ M :: l ∧ ∀ m ∈ M :: l, n ≤ m := by
  have y : ∀ (p : Prop) [Decidable p] (x : Int), ∃ y, om (if p then x else -1) = y ∧ ((p ∧ 0 ≤ x ∧ y = x) ∨ (¬ (p ∧ 0 ≤ x) ∧ y = M)) := by
    intro p _ x
    refine ⟨_, rfl, ?_⟩
    rw [hom]
    by_cases hp : p
    · rw [if_pos hp]
      by_cases hx : x < 0
      · rw [if_pos hx]; exact .inr ⟨fun h => by omega, rfl⟩
      · rw [if_neg hx]; exact .inl ⟨hp, by omega, rfl⟩
    · rw [if_neg hp]; exact .inr ⟨fun h => hp h.1, rfl⟩
  have mem : ∀ m, m ∈ l ↔ (p1 ∧ 0 ≤ x1 ∧ m = x1) ∨ (p2 ∧ 0 ≤ x2 ∧ m = x2) ∨ (p3 ∧ 0 ≤ x3 ∧ m = x3) := by
    have mem1 : ∀ (p : Prop) [Decidable p] (x m : Int), m ∈ (if p then [x] else []) ↔ p ∧ m = x := by
      intro p _ x m; split <;> simp_all
    intro m
    rw [hl]
    simp only [List.mem_filter, List.mem_append, mem1, decide_eq_true_eq]
    constructor
    · rintro ⟨(⟨h, rfl⟩ | ⟨h, rfl⟩) | ⟨h, rfl⟩, h2⟩
      · exact .inl ⟨h, h2, rfl⟩
      · exact .inr (.inl ⟨h, h2, rfl⟩)
      · exact .inr (.inr ⟨h, h2, rfl⟩)
    · rintro (⟨h, h2, rfl⟩ | ⟨h, h2, rfl⟩ | ⟨h, h2, rfl⟩)
      · exact ⟨.inl (.inl ⟨h, rfl⟩), h2⟩
      · exact ⟨.inl (.inr ⟨h, rfl⟩), h2⟩
      · exact ⟨.inr ⟨h, rfl⟩, h2⟩
  obtain ⟨y1, e1, k1⟩ := y p1 x1
  obtain ⟨y2, e2, k2⟩ := y p2 x2
  obtain ⟨y3, e3, k3⟩ := y p3 x3
  rw [e1, e2, e3]
  simp only [List.mem_cons, forall_eq_or_imp]
  have m1 : p1 ∧ 0 ≤ x1 → x1 ∈ l := fun h => (mem x1).mpr (.inl ⟨h.1, h.2, rfl⟩)
  have m2 : p2 ∧ 0 ≤ x2 → x2 ∈ l := fun h => (mem x2).mpr (.inr (.inl ⟨h.1, h.2, rfl⟩))
  have m3 : p3 ∧ 0 ≤ x3 → x3 ∈ l := fun h => (mem x3).mpr (.inr (.inr ⟨h.1, h.2, rfl⟩))
  have b1 : y1 ≤ M := by rcases k1 with ⟨h, h2, rfl⟩ | ⟨_, rfl⟩; exacts [hM _ (m1 ⟨h, h2⟩), le_refl _]
  have b2 : y2 ≤ M := by rcases k2 with ⟨h, h2, rfl⟩ | ⟨_, rfl⟩; exacts [hM _ (m2 ⟨h, h2⟩), le_refl _]
  have b3 : y3 ≤ M := by rcases k3 with ⟨h, h2, rfl⟩ | ⟨_, rfl⟩; exacts [hM _ (m3 ⟨h, h2⟩), le_refl _]
  have c1 : y1 = M ∨ y1 ∈ l := by rcases k1 with ⟨h, h2, rfl⟩ | ⟨_, rfl⟩; exacts [.inr (m1 ⟨h, h2⟩), .inl rfl]
  have c2 : y2 = M ∨ y2 ∈ l := by rcases k2 with ⟨h, h2, rfl⟩ | ⟨_, rfl⟩; exacts [.inr (m2 ⟨h, h2⟩), .inl rfl]
  have c3 : y3 = M ∨ y3 ∈ l := by rcases k3 with ⟨h, h2, rfl⟩ | ⟨_, rfl⟩; exacts [.inr (m3 ⟨h, h2⟩), .inl rfl]
  have d : ∀ m ∈ l, m = y1 ∨ m = y2 ∨ m = y3 := by
    intro m hm
    rcases (mem m).mp hm with ⟨h, h2, rfl⟩ | ⟨h, h2, rfl⟩ | ⟨h, h2, rfl⟩
    · rcases k1 with ⟨_, _, h3⟩ | ⟨h3, _⟩; exacts [.inl h3.symm, absurd ⟨h, h2⟩ h3]
    · rcases k2 with ⟨_, _, h3⟩ | ⟨h3, _⟩; exacts [.inr (.inl h3.symm), absurd ⟨h, h2⟩ h3]
    · rcases k3 with ⟨_, _, h3⟩ | ⟨h3, _⟩; exacts [.inr (.inr h3.symm), absurd ⟨h, h2⟩ h3]
  clear mem m1 m2 m3 k1 k2 k3 e1 e2 e3 y hl hom
  constructor
  · intro h
    refine ⟨?_, by omega, fun m hm => ?_⟩
    · have : n = y1 ∨ n = y2 ∨ n = y3 := by omega
      rcases this with h | h | h <;> rw [h]
      exacts [c1, c2, c3]
    · have := d m hm
      omega
  · rintro ⟨h1, h2, h3⟩
    have g1 : n ≤ y1 := c1.elim (fun h => by omega) (h3 _)
    have g2 : n ≤ y2 := c2.elim (fun h => by omega) (h3 _)
    have g3 : n ≤ y3 := c3.elim (fun h => by omega) (h3 _)
    rcases h1 with h1 | h1
    · omega
    · have := d n h1
      omega

/-- C55: a timer is started if one can be and the smallest interval, or INT_MAX if there is none, is positive; it
has that interval. -/
theorem C55_timer (h : new K = .ok s) (hi : ∀ m ∈ intervals K, m ≤ int32Max) (n : Int) : s.timer = some n ↔
    K.hasTimer = true ∧ 0 < n ∧ n ∈ int32Max :: intervals K ∧ ∀ m ∈ int32Max :: intervals K, n ≤ m := by
  unfold new at h
  cases h1 : Check.new (D := D) K.envC K.cfgC with
  | error e => rw [h1] at h; cases h
  | ok c =>
  cases h2 : Quota.new (D := D) K.envQ K.cfgQ (K.depth + 1) with
  | error e => rw [h1, h2] at h; cases h
  | ok q =>
  cases h3 : Report.new (D := D) K.envR K.cfgR with
  | error e => rw [h1, h2, h3] at h; cases h
  | ok rr =>
  rw [h1, h2, h3] at h
  simp only [bind, Except.bind] at h
  cases h
  have g1 : Check.nextFlushInterval K.cfgC c = if 0 < K.cfgC.numEntries then K.cfgC.expirationMs else -1 := by
    unfold Check.new at h1
    split at h1
    · rename_i hp
      rw [if_pos hp]
      simp only [bind, Except.bind] at h1
      split at h1
      · cases h1
      · cases h1; rfl
    · rename_i hp
      rw [if_neg hp]; cases h1; rfl
  have g2 : Quota.nextFlushInterval K.cfgQ q = if 0 < K.cfgQ.numEntries then K.cfgQ.flushMs else -1 := by
    unfold Quota.new at h2
    split at h2
    · rename_i hp
      rw [if_pos hp]
      simp only [bind, Except.bind] at h2
      split at h2
      · cases h2
      · cases h2; rfl
    · rename_i hp
      rw [if_neg hp]; cases h2; rfl
  have g3 : Report.nextFlushInterval K.cfgR rr = if 0 < K.cfgR.numEntries then K.cfgR.flushMs else -1 := by
    unfold Report.new at h3
    split at h3
    · rename_i hp
      rw [if_pos hp]
      simp only [bind, Except.bind] at h3
      split at h3
      · cases h3
      · cases h3; rfl
    · rename_i hp
      rw [if_neg hp]; cases h3; rfl
  simp only [nextFlushInterval, g1, g2, g3, intervals]
  by_cases hT : K.hasTimer = true
  · rw [hT]
    have hsplit : ∀ (m : Int), ((if (true && decide (m > 0)) = true then some m else none) = some n ↔ 0 < n ∧ n = m) := by
      intro m
      by_cases hm : m > 0
      · simp only [hm, decide_true, Bool.and_self, if_true, Option.some.injEq]; omega
      · simp only [hm, decide_false, Bool.and_false]; simp; omega
    rw [hsplit]
    simp only [true_and]
    refine and_congr_right (fun _ => ?_)
    exact min_orMax int32Max n _ _ _ _ _ _ _ rfl hi (fun x => if x < 0 then int32Max else x) (fun _ => rfl)
  · rw [Bool.not_eq_true] at hT
    simp [hT]

/-! ### Examples -/
section examples

/-- The client after some operations. -/
def run (K : Setup) (ops : List (Op D)) : Res (Client D) := do
  let s ← new K
  ops.foldlM (fun s op => step K op s) s

theorem run_reach (ops : List (Op D)) (h : run K ops = .ok s) : Reach K s := by
  unfold run at h
  cases hn : new (D := D) K with
  | error e => rw [hn] at h; cases h
  | ok s0 =>
    rw [hn] at h
    simp only [bind, Except.bind] at h
    have hgen : ∀ (ops : List (Op D)) (s0 : Client D), Reach K s0 → ops.foldlM (fun s op => step K op s) s0 = Except.ok s → Reach K s := by
      intro ops
      induction ops with
      | nil => intro s0 r h; simp only [List.foldlM_nil, pure, Except.pure] at h; cases h; exact r
      | cons op ops ih =>
        intro s0 r h
        simp only [List.foldlM_cons, bind, Except.bind] at h
        cases hst : step K op s0 with
        | error e => rw [hst] at h; cases h
        | ok v => rw [hst] at h; exact ih _ (r.step hst) h
    exact hgen ops s0 (.new hn) h

/-- Examples are evaluated by the kernel. -/
theorem run_case (ops : List (Op D)) (P : Client D → Prop) [∀ s, Decidable (P s)]
    (hb : (match run K ops with | .ok s => decide (P s) | .error _ => false) = true) : ∃ s, Reach K s ∧ P s := by
  cases hr : run K ops with
  | error e => rw [hr] at hb; cases hb
  | ok v =>
    rw [hr] at hb
    exact ⟨v, run_reach ops hr, of_decide_eq_true hb⟩

/-- Small caches, all default transports and a timer; no transport completes in place. -/
def exK : Setup :=
  ⟨Check.exCfg, Quota.exCfg, Report.exCfg, Report.exEnv, Quota.exEnv, Report.exEnv, 2, true, true, true, true, fun _ => none⟩

def exCheck (n : UInt8) (i : Int) : Call Int := .check (Check.exReq n i)
def exQuota (n : UInt8) (i : Int) : Call Int := .quota (Quota.exQ n i)
def exReport (n : UInt8) (i : Int) : Call Int := .report ⟨[115], [Report.exNamed n i], [49]⟩
def exOk : Answer := ⟨.ok, Check.exYes 7, Quota.exYes 7⟩
def exFail : Answer := ⟨.internal, Check.exNo, Quota.exNo⟩

theorem exK_sane : Sane exK := ⟨fun _ => Report.exEnv_mono, fun _ => Report.exEnv_mono, Quota.exEnv_mono, by decide⟩

/-- Calls answered by a transport and at once, flushes, and a destruction with calls outstanding: one check waits. -/
theorem example_run : ∃ s, Reach exK s ∧ Ev.destroyed ∈ s.trace ∧ s.trace.length = 22 ∧
    (List.range 6).map (fun i => (dones i s.trace, locals i s.trace, sends i s.trace, outstandingFor i s.trace)) =
      [(1, 1, 0, 0), (1, 0, 1, 0), (1, 1, 0, 0), (1, 1, 0, 0), (1, 1, 0, 0), (0, 0, 1, 1)] ∧
    Ev.done 2 (exCheck 1 6) .ok (.check (Check.exYes 7)) none ∈ s.trace ∧
    (outstanding s.trace).map (fun x => (x.1, x.2.1)) = [(0, none), (2, some 5), (3, none), (4, none), (5, none)] ∧
    s.heap.length = 6 ∧ (flushedReports s.trace).length = 2 ∧ (acceptedOps s.trace).length = 2 ∧
    s.stats = ⟨3, 1, 2, 1, 1, 0, 2, 2, 0, 2⟩ := by
  obtain ⟨s, r, h⟩ := run_case (K := exK)
    [.call (exQuota 1 5) .default, .call (exCheck 1 5) .default, .complete 1 exOk, .call (exCheck 1 6) .default, .call (exReport 1 2) .default,
      .call (exReport 2 3) .default, .timer, .call (exCheck 9 0) (.given true), .timer, .timer, .destroy]
    (fun s => Ev.destroyed ∈ s.trace ∧ s.trace.length = 22 ∧
    (List.range 6).map (fun i => (dones i s.trace, locals i s.trace, sends i s.trace, outstandingFor i s.trace)) =
      [(1, 1, 0, 0), (1, 0, 1, 0), (1, 1, 0, 0), (1, 1, 0, 0), (1, 1, 0, 0), (0, 0, 1, 1)] ∧
    Ev.done 2 (exCheck 1 6) .ok (.check (Check.exYes 7)) none ∈ s.trace ∧
    (outstanding s.trace).map (fun x => (x.1, x.2.1)) = [(0, none), (2, some 5), (3, none), (4, none), (5, none)] ∧
    s.heap.length = 6 ∧ (flushedReports s.trace).length = 2 ∧ (acceptedOps s.trace).length = 2 ∧
    s.stats = ⟨3, 1, 2, 1, 1, 0, 2, 2, 0, 2⟩) (by decide +kernel)
  exact ⟨s, r, h⟩

/-- C52, C54: calls wait for a transport, before and after the destruction; the caller of the late one is answered. -/
example : ∃ s, Reach exK s ∧ Ev.destroyed ∈ s.trace ∧ (1, some 1, exCheck 1 5) ∈ outstanding s.trace ∧
    ∃ s', step exK (.complete 1 exFail) s = .ok s' ∧ Ev.done 1 (exCheck 1 5) .internal (.check Check.exNo) (some 1) ∈ s'.trace := by
  obtain ⟨s, r, h1, h2⟩ := run_case (K := exK)
    [.call (exQuota 1 5) .default, .call (exCheck 1 5) .default, .destroy]
    (fun s => Ev.destroyed ∈ s.trace ∧ (1, some 1, exCheck 1 5) ∈ outstanding s.trace) (by decide +kernel)
  obtain ⟨s', h3, h4⟩ := C54_late_completion_partial exK_sane r h1 h2 (by simp) exFail
  exact ⟨s, r, h1, h2, s', h3, by rw [h4]; simp [exFail, replyOf, exCheck]⟩

/-- C54 is false: the callback of a quota request sent by a flush uses the destroyed client. -/
theorem C54_false : ∃ s, Reach exK s ∧ Ev.destroyed ∈ s.trace ∧ (0, none, exQuota 1 5) ∈ outstanding s.trace ∧
    ∀ a, step exK (.complete 0 a) s = .error .useAfterFree := by
  obtain ⟨s, r, h1, h2⟩ := run_case (K := exK) [.call (exQuota 1 5) .default, .destroy]
    (fun s => Ev.destroyed ∈ s.trace ∧ (0, none, exQuota 1 5) ∈ outstanding s.trace) (by decide +kernel)
  exact ⟨s, r, h1, h2, fun a => C54_false_flushed_quota r h1 h2 a⟩

/-- C56 is false: without a default transport a report given its own transport is accepted, and the flush that should
send it calls an empty function. -/
theorem C56_false : ∃ s, Reach { exK with hasR := false } s ∧ acceptedOps s.trace = [Report.exNamed 1 2] ∧
    step { exK with hasR := false } .destroy s = .error .badFunctionCall := by
  obtain ⟨s, r, h1, h2⟩ := run_case (K := { exK with hasR := false }) [.call (exReport 1 2) (.given true)]
    (fun s => acceptedOps s.trace = [Report.exNamed 1 2] ∧ step { exK with hasR := false } .destroy s = .error .badFunctionCall)
    (by decide +kernel)
  exact ⟨s, r, h1, h2⟩

/-- C59 is false: with transports that complete in place the response to a flushed quota request flushes another
one, whose callback needs the lock held for the first. -/
theorem C59_false : ∃ s : Client Int, Reach { exK with answer := fun _ => some exOk } s ∧
    step { exK with answer := fun _ => some exOk } .timer s = .error .deadlock := by
  obtain ⟨s, r, h⟩ := run_case (K := { exK with answer := fun _ => some exOk })
    ([.call (exQuota 1 5) .default, .call (exQuota 2 3) .default, .timer, .call (exQuota 2 4) .default, .call (exQuota 1 6) .default])
    (fun s => step { exK with answer := fun _ => some exOk } .timer s = .error .deadlock) (by decide +kernel)
  exact ⟨s, r, h⟩

/-- C49: the quota request failed, and the next call is granted. -/
example : ∃ s post, Reach exK s ∧ s.trace =
    [.called 0 (exQuota 1 5) true, .sent 0 none (exQuota 1 5), .done 0 (exQuota 1 5) .ok (.quota .default) none] ++
      .completed 0 none (exQuota 1 5) exFail :: [] ++ .called 1 (exQuota 1 7) true :: [] ++ .done 1 (exQuota 1 7) .ok (.quota .default) none :: post := by
  obtain ⟨s, r, h⟩ := run_case (K := exK)
    [.call (exQuota 1 5) .default, .complete 0 exFail, .call (exQuota 1 7) .default]
    (fun s => s.trace = [.called 0 (exQuota 1 5) true, .sent 0 none (exQuota 1 5), .done 0 (exQuota 1 5) .ok (.quota .default) none] ++
      .completed 0 none (exQuota 1 5) exFail :: [] ++ .called 1 (exQuota 1 7) true :: [] ++ .done 1 (exQuota 1 7) .ok (.quota .default) none :: [])
    (by decide +kernel)
  exact ⟨s, [], r, h⟩

/-- C76: a denial is passed on to the next quota call. -/
example : ∃ s, Reach exK s ∧ Ev.done 1 (exQuota 1 7) .ok (.quota Quota.exNo) none ∈ s.trace := by
  obtain ⟨s, r, h⟩ := run_case (K := exK)
    [.call (exQuota 1 5) .default, .complete 0 ⟨.ok, Check.exNo, Quota.exNo⟩, .call (exQuota 1 7) .default]
    (fun s => Ev.done 1 (exQuota 1 7) .ok (.quota Quota.exNo) none ∈ s.trace) (by decide +kernel)
  exact ⟨s, r, h⟩

/-- C55: the smallest of 12, 3 and 3 ms. -/
example : (∀ m ∈ intervals exK, m ≤ int32Max) ∧ ∃ s : Client Int, new exK = .ok s ∧ s.timer = some 3 := by
  refine ⟨by decide, ?_⟩
  have : (match new (D := Int) exK with | .ok s => decide (s.timer = some 3) | .error _ => false) = true := by decide +kernel
  cases h : new (D := Int) exK with
  | error e => rw [h] at this; cases this
  | ok s => rw [h] at this; exact ⟨s, rfl, of_decide_eq_true this⟩

/-- C56: a call with an empty transport. -/
example : ∃ s : Client Int, Reach exK s ∧ s.alive = true ∧ present exK (exReport 1 2) (.given false) = false := by
  obtain ⟨s, r, h⟩ := run_case (K := exK) [.call (exQuota 1 5) .default] (fun s => s.alive = true) (by decide +kernel)
  exact ⟨s, r, h, rfl⟩

end examples

end Verif.Client
