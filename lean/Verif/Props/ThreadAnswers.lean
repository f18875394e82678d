import Verif.Props.ThreadExamples
/-
C95, C96: which calls are answered without a transport, under every schedule.
-/
set_option linter.unusedSectionVars false
namespace Verif.Threads
open Client
variable {D : Type} [DoubleOps D] {K : Setup} {stops : Bool} {s : Sys D}

/-- C95: a call answered without a transport was answered OK and is for this service and only of low importance, or was answered
INVALID_ARGUMENT and is for another service, has no operation, or was made without any transport. -/
theorem C95_local (r : Reach K stops s) {i : Nat} {c : Call D} {st : Status} {reply : Reply} (h : Ev.done i c st reply none ∈ s.c.trace) :
    (st = .ok ∧ ¬ Refused K c ∧ Held K c ∧ Ev.called i c true ∈ s.c.trace) ∨
    (st = .invalidArgument ∧ (Refused K c ∨ Ev.called i c false ∈ s.c.trace)) := by
  obtain ⟨_, _, _, l⟩ := r.links
  obtain ⟨pre, post, h⟩ := List.append_of_mem h
  have hm : ∀ e ∈ pre, e ∈ s.c.trace := fun e he => by rw [h]; exact List.mem_append_left _ he
  obtain ⟨h1, h2⟩ := (l.ok pre _ post h).backed i _ _ reply rfl
  rcases h2.why with ⟨h3 | h3 | h3, h4⟩ | h3
  · exact .inl ⟨h3.1, h3.2.1, h3.2.2, hm _ h4⟩
  · exact .inr ⟨h3.1, .inl h3.2⟩
  · exact absurd h3.1 h1
  · exact .inr ⟨h3.1, .inr (hm _ h3.2)⟩

/-- C95: a transport is called for a call only if the call is for this service, has an operation and was made with a transport; a
report or a quota call is given to a transport only if its cache is off or the report has an important operation. -/
theorem C95_sent (r : Reach K stops s) {id i : Nat} {c : Call D} (h : Ev.sent id (some i) c ∈ s.c.trace) :
    ¬ Refused K c ∧ Ev.called i c true ∈ s.c.trace ∧ (Held K c → ∃ q, c = .check q) := by
  obtain ⟨_, _, _, l⟩ := r.links
  obtain ⟨pre, post, h⟩ := List.append_of_mem h
  obtain ⟨h1, h2⟩ := (l.ok pre _ post h).sent id i c rfl
  refine ⟨?_, by rw [h]; exact List.mem_append_left _ h2, ?_⟩ <;> rcases h1 with h3 | h3 | h3
  · exact h3.2.1
  · cases h3.1
  · exact h3.2.1
  · cases h3.1
  · cases h3.1
  · exact h3.2.2

omit [DoubleOps D] in
theorem calls_pos {i : Nat} {c : Call D} {t : Bool} {tr : List (Ev D)} (h : Ev.called i c t ∈ tr) : 0 < calls i tr :=
  List.countP_pos_iff.mpr ⟨_, h, by simp [Ev.calledNo]⟩

omit [DoubleOps D] in
theorem locals_pos {i : Nat} {tr : List (Ev D)} (h : 0 < locals i tr) : ∃ c st reply, Ev.done i c st reply none ∈ tr := by
  obtain ⟨e, h1, h2⟩ := List.countP_pos_iff.mp h
  cases e with
  | done j c st reply via =>
    cases via with
    | none =>
      simp only [Ev.localNo, beq_iff_eq, Option.some.injEq] at h2
      subst h2
      exact ⟨c, st, reply, h1⟩
    | some id => simp [Ev.localNo] at h2
  | _ => simp [Ev.localNo] at h2

omit [DoubleOps D] in
theorem sends_pos {i : Nat} {tr : List (Ev D)} (h : 0 < sends i tr) : ∃ id c, Ev.sent id (some i) c ∈ tr := by
  obtain ⟨e, h1, h2⟩ := List.countP_pos_iff.mp h
  cases e with
  | sent id b c =>
    cases b with
    | some j =>
      simp only [Ev.sentFor, beq_iff_eq, Option.some.injEq] at h2
      subst h2
      exact ⟨id, c, h1⟩
    | none => simp [Ev.sentFor] at h2
  | _ => simp [Ev.sentFor] at h2

/-- A number stands for one call. -/
theorem called_unique (r : Reach K stops s) {i : Nat} {c c' : Call D} {t t' : Bool} (h : Ev.called i c t ∈ s.c.trace)
    (h' : Ev.called i c' t' ∈ s.c.trace) : c = c' ∧ t = t' := by
  have h1 := (C87_exactly_once r i).1
  generalize s.c.trace = tr at h h' h1
  unfold calls at h1
  induction tr with
  | nil => cases h
  | cons e tr ih =>
    rw [List.countP_cons] at h1
    rcases List.mem_cons.mp h with rfl | g
    · rw [if_pos (by simp [Ev.calledNo])] at h1
      rcases List.mem_cons.mp h' with g' | g'
      · cases g'; exact ⟨rfl, rfl⟩
      · have := calls_pos g'; unfold calls at this; omega
    · rcases List.mem_cons.mp h' with rfl | g'
      · rw [if_pos (by simp [Ev.calledNo])] at h1
        have := calls_pos g; unfold calls at this; omega
      · exact ih g g' (by omega)

/-- C95: a valid call made with a transport that the cache may not answer (it is important, or the cache is off) is given to a
transport once. -/
theorem C95_important_sent (r : Reach K stops s) {i : Nat} {c : Call D} (h : Ev.called i c true ∈ s.c.trace) (hv : ¬ Refused K c) (hh : ¬ Held K c)
    (hr : Rest i s) : sends i s.c.trace = 1 ∧ locals i s.c.trace = 0 := by
  obtain ⟨h1, _, _, h2⟩ := C87_exactly_once r i
  have h3 := (h2 hr).2
  have h4 := calls_pos h
  have h5 : locals i s.c.trace = 0 := by
    rcases Nat.eq_zero_or_pos (locals i s.c.trace) with h5 | h5
    · exact h5
    · exfalso
      obtain ⟨c', st, reply, h6⟩ := locals_pos h5
      obtain ⟨⟨t, h7⟩, _⟩ := C87_done_reports r h6
      obtain ⟨rfl, rfl⟩ := called_unique r h h7
      rcases C95_local r h6 with h8 | ⟨_, h8 | h8⟩
      · exact hh h8.2.2.1
      · exact hv h8
      · have := (called_unique r h h8).2; cases this
  omega

/-- C95: a valid quota call or report made with a transport that the cache may answer is answered OK at once; no transport is
called for it. -/
theorem C95_held_answered (r : Reach K stops s) {i : Nat} {c : Call D} (h : Ev.called i c true ∈ s.c.trace) (hv : ¬ Refused K c) (hh : Held K c)
    (hc : ∀ q, c ≠ .check q) (hr : Rest i s) : sends i s.c.trace = 0 ∧ ∃ reply, Ev.done i c .ok reply none ∈ s.c.trace := by
  obtain ⟨h1, _, _, h2⟩ := C87_exactly_once r i
  have h3 := (h2 hr).2
  have h4 := calls_pos h
  have h5 : sends i s.c.trace = 0 := by
    rcases Nat.eq_zero_or_pos (sends i s.c.trace) with h5 | h5
    · exact h5
    · exfalso
      obtain ⟨id, c', h6⟩ := sends_pos h5
      obtain ⟨_, h7, h8⟩ := C95_sent r h6
      obtain ⟨rfl, _⟩ := called_unique r h h7
      obtain ⟨q, hq⟩ := h8 hh
      exact hc q hq
  refine ⟨h5, ?_⟩
  obtain ⟨c', st, reply, h6⟩ := locals_pos (i := i) (tr := s.c.trace) (by omega)
  obtain ⟨⟨t, h7⟩, _⟩ := C87_done_reports r h6
  obtain ⟨rfl, rfl⟩ := called_unique r h h7
  rcases C95_local r h6 with h8 | ⟨_, h8 | h8⟩
  · exact ⟨reply, h8.1 ▸ h6⟩
  · exact absurd h8 hv
  · have := (called_unique r h h8).2; cases this

/-- C95: a call for another service, without operation, or made without any transport is answered INVALID_ARGUMENT at once. -/
theorem C95_refused_answered (r : Reach K stops s) {i : Nat} {c : Call D} {t : Bool} (h : Ev.called i c t ∈ s.c.trace) (hv : Refused K c ∨ t = false)
    (hr : Rest i s) : sends i s.c.trace = 0 ∧ ∃ reply, Ev.done i c .invalidArgument reply none ∈ s.c.trace := by
  obtain ⟨h1, _, _, h2⟩ := C87_exactly_once r i
  have h3 := (h2 hr).2
  have h4 := calls_pos h
  have h5 : sends i s.c.trace = 0 := by
    rcases Nat.eq_zero_or_pos (sends i s.c.trace) with h5 | h5
    · exact h5
    · exfalso
      obtain ⟨id, c', h6⟩ := sends_pos h5
      obtain ⟨h8, h7, _⟩ := C95_sent r h6
      obtain ⟨rfl, rfl⟩ := called_unique r h h7
      rcases hv with hv | hv
      · exact h8 hv
      · cases hv
  refine ⟨h5, ?_⟩
  obtain ⟨c', st, reply, h6⟩ := locals_pos (i := i) (tr := s.c.trace) (by omega)
  obtain ⟨⟨t', h7⟩, _⟩ := C87_done_reports r h6
  obtain ⟨rfl, rfl⟩ := called_unique r h h7
  rcases C95_local r h6 with h8 | h8
  · exfalso
    rcases hv with hv | hv
    · exact h8.2.1 hv
    · have := (called_unique r h h8.2.2.2).2
      rw [hv] at this; cases this
  · exact ⟨reply, h8.1 ▸ h6⟩

/-- C96: a check or a report with an operation that is not of low importance, made with a transport and for this service, is never
answered without a transport call; when no thread works on it, it has been given to a transport exactly once, as it was. -/
theorem C96_direct_partial (r : Reach K stops s) {i : Nat} {c : Call D} (h : Ev.called i c true ∈ s.c.trace) (hv : ¬ Refused K c)
    (hi : (∃ q o, c = .check q ∧ q.operation = some o ∧ o.importance ≠ importanceLow) ∨
      ∃ q, c = .report q ∧ ∃ o ∈ q.operations, o.importance ≠ importanceLow) :
    locals i s.c.trace = 0 ∧ (Rest i s → sends i s.c.trace = 1 ∧ ∃ id, Ev.sent id (some i) c ∈ s.c.trace) := by
  have hh : ¬ Held K c := by
    rcases hi with ⟨q, o, rfl, ho, hi⟩ | ⟨q, rfl, o, ho, hi⟩
    · exact fun hh => hi (hh.2 o ho)
    · exact fun hh => hi (hh.2 o ho)
  constructor
  · rcases Nat.eq_zero_or_pos (locals i s.c.trace) with h5 | h5
    · exact h5
    · exfalso
      obtain ⟨c', st, reply, h6⟩ := locals_pos h5
      obtain ⟨⟨t, h7⟩, _⟩ := C87_done_reports r h6
      obtain ⟨rfl, rfl⟩ := called_unique r h h7
      rcases C95_local r h6 with h8 | ⟨_, h8 | h8⟩
      · exact hh h8.2.2.1
      · exact hv h8
      · have := (called_unique r h h8).2; cases this
  · intro hr
    obtain ⟨h1, _⟩ := C95_important_sent r h hv hh hr
    obtain ⟨id, c', h2⟩ := sends_pos (i := i) (tr := s.c.trace) (by omega)
    obtain ⟨_, h3, _⟩ := C95_sent r h2
    obtain ⟨rfl, _⟩ := called_unique r h h3
    exact ⟨h1, id, h2⟩

/-! ### Examples -/
section examples

/-- A check of high importance. -/
def exHigh (n : UInt8) (i : Int) : CheckRequest Int :=
  match (Check.exReq n i).operation with
  | some o => { Check.exReq n i with operation := some { o with importance := 1 } }
  | none => Check.exReq n i

/-- C96 is false: the response to a check of high importance is kept, and answers a later check of low importance for which no
transport is called. -/
theorem C96_false_kept : ∃ (s : Sys Int), Reach exK true s ∧ Quiet s ∧ (∃ o, (exHigh 1 5).operation = some o ∧ o.importance ≠ importanceLow) ∧
    s.c.trace.filterMap Ev.sentFor = [0] ∧ Ev.completed 0 (some 0) (.check (exHigh 1 5)) exOk ∈ s.c.trace ∧
    Ev.done 1 (exCheck 1 6) .ok (.check exOk.check) none ∈ s.c.trace := by
  obtain ⟨s, r, h1, h2, h3, h4⟩ := schedule_case (K := exK) (stops := true)
    ([.spawn, .call 0 (.check (exHigh 1 5)) .default] ++ steps 0 6 ++ [.complete 0 0 exOk] ++ steps 0 4 ++
      [.call 0 (exCheck 1 6) .default] ++ steps 0 5)
    (fun s => s.threads = [[]] ∧ s.c.trace.filterMap Ev.sentFor = [0] ∧
      Ev.completed 0 (some 0) (.check (exHigh 1 5)) exOk ∈ s.c.trace ∧
      Ev.done 1 (exCheck 1 6) .ok (.check exOk.check) none ∈ s.c.trace) (by decide +kernel)
  refine ⟨s, r, ?_, ⟨_, rfl, by decide⟩, h2, h3, h4⟩
  intro t ht
  rw [h1] at ht
  simpa using ht

/-- C95, C96: a check of high importance reaches the transport; a report of low importance, and one for another service, are answered at
once; all three kinds of premises are met. -/
example : ∃ (s : Sys Int), Reach exK true s ∧ (∀ i < 4, Rest i s) ∧
    (Ev.called 0 (.check (exHigh 1 5)) true ∈ s.c.trace ∧ ¬ Refused exK (.check (exHigh 1 5)) ∧ ¬ Held exK (.check (exHigh 1 5))) ∧
    (Ev.called 1 (exReport 1 2) true ∈ s.c.trace ∧ ¬ Refused exK (exReport 1 2) ∧ Held exK (exReport 1 2)) ∧
    (Ev.called 2 (.report ⟨[116], [], [49]⟩) true ∈ s.c.trace ∧ Refused exK (.report (⟨[116], [], [49]⟩ : ReportRequest Int))) ∧
    Ev.called 3 (exReport 2 2) false ∈ s.c.trace ∧
    (List.range 4).map (fun i => (sends i s.c.trace, locals i s.c.trace)) = [(1, 0), (0, 1), (0, 1), (0, 1)] := by
  obtain ⟨s, r, h1, h2, h3, h4, h5, h6⟩ := schedule_case (K := exK) (stops := true)
    ([.spawn, .call 0 (.check (exHigh 1 5)) .default] ++ steps 0 6 ++ [.call 0 (exReport 1 2) .default] ++ steps 0 5 ++
      [.call 0 (.report ⟨[116], [], [49]⟩) .default] ++ steps 0 5 ++ [.call 0 (exReport 2 2) (.given false)] ++ steps 0 3)
    (fun s => s.threads = [[]] ∧ Ev.called 0 (.check (exHigh 1 5)) true ∈ s.c.trace ∧ Ev.called 1 (exReport 1 2) true ∈ s.c.trace ∧
      Ev.called 2 (.report ⟨[116], [], [49]⟩) true ∈ s.c.trace ∧ Ev.called 3 (exReport 2 2) false ∈ s.c.trace ∧
      (List.range 4).map (fun i => (sends i s.c.trace, locals i s.c.trace)) = [(1, 0), (0, 1), (0, 1), (0, 1)]) (by decide +kernel)
  refine ⟨s, r, ?_, ⟨h2, ?_, ?_⟩, ⟨h3, ?_, ?_⟩, ⟨h4, ?_⟩, h5, h6⟩
  · intro i _ t ht a ha
    rw [h1, List.mem_singleton] at ht
    subst ht; cases ha
  · unfold Refused; decide +kernel
  · rintro ⟨_, h⟩
    exact absurd (h _ rfl) (by decide)
  · unfold Refused exReport; decide +kernel
  · refine ⟨by decide, ?_⟩
    intro o ho
    rw [List.mem_singleton] at ho
    subst ho; rfl
  · unfold Refused; decide +kernel

end examples
end Verif.Threads
