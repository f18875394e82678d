import Verif.Props.Threads
import Verif.Props.ClientTimer
/-
Schedules of a client used by many threads: examples for C87 - C94, and the executions that show what is not true.
-/
set_option linter.unusedSectionVars false
namespace Verif.Threads
open Client
variable {D : Type} [DoubleOps D] {K : Setup} {stops : Bool} {s : Sys D}

/-- One step of a schedule; the number is that of the thread. -/
inductive Move (D : Type) where
  | work (n : Nat)
  | call (n : Nat) (c : Call D) (tr : Transport)
  | sync (n : Nat) (c : Call D)
  | complete (n id : Nat) (a : Answer)
  | fire (n : Nat)
  | destroy (n : Nat)
  | spawn

def isFree : List (Act D) → Bool
  | [] => true
  | .user :: _ => true
  | _ => false

omit [DoubleOps D] in
theorem isFree_free {t : List (Act D)} (h : isFree t = true) : Free t := by
  match t with
  | [] => exact .inl rfl
  | a :: t =>
    cases a <;> first | exact .inr ⟨_, rfl⟩ | cases h

/-- The state after a step, if the step is possible. -/
def Move.run (K : Setup) (stops : Bool) (s : Sys D) : Move D → Option (Sys D)
  | .work n =>
    match s.threads[n]? with
    | some (a :: t) =>
      match exec K stops a s with
      | some (.ok (s', new)) => some { s' with threads := s.threads.set n (new ++ t) }
      | _ => none
    | _ => none
  | .call n c tr =>
    match s.threads[n]? with
    | some t =>
      if isFree t && !s.dying then
        some { s with
          c := { s.c.log (.called s.c.calls c (present K c tr)) with calls := s.c.calls + 1 }
          threads := s.threads.set n (.start s.c.calls c (present K c tr) :: t) }
      else none
    | none => none
  | .sync n c =>
    match s.threads[n]? with
    | some t =>
      if isFree t && !s.dying then
        some { s with
          c := { s.c.log (.called s.c.calls c (present K c .default)) with calls := s.c.calls + 1 }
          syncs := s.syncs ++ [s.c.calls]
          frames := s.frames ++ [(s.c.calls, true)]
          threads := s.threads.set n (.start s.c.calls c (present K c .default) :: .wait s.c.calls :: t) }
      else none
    | none => none
  | .complete n id a =>
    match s.threads[n]? with
    | some t =>
      if isFree t then
        match s.c.take id a with
        | .ok (p, c') => some { s with c := c', threads := s.threads.set n (.fin p a :: t) }
        | .error _ => none
      else none
    | none => none
  | .fire n =>
    match s.threads[n]? with
    | some t =>
      if isFree t && s.c.timer.isSome then
        some { s with c := s.c.log .fired, timers := s.timers + 1, threads := s.threads.set n (.timer 0 :: t) }
      else none
    | none => none
  | .destroy n =>
    match s.threads[n]? with
    | some t =>
      if isFree t && !s.dying && s.threads.all (fun t => t.all (fun a => !a.api)) then
        some { s with dying := true, threads := s.threads.set n (.destroy 0 :: t) }
      else none
    | none => none
  | .spawn => some { s with threads := s.threads ++ [[]] }

theorem set_split {α : Type} {l : List α} {n : Nat} {x : α} (h : l[n]? = some x) (y : α) :
    l = l.take n ++ x :: l.drop (n + 1) ∧ l.set n y = l.take n ++ y :: l.drop (n + 1) := by
  obtain ⟨hn, rfl⟩ := List.getElem?_eq_some_iff.mp h
  refine ⟨?_, List.set_eq_take_append_cons_drop .. |>.trans (by rw [if_pos hn])⟩
  rw [← List.drop_eq_getElem_cons hn, List.take_append_drop]

theorem Move.run_step {m : Move D} {s' : Sys D} (h : m.run K stops s = some s') : Step K stops s s' := by
  cases m with
  | work n =>
    simp only [Move.run] at h
    split at h
    · rename_i a t hn
      split at h
      · rename_i s1 new hex
        cases h
        obtain ⟨h1, h2⟩ := set_split hn (new ++ t)
        rw [h2]
        exact .work h1 hex
      · cases h
    · cases h
  | call n c tr =>
    simp only [Move.run] at h
    split at h
    · rename_i t hn
      split at h
      · rename_i hf
        cases h
        simp only [Bool.and_eq_true, Bool.not_eq_true'] at hf
        obtain ⟨h1, h2⟩ := set_split hn (.start s.c.calls c (present K c tr) :: t)
        rw [h2]
        exact .call c tr h1 (isFree_free hf.1) hf.2
      · cases h
    · cases h
  | sync n c =>
    simp only [Move.run] at h
    split at h
    · rename_i t hn
      split at h
      · rename_i hf
        cases h
        simp only [Bool.and_eq_true, Bool.not_eq_true'] at hf
        obtain ⟨h1, h2⟩ := set_split hn (.start s.c.calls c (present K c .default) :: .wait s.c.calls :: t)
        rw [h2]
        exact .sync c h1 (isFree_free hf.1) hf.2
      · cases h
    · cases h
  | complete n id a =>
    simp only [Move.run] at h
    split at h
    · rename_i t hn
      split at h
      · rename_i hf
        split at h
        · rename_i p c' hta
          cases h
          obtain ⟨h1, h2⟩ := set_split hn (.fin p a :: t)
          rw [h2]
          exact .complete h1 (isFree_free hf) hta
        · cases h
      · cases h
    · cases h
  | fire n =>
    simp only [Move.run] at h
    split at h
    · rename_i t hn
      split at h
      · rename_i hf
        cases h
        simp only [Bool.and_eq_true] at hf
        obtain ⟨h1, h2⟩ := set_split hn (.timer 0 :: t)
        rw [h2]
        exact .fire h1 (isFree_free hf.1) (by intro h0; rw [h0] at hf; cases hf.2)
      · cases h
    · cases h
  | destroy n =>
    simp only [Move.run] at h
    split at h
    · rename_i t hn
      split at h
      · rename_i hf
        cases h
        simp only [Bool.and_eq_true, Bool.not_eq_true', List.all_eq_true] at hf
        obtain ⟨h1, h2⟩ := set_split hn (.destroy 0 :: t)
        rw [h2]
        exact .destroy h1 (isFree_free hf.1.1) hf.1.2 hf.2
      · cases h
    · cases h
  | spawn => cases h; exact .spawn

/-- A schedule from a new client. -/
def schedule (K : Setup) (stops : Bool) (ms : List (Move D)) : Option (Sys D) :=
  match Client.new K with
  | .error _ => none
  | .ok c => ms.foldlM (fun s m => m.run K stops s) (Sys.new c)

theorem schedule_reach {ms : List (Move D)} (h : schedule K stops ms = some s) : Reach K stops s := by
  unfold schedule at h
  cases hn : Client.new (D := D) K with
  | error e => rw [hn] at h; cases h
  | ok c =>
    rw [hn] at h
    have hgen : ∀ (ms : List (Move D)) (s0 : Sys D), Reach K stops s0 → ms.foldlM (fun s m => m.run K stops s) s0 = some s → Reach K stops s := by
      intro ms
      induction ms with
      | nil => intro s0 r h; simp only [List.foldlM_nil, pure] at h; cases h; exact r
      | cons m ms ih =>
        intro s0 r h
        simp only [List.foldlM_cons, bind, Option.bind] at h
        split at h
        · cases h
        · rename_i s1 hs1
          exact ih _ (r.step (Move.run_step hs1)) h
    exact hgen ms _ (.new hn) h

/-- Examples are evaluated by the kernel. -/
theorem schedule_case (ms : List (Move D)) (P : Sys D → Prop) [∀ s, Decidable (P s)]
    (hb : (match schedule K stops ms with | some s => decide (P s) | none => false) = true) : ∃ s, Reach K stops s ∧ P s := by
  cases hr : schedule K stops ms with
  | none => rw [hr] at hb; cases hb
  | some v =>
    rw [hr] at hb
    exact ⟨v, schedule_reach hr, of_decide_eq_true hb⟩

def steps (n k : Nat) : List (Move D) := List.replicate k (.work n)

/-! ### Examples -/
section examples

/-- What a thread stands before. -/
def firstOf (s : Sys D) (n : Nat) : Option (Act D) :=
  match s.threads[n]? with
  | some (a :: _) => some a
  | _ => none

omit [DoubleOps D] in
theorem firstOf_next {n : Nat} {a : Act D} (h : firstOf s n = some a) : Next a s := by
  unfold firstOf at h
  split at h
  · rename_i b t hn
    cases h
    exact ⟨_, _, _, (set_split hn []).1⟩
  · cases h

/-- The fault of a piece of code. -/
def faultOf : Option (Res (Sys D × List (Act D))) → Option Fault
  | some (.error e) => some e
  | _ => none

omit [DoubleOps D] in
theorem faultOf_eq {x : Option (Res (Sys D × List (Act D)))} {e : Fault} (h : faultOf x = some e) : x = some (.error e) := by
  unfold faultOf at h
  split at h
  · cases h; rfl
  · cases h

/-- Two threads inside of the client: one waits in a check without a done callback for its transport, the other has a report
accepted that is not answered yet. -/
def exBusy : List (Move Int) :=
  [.spawn, .spawn, .sync 0 (exCheck 1 5)] ++ steps 0 3 ++ [.call 1 (exReport 1 2) .default] ++ steps 1 2 ++ steps 0 3

/-- C87, C88, C90, C91: some calls are being worked on, the counters are behind, a thread is blocked. -/
theorem example_busy : ∃ s, Reach exK true s ∧ ¬ Quiet s ∧ Rest 0 s ∧ ¬ Rest 1 s ∧ calls 0 s.c.trace = 1 ∧ outstandingFor 0 s.c.trace = 1 ∧
    calls 1 s.c.trace = 1 ∧ dones 1 s.c.trace + outstandingFor 1 s.c.trace = 0 ∧
    Next (.wait 0) s ∧ exec exK true (.wait 0) s = none ∧ dones 0 s.c.trace = 0 ∧ promised s = [Report.exNamed 1 2] ∧
    s.c.stats = Stats.ofTrace s.c.trace ∧ s.c.heap ≠ [] := by
  obtain ⟨s, r, h⟩ := schedule_case (K := exK) (stops := true) exBusy
    (fun s => s.threads ≠ [[], []] ∧ s.threads.length = 2 ∧ (∀ t ∈ s.threads, ∀ a ∈ t, a.worksOn ≠ some 0) ∧ ¬ (∀ t ∈ s.threads, ∀ a ∈ t, a.worksOn ≠ some 1) ∧ calls 0 s.c.trace = 1 ∧ outstandingFor 0 s.c.trace = 1 ∧
      calls 1 s.c.trace = 1 ∧ dones 1 s.c.trace + outstandingFor 1 s.c.trace = 0 ∧
      firstOf s 0 = some (.wait 0) ∧ (exec exK true (.wait 0) s).isNone ∧ dones 0 s.c.trace = 0 ∧ promised s = [Report.exNamed 1 2] ∧
      s.c.stats = Stats.ofTrace s.c.trace ∧ s.c.heap ≠ []) (by decide +kernel)
  obtain ⟨h1, h0, h2, h3, h4, h5, h6, h7, h8, h9, h10, h11, h12, h13⟩ := h
  refine ⟨s, r, ?_, h2, h3, h4, h5, h6, h7, firstOf_next h8, ?_, h10, h11, h12, h13⟩
  · intro hq
    match hs : s.threads, h0 with
    | [a, b], _ =>
      have ha := hq a (by rw [hs]; simp)
      have hb := hq b (by rw [hs]; simp)
      rw [ha, hb] at hs
      exact h1 hs
  · simpa using h9

/-- C88: a counter is behind while a thread is on its way to it. -/
example : ∃ s : Sys Int, Reach exK true s ∧ Stats.le s.c.stats (Stats.ofTrace s.c.trace) ∧ s.c.stats ≠ Stats.ofTrace s.c.trace := by
  obtain ⟨s, r, h⟩ := schedule_case (K := exK) (stops := true) [.spawn, .call 0 (exCheck 1 5) .default]
    (fun s => s.c.stats ≠ Stats.ofTrace s.c.trace) (by decide +kernel)
  exact ⟨s, r, C88_not_ahead r, h⟩

/-- The transport completes the call, another thread calls again and is answered from the cache; both threads have left the
client. -/
def exServed : List (Move Int) :=
  exBusy ++ steps 1 3 ++ [.complete 1 0 exOk] ++ steps 1 4 ++ steps 0 1 ++ [.call 1 (exCheck 1 6) .default] ++ steps 1 5

/-- C87, C88, C89, C90, C94: everything is answered. -/
theorem example_served : ∃ s, Reach exK true s ∧ Quiet s ∧ outstanding s.c.trace = [] ∧
    (List.range 3).map (fun i => (calls i s.c.trace, dones i s.c.trace, sends i s.c.trace, locals i s.c.trace)) = [(1, 1, 1, 0), (1, 1, 0, 1), (1, 1, 0, 1)] ∧
    s.returns = [(0, .ok)] ∧ s.c.stats = ⟨2, 0, 1, 0, 0, 0, 1, 0, 0, 0⟩ ∧ s.c.heap = [] ∧
    ∃ pre post, s.c.trace = pre ++ .done 2 (exCheck 1 6) .ok (.check (Check.exYes 7)) none :: post := by
  obtain ⟨s, r, h1, h2, h3, h4, h5, h6, h7⟩ := schedule_case (K := exK) (stops := true) exServed
    (fun s => s.threads = [[], []] ∧ outstanding s.c.trace = [] ∧
      (List.range 3).map (fun i => (calls i s.c.trace, dones i s.c.trace, sends i s.c.trace, locals i s.c.trace)) = [(1, 1, 1, 0), (1, 1, 0, 1), (1, 1, 0, 1)] ∧
      s.returns = [(0, .ok)] ∧ s.c.stats = ⟨2, 0, 1, 0, 0, 0, 1, 0, 0, 0⟩ ∧ s.c.heap = [] ∧
      Ev.done 2 (exCheck 1 6) .ok (.check (Check.exYes 7)) none ∈ s.c.trace) (by decide +kernel)
  refine ⟨s, r, ?_, h2, h3, h4, h5, h6, ?_⟩
  · intro t ht
    rw [h1] at ht
    simpa using ht
  · exact List.append_of_mem h7

/-- C94: a quota call answered from the cache. -/
example : ∃ s, Reach exK true s ∧ ∃ pre post, s.c.trace = pre ++ .done 1 (exQuota 1 6) .ok (.quota (Quota.exYes 7)) none :: post := by
  obtain ⟨s, r, h⟩ := schedule_case (K := exK) (stops := true)
    ([.spawn, .spawn, .call 0 (exQuota 1 5) .default] ++ steps 0 10 ++ [.complete 1 0 exOk] ++ steps 1 2 ++ [.call 1 (exQuota 1 6) .default] ++ steps 1 4)
    (fun s => Ev.done 1 (exQuota 1 6) .ok (.quota (Quota.exYes 7)) none ∈ s.c.trace) (by decide +kernel)
  exact ⟨s, r, List.append_of_mem h⟩

/-- C89: when the completion of a quota request sent by a flush is running while another thread destroys the client, it
goes on using the destroyed client. -/
theorem C89_false_running : ∃ s own, Reach exK true s ∧ Next (.free own true) s ∧
    (∃ pre post a, s.c.trace = pre ++ .completed 0 none (exQuota 1 5) a :: post ∧ Ev.destroyed ∈ post) ∧
    exec exK true (.free own true) s = some (.error .useAfterFree) := by
  obtain ⟨s, r, h1, h2, h3⟩ := schedule_case (K := exK) (stops := true)
    ([.spawn, .spawn, .call 0 (exQuota 1 5) .default] ++ steps 0 10 ++ [.complete 1 0 exOk, .work 1, .destroy 0] ++ steps 0 9)
    (fun s => firstOf s 1 = some (.free [0, 1] true) ∧
      s.c.trace.drop 3 = [.completed 0 none (exQuota 1 5) exOk, .destroyed] ∧
      faultOf (exec exK true (.free [0, 1] true) s) = some .useAfterFree) (by decide +kernel)
  refine ⟨s, [0, 1], r, firstOf_next h1, ⟨s.c.trace.take 3, [.destroyed], exOk, ?_, by simp⟩, faultOf_eq h3⟩
  rw [← h2, List.take_append_drop]

/-- C91 is false for a timer whose `Stop` does not wait: the function it is calling has taken an accepted report out of the cache,
the client is destroyed, and the report is given to nobody. -/
theorem C91_false_timer : ∃ s, Reach exKJ false s ∧ Ev.destroyed ∈ s.c.trace ∧ Quiet s ∧ acceptedOps s.c.trace = [Report.exNamed 1 2] ∧
    flushedReports s.c.trace = [] ∧ (lost s).length = 1 := by
  obtain ⟨s, r, h1, h2, h3⟩ := schedule_case (K := exKJ) (stops := false)
    ([.spawn, .spawn, .call 0 (exReport 1 2) .default] ++ steps 0 5 ++ [.fire 1] ++ steps 1 3 ++ [.destroy 0] ++ steps 0 9 ++ steps 1 4)
    (fun s => Ev.destroyed ∈ s.c.trace ∧ s.threads = [[], []] ∧ acceptedOps s.c.trace = [Report.exNamed 1 2] ∧
      flushedReports s.c.trace = [] ∧ (lost s).length = 1) (by decide +kernel)
  refine ⟨s, r, h1, ?_, h3⟩
  intro t ht
  rw [h2] at ht
  simpa using ht

/-- C91, C93: the same with a timer whose `Stop` waits: the destructor is blocked until the report is sent; then a check is answered
late. -/
example : ∃ s, Reach exKJ true s ∧ (flushedReports s.c.trace).length = 1 ∧ acceptedOps s.c.trace = [Report.exNamed 1 2] ∧
    ∃ pre post, s.c.trace = pre ++ .done 1 (exCheck 1 5) .internal (.check Check.exNo) (some 0) :: post ∧ Ev.destroyed ∈ pre := by
  obtain ⟨s, r, h1, h2, h3, h4⟩ := schedule_case (K := exKJ) (stops := true)
    ([.spawn, .spawn, .call 0 (exReport 1 2) .default] ++ steps 0 5 ++ [.call 0 (exCheck 1 5) .default] ++ steps 0 6 ++
      [.fire 1] ++ steps 1 3 ++ [.destroy 0] ++ steps 0 4 ++ steps 1 7 ++ steps 0 5 ++ [.complete 1 0 exFail] ++ steps 1 3)
    (fun s => (flushedReports s.c.trace).length = 1 ∧ acceptedOps s.c.trace = [Report.exNamed 1 2] ∧
      s.c.trace.drop 8 = [.done 1 (exCheck 1 5) .internal (.check Check.exNo) (some 0)] ∧ Ev.destroyed ∈ s.c.trace.take 8) (by decide +kernel)
  refine ⟨s, r, h1, h2, s.c.trace.take 8, [], ?_, h4⟩
  rw [← h3, List.take_append_drop]

end examples

end Verif.Threads
