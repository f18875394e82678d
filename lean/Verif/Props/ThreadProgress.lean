import Verif.Lemmas.ThreadCalm
import Verif.Props.Threads
import Verif.Props.ThreadExamples
import Mathlib.Logic.Relation
/-
Progress of a client used by many threads.
-/
set_option linter.unusedSectionVars false
namespace Verif.Threads
open Client
variable {D : Type} [DoubleOps D] {K : Setup} {stops : Bool} {s : Sys D}

/-- C92: threads that are left alone (no call, no completion, no timer, no destruction) stop after finitely many steps. -/
theorem C92_finite : WellFounded (fun s' s : Sys D => Work K stops s s') := work_ends

/-- Only waiting for a call, for a lock, and for the timer block. -/
theorem exec_none {a : Act D} (h : exec K stops a s = none) :
    (∃ i, a = .wait i) ∨ (∃ k, s.lk k = true) ∨ (∃ n, a = .destroy n) ∧ s.timers ≠ 0 := by
  cases a with
  | wait i => exact .inl ⟨i, rfl⟩
  | flush c =>
    simp only [exec] at h
    split at h
    · rename_i hl; exact .inr (.inl ⟨_, hl⟩)
    · cases h
  | destroy n =>
    simp only [exec] at h
    unfold runDestroy at h
    split at h
    · cases h
    · cases h
    · cases h
    · split at h <;> cases h
    · split at h
      · rename_i hs
        simp only [Bool.and_eq_true, decide_eq_true_eq] at hs
        exact .inr (.inr ⟨⟨_, rfl⟩, hs.2⟩)
      · cases h
    · unfold unset at h
      split at h
      · rename_i hl; exact .inr (.inl ⟨_, hl⟩)
      · cases h
    · unfold unset at h
      split at h
      · rename_i hl; exact .inr (.inl ⟨_, hl⟩)
      · cases h
    · unfold unset at h
      split at h
      · rename_i hl; exact .inr (.inl ⟨_, hl⟩)
      · cases h
    · cases h
  | user => cases h
  | start => cases h
  | agg => cases h
  | result => cases h
  | count i' c' xs => cases xs <;> cases h
  | finish =>
    simp only [exec] at h
    split at h
    · split at h <;> cases h
    · cases h
  | setValue => cases h
  | fin => cases h
  | free => cases h
  | timer => cases h
  | calling =>
    simp only [exec] at h
    split at h <;> cases h
  | after k xs => cases xs <;> cases h

/-- C92: while the transports called by flush callbacks are calm there is no deadlock: if no thread can go on, each of them
waits for a call without done callback whose transport call is outstanding.  Missing, since false (`C92_false_reentrant`): the
same for transports that use the client while a flush callback calls them. -/
theorem C92_no_deadlock_partial (r : CalmReach K stops s) (hb : ∀ a, Next a s → exec K stops a s = none) :
    ∀ a, Next a s → ∃ i, a = .wait i ∧ outstandingFor i s.c.trace = 1 := by
  have i := r.reach.inv
  have next : ∀ a v, a :: v ∈ s.threads → Next a s := by
    intro a v hm
    obtain ⟨l1, l2, e⟩ := List.append_of_mem hm
    exact ⟨l1, v, l2, e⟩
  have stuck : ∀ a v, a :: v ∈ s.threads → exec K stops a s = none := fun a v hm => hb a (next a v hm)
  -- the first piece of code tells what is below
  have hdesc : ∀ a v, a :: v ∈ s.threads → Desc (a :: v) := by
    intro a v hm
    rcases r.shape _ hm with h | ⟨x, w, _, _, h⟩
    · exact h
    · exfalso
      have hn := stuck a v hm
      rcases h with h | ⟨p, b, _, h⟩ | ⟨own, h⟩ <;> injection h with h1 _ <;> subst h1 <;> cases hn
  -- no lock is held
  have nolock : ∀ k, s.lk k = false := by
    intro k
    cases hk : s.lk k with
    | false => rfl
    | true =>
      exfalso
      have h1 := i.life.locks k
      rw [hk, if_pos rfl] at h1
      obtain ⟨x, hx, hh⟩ := List.countP_pos_iff.mp (by rw [h1]; exact Nat.one_pos)
      obtain ⟨t, ht, hxt⟩ := List.mem_flatten.mp hx
      have hl : x.locked = true := by cases x <;> first | rfl | cases hh
      cases t with
      | nil => cases hxt
      | cons a v =>
        rcases List.mem_cons.mp hxt with rfl | hxv
        · have hn := stuck x v ht
          rcases exec_none hn with ⟨_, rfl⟩ | _ | ⟨⟨_, rfl⟩, _⟩
          · cases hl
          · cases x <;> first
              | (cases hl; done)
              | (simp only [exec] at hn; split at hn <;> cases hn)
              | (rename_i xs _; cases xs <;> cases hn)
              | (rename_i xs; cases xs <;> cases hn)
          · cases hl
        · have := (hdesc a v ht).locked x hxv
          rw [hl] at this; cases this
  -- so the first pieces wait, or are destructors
  have top : ∀ a v, a :: v ∈ s.threads → (∃ i, a = .wait i) ∨ (∃ n, a = .destroy n) ∧ s.timers ≠ 0 := by
    intro a v hm
    rcases exec_none (stuck a v hm) with h | ⟨k, h⟩ | h
    · exact .inl h
    · rw [nolock k] at h; cases h
    · exact .inr h
  have low : ∀ a v, a :: v ∈ s.threads → ∀ b ∈ v, b.low = true := by
    intro a v hm
    refine (hdesc a v hm).low ?_
    rcases top a v hm with ⟨_, rfl⟩ | ⟨⟨_, rfl⟩, _⟩ <;> exact fun y hy => hy
  have notimer : s.timers = 0 := by
    rw [r.reach.shut.timers]
    refine List.countP_eq_zero.mpr (fun x hx ht => ?_)
    obtain ⟨t, htm, hxt⟩ := List.mem_flatten.mp hx
    cases t with
    | nil => cases hxt
    | cons a v =>
      rcases List.mem_cons.mp hxt with rfl | hxv
      · rcases top x v htm with ⟨_, rfl⟩ | ⟨⟨_, rfl⟩, _⟩ <;> cases ht
      · have := low a v htm x hxv
        cases x <;> first | (cases ht; done) | (cases this; done)
  have waits : ∀ a v, a :: v ∈ s.threads → ∃ i, a = .wait i := by
    intro a v hm
    rcases top a v hm with h | ⟨_, h⟩
    · exact h
    · exact absurd notimer h
  -- nothing works on any call
  have all : ∀ t ∈ s.threads, ∀ x ∈ t, x.low = true := by
    intro t ht x hx
    cases t with
    | nil => cases hx
    | cons a v =>
      rcases List.mem_cons.mp hx with rfl | hxv
      · obtain ⟨i, rfl⟩ := waits x v ht; rfl
      · exact low a v ht x hxv
  intro a ha
  obtain ⟨l1, t, l2, hth⟩ := id ha
  obtain ⟨j, rfl⟩ := waits a t (by rw [hth]; simp)
  refine ⟨j, rfl, ?_⟩
  have hrest : Rest j s := by
    intro t ht x hx
    have := all t ht x hx
    cases x <;> first | (cases this; done) | (intro h; cases h)
  have hd : dones j s.c.trace = 0 := by
    rcases C90_blocked r.reach ha (hb _ ha) with h | ⟨st, h⟩
    · exact h
    · obtain ⟨t, ht, hx⟩ := List.mem_flatten.mp h
      have := all t ht _ hx
      cases this
  have hc : calls j s.c.trace = 1 := by
    have hw : Act.wait j ∈ s.acts := by unfold Sys.acts; rw [hth]; simp
    have h0 : 0 < s.frames.countP (·.1 == j) := by
      rw [← i.frames.waits j]
      exact List.countP_pos_iff.mpr ⟨_, hw, by simp [Act.isWait]⟩
    obtain ⟨⟨k, b⟩, hx, hj⟩ := List.countP_pos_iff.mp h0
    have hj : k = j := by simpa using hj
    subst hj
    have := i.frames.lt _ (i.frames.known _ hx)
    rw [calls_issued i.books, issued, if_pos this]
  have := ((C87_exactly_once r.reach j).2.2.2 hrest).1
  omega

/-- C92: left alone, threads that do not fault come to rest outside of the client, or waiting for a transport. -/
theorem C92_comes_to_rest_partial (r : CalmReach K stops s) :
    ∃ s', Relation.ReflTransGen (Work K stops) s s' ∧ CalmReach K stops s' ∧
      ((∃ a e, Next a s' ∧ exec K stops a s' = some (.error e)) ∨
        ∀ a, Next a s' → ∃ i, a = .wait i ∧ outstandingFor i s'.c.trace = 1) := by
  induction s using (C92_finite (D := D) (K := K) (stops := stops)).induction with
  | _ s ih =>
    by_cases hw : ∃ s1, Work K stops s s1
    · obtain ⟨s1, hw⟩ := hw
      obtain ⟨s2, h1, h2, h3⟩ := ih s1 hw (r.work hw)
      exact ⟨s2, .head hw h1, h2, h3⟩
    · refine ⟨s, .refl, r, ?_⟩
      by_cases he : ∃ a e, Next a s ∧ exec K stops a s = some (.error e)
      · exact .inl he
      · refine .inr (C92_no_deadlock_partial r (fun a ha => ?_))
        cases hx : exec K stops a s with
        | none => rfl
        | some y =>
          exfalso
          cases y with
          | error e => exact he ⟨a, e, ha, hx⟩
          | ok y =>
            obtain ⟨l1, t, l2, hth⟩ := ha
            exact hw ⟨_, l1, a, t, l2, y.1, y.2, hth, hx, rfl⟩

/-- C92: if in addition no transport call is outstanding, no thread is left inside of the client. -/
theorem C92_all_return_partial (r : CalmReach K stops s) (hb : ∀ a, Next a s → exec K stops a s = none)
    (ho : outstanding s.c.trace = []) : Quiet s := by
  intro t ht
  cases t with
  | nil => rfl
  | cons a v =>
    exfalso
    obtain ⟨l1, l2, e⟩ := List.append_of_mem ht
    obtain ⟨i, _, h⟩ := C92_no_deadlock_partial r hb a ⟨l1, v, l2, e⟩
    unfold outstandingFor at h
    rw [ho] at h
    cases h

/-! ### Examples -/
section examples

/-- The pieces upon a lock are harmless. -/
def calmThread (t : List (Act D)) : Bool := (t.dropWhile Act.harmless).tail.all (fun a => !a.locked)

omit [DoubleOps D] in
theorem calmThread_calm {t : List (Act D)} (h : calmThread t = true) :
    ∀ u x v, t = u ++ x :: v → x.locked = true → ∀ a ∈ u, a.harmless = true := by
  intro u x v he hx
  subst he
  induction u with
  | nil => intro a ha; cases ha
  | cons b u ih =>
    cases hb : b.harmless with
    | true =>
      have h' : calmThread (u ++ x :: v) = true := by
        simpa only [calmThread, List.cons_append, List.dropWhile_cons, hb, if_true] using h
      intro a ha
      rcases List.mem_cons.mp ha with rfl | ha
      · exact hb
      · exact ih h' a ha
    | false =>
      exfalso
      simp only [calmThread, List.cons_append, List.dropWhile_cons, hb] at h
      have := List.all_eq_true.mp h x (by simp)
      rw [hx] at this; cases this

/-- A schedule in which transports called by flush callbacks are calm. -/
def calmSchedule (K : Setup) (stops : Bool) (ms : List (Move D)) : Option (Sys D) :=
  match Client.new K with
  | .error _ => none
  | .ok c => ms.foldlM (fun s m => match m.run K stops s with
      | some s' => if s'.threads.all calmThread then some s' else none
      | none => none) (Sys.new c)

theorem calm_case (ms : List (Move D)) (P : Sys D → Prop) [∀ s, Decidable (P s)]
    (hb : (match calmSchedule K stops ms with | some s => decide (P s) | none => false) = true) : ∃ s, CalmReach K stops s ∧ P s := by
  cases hr : calmSchedule K stops ms with
  | none => rw [hr] at hb; cases hb
  | some v =>
    rw [hr] at hb
    refine ⟨v, ?_, of_decide_eq_true hb⟩
    clear hb
    unfold calmSchedule at hr
    cases hn : Client.new (D := D) K with
    | error e => rw [hn] at hr; cases hr
    | ok c =>
      rw [hn] at hr
      dsimp only at hr
      have r0 : CalmReach K stops (Sys.new c) := .new hn
      revert r0 hr
      generalize Sys.new c = s0
      induction ms generalizing s0 with
      | nil => intro h r; simp only [List.foldlM_nil, pure] at h; cases h; exact r
      | cons m ms ih =>
        intro h r
        simp only [List.foldlM_cons, bind, Option.bind] at h
        split at h
        · cases h
        · rename_i s1 hs1
          split at hs1
          · rename_i s2 hs2
            split at hs1
            · rename_i hc
              cases hs1
              exact ih _ h (r.step (Move.run_step hs2) (fun t ht => calmThread_calm (List.all_eq_true.mp hc t ht)))
            · cases hs1
          · cases hs1

/-- Every thread that is inside of the client is blocked. -/
def allBlocked (K : Setup) (stops : Bool) (s : Sys D) : Bool :=
  s.threads.all (fun t => match t with
    | [] => true
    | a :: _ => (exec K stops a s).isNone)

theorem allBlocked_spec (h : allBlocked K stops s = true) : ∀ a, Next a s → exec K stops a s = none := by
  rintro a ⟨l1, t, l2, hth⟩
  have := List.all_eq_true.mp h (a :: t) (by rw [hth]; simp)
  simpa using this

/-- C92: one thread waits for its transport in a check without done callback; the timer has sent a report and the
transport has completed that report in place.  Every thread inside of the client is blocked. -/
theorem example_blocked : ∃ s : Sys Int, CalmReach exKJ true s ∧ (∀ a, Next a s → exec exKJ true a s = none) ∧ Next (.wait 1) s ∧
    outstandingFor 1 s.c.trace = 1 := by
  obtain ⟨s, r, h1, h2, h3⟩ := calm_case (K := exKJ) (stops := true)
    ([.spawn, .spawn, .call 1 (exReport 1 2) .default] ++ steps 1 5 ++ [.sync 0 (exCheck 1 5)] ++ steps 0 6 ++
      [.fire 1] ++ steps 1 5 ++ [.complete 1 1 exOk] ++ steps 1 7)
    (fun s => allBlocked exKJ true s = true ∧ firstOf s 0 = some (.wait 1) ∧ outstandingFor 1 s.c.trace = 1) (by decide +kernel)
  exact ⟨s, r, allBlocked_spec h1, firstOf_next h2, h3⟩

/-- C92: when that call is completed too and the thread goes on, everything is outside of the client. -/
example : ∃ s : Sys Int, CalmReach exKJ true s ∧ (∀ a, Next a s → exec exKJ true a s = none) ∧ outstanding s.c.trace = [] ∧ s.returns = [(1, .ok)] := by
  obtain ⟨s, r, h1, h2, h3⟩ := calm_case (K := exKJ) (stops := true)
    ([.spawn, .spawn, .call 1 (exReport 1 2) .default] ++ steps 1 5 ++ [.sync 0 (exCheck 1 5)] ++ steps 0 6 ++
      [.fire 1] ++ steps 1 5 ++ [.complete 1 1 exOk] ++ steps 1 7 ++ [.complete 1 0 exOk] ++ steps 1 4 ++ steps 0 1)
    (fun s => allBlocked exKJ true s = true ∧ outstanding s.c.trace = [] ∧ s.returns = [(1, .ok)]) (by decide +kernel)
  exact ⟨s, r, allBlocked_spec h1, h2, h3⟩

/-- C92 is false for other transports: the transport called by the flush callback of the quota aggregator calls `Quota` for
other metrics, and its thread waits for the lock it holds. -/
theorem C92_false_reentrant : ∃ (s : Sys Int) (c : Call Int), Reach exK true s ∧ (∀ a, Next a s → exec exK true a s = none) ∧
    Next (.flush c) s := by
  obtain ⟨s, r, h1, h2⟩ := schedule_case (K := exK) (stops := true)
    ([.spawn, .call 0 (exQuota 1 5) .default] ++ steps 0 4 ++ [.call 0 (exQuota 2 5) .default] ++ steps 0 2)
    (fun s => allBlocked exK true s = true ∧ firstOf s 0 = some (.flush (exQuota 2 5))) (by decide +kernel)
  exact ⟨s, _, r, allBlocked_spec h1, firstOf_next h2⟩

end examples

end Verif.Threads
