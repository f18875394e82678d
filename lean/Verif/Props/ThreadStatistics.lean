import Verif.Props.ThreadObjects
import Verif.Props.ThreadServed
/-
C114: `GetStatistics` while other threads use the client.
-/
set_option linter.unusedSectionVars false
namespace Verif.Threads
open Client
variable {D : Type} [DoubleOps D] {K : Setup} {stops : Bool} {s s' : Sys D}

theorem Step.stats (h : Step K stops s s') : ∃ x, s'.c.stats = s.c.stats.add x := by
  cases h with
  | work hth hex => exact (exec_callOf hex).2.2.2
  | call c tr hth hf hd => exact ⟨.zero, rfl⟩
  | sync c hth hf hd => exact ⟨.zero, rfl⟩
  | complete hth hf hta =>
    unfold Client.take at hta
    split at hta
    · cases hta
    · cases hta; exact ⟨.zero, rfl⟩
  | fire hth hf ht => exact ⟨.zero, rfl⟩
  | destroy hth hf hd ha => exact ⟨.zero, rfl⟩
  | spawn => exact ⟨.zero, rfl⟩

omit [DoubleOps D] in
theorem Stats.le_refl (x : Stats) : Stats.le x x := by simp [Stats.le]

omit [DoubleOps D] in
theorem Stats.le_trans {x y z : Stats} (h : Stats.le x y) (h' : Stats.le y z) : Stats.le x z := by
  simp only [Stats.le] at *
  omega

theorem Later.stats_le (h : Later K stops s s') : Stats.le s.c.stats s'.c.stats := by
  induction h with
  | refl => exact Stats.le_refl _
  | step _ hs ih =>
    obtain ⟨x, hx⟩ := hs.stats
    refine Stats.le_trans ih ?_
    rw [hx]
    simp [Stats.le, Stats.add]

theorem ReadStats.later {fs : List (Stats → Nat)} {vs : List Nat} (h : ReadStats K stops fs s s' vs) : Later K stops s s' := by
  induction h with
  | done => exact .refl
  | read h1 _ ih => exact h1.trans ih

/-- Counters. -/
def Grows (f : Stats → Nat) : Prop := ∀ x y, Stats.le x y → f x ≤ f y

theorem ReadStats.between {fs : List (Stats → Nat)} {vs : List Nat} (h : ReadStats K stops fs s s' vs) (hf : ∀ f ∈ fs, Grows f)
    {x y : Stats} (hx : Stats.le x s.c.stats) (hy : Stats.le s'.c.stats y) :
    List.Forall₂ (fun f v => f x ≤ v ∧ v ≤ f y) fs vs := by
  induction h with
  | done => exact .nil
  | @read f fs s s1 s2 vs h1 h2 ih =>
    have h3 := Stats.le_trans hx h1.stats_le
    refine .cons ⟨hf f (List.mem_cons_self ..) _ _ h3, hf f (List.mem_cons_self ..) _ _ (Stats.le_trans h2.later.stats_le hy)⟩ ?_
    exact ih (fun g hg => hf g (List.mem_cons_of_mem _ hg)) h3 hy

omit [DoubleOps D] in
theorem getStatistics_grows : ∀ f ∈ getStatistics, Grows f := by
  intro f hf x y h
  simp only [getStatistics, List.mem_cons, List.not_mem_nil, or_false] at hf
  simp only [Stats.le] at h
  rcases hf with rfl | rfl | rfl | rfl | rfl | rfl | rfl | rfl | rfl | rfl <;> omega

/-- C114: every number `GetStatistics` returns lies between what the counter was when it was called and what it was when it
returned, whatever other threads do meanwhile. -/
theorem C114_between_partial {vs : List Nat} (h : ReadStats K stops getStatistics s s' vs) :
    List.Forall₂ (fun f v => f s.c.stats ≤ v ∧ v ≤ f s'.c.stats) getStatistics vs :=
  h.between getStatistics_grows (Stats.le_refl _) (Stats.le_refl _)

/-- C114: it does not exceed the number of events of its kind until then. -/
theorem C114_not_ahead_partial (r : Reach K stops s) {vs : List Nat} (h : ReadStats K stops getStatistics s s' vs) :
    List.Forall₂ (fun f v => v ≤ f (Stats.ofTrace s'.c.trace)) getStatistics vs :=
  (h.between getStatistics_grows (Stats.le_refl _) (C88_not_ahead (h.later.reach r))).imp (fun _ _ h => h.2)

/-- C114: if no call was made and no transport called meanwhile, and no thread was in the client when it was called, it
returns the numbers of calls, transport calls and operations sent. -/
theorem C114_exact_partial (r : Reach K stops s) (hq : Quiet s) {vs : List Nat} (h : ReadStats K stops getStatistics s s' vs)
    (hs : Stats.ofTrace s'.c.trace = Stats.ofTrace s.c.trace) : vs = getStatistics.map (fun f => f (Stats.ofTrace s.c.trace)) := by
  have h1 := h.between getStatistics_grows (Stats.le_refl _) (C88_not_ahead (h.later.reach r))
  rw [hs, C88_statistics r hq] at h1
  clear * - h1
  generalize getStatistics = fs at h1
  induction h1 with
  | nil => rfl
  | cons h _ ih => rw [List.map_cons, ← ih, Nat.le_antisymm h.1 h.2]

/-- Another thread makes a check for which a transport is called. -/
def exMeanwhile : List (Move Int) := [.call 0 (exCheck 1 5) .default] ++ steps 0 6

/-- C114 is false as a whole: `GetStatistics` reads the number of calls, then another thread makes a call for which a transport is called, and
then it reads the number of transport calls made for calls: there are more of these than calls. -/
theorem C114_false_snapshot : ∃ (s s' : Sys Int) (vs : List Nat), Reach exK true s ∧ ReadStats exK true getStatistics s s' vs ∧
    vs[0]? = some 0 ∧ vs[2]? = some 1 := by
  obtain ⟨s, r, h1, h2⟩ := schedule_case (K := exK) (stops := true) [.spawn]
    (fun s => s.c.stats = Stats.zero ∧
      ((exMeanwhile.foldlM (fun (s : Sys Int) m => Move.run exK true s m) s).map (fun s => s.c.stats.checksInFlight)) = some 1)
    (by decide +kernel)
  cases hm : exMeanwhile.foldlM (fun (s : Sys Int) m => Move.run exK true s m) s with
  | none => rw [hm] at h2; cases h2
  | some s' =>
    rw [hm] at h2
    have h3 : s'.c.stats.checksInFlight = 1 := by simpa using h2
    refine ⟨s, s', _, r, .read .refl (.read .refl (.read (moves_later hm) (.read .refl (.read .refl (.read .refl (.read .refl
      (.read .refl (.read .refl (.read .refl .done))))))))), ?_, ?_⟩
    · simp [h1, Stats.zero]
    · simp [h3]

/-- `GetStatistics` on a client with work done, no thread in it and none coming: the hypotheses of `C114_exact_partial`. -/
example : ∃ (s : Sys Int), Reach exK true s ∧ Quiet s ∧ ReadStats exK true getStatistics s s [2, 0, 1, 0, 0, 0, 1, 0, 0, 0] := by
  obtain ⟨s, r, hq, -, -, -, hs, -⟩ := example_served
  refine ⟨s, r, hq, ?_⟩
  have h : ReadStats exK true getStatistics s s (getStatistics.map (fun f => f s.c.stats)) :=
    .read .refl (.read .refl (.read .refl (.read .refl (.read .refl (.read .refl (.read .refl
      (.read .refl (.read .refl (.read .refl .done)))))))))
  rw [hs] at h
  exact h

end Verif.Threads
