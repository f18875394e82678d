import Verif.Model.ConcurrentAggregators
import Verif.Lemmas.Concurrency
import Verif.Lemmas.QuotaHistory
import Verif.Lemmas.CheckAggregator
/-
The aggregators' programs, run alone, are the sequential models.
-/
namespace Verif.Conc
variable {σ C O R : Type}

theorem bufferAdd_noMerge (b : List R) (r : R) : bufferAdd noMerge b r = b ++ [r] := by
  unfold bufferAdd noMerge
  split <;> rfl

theorem seq_runs {f : C → σ → Res (σ × O × List R)} {early : C → Option O} {react : R → Option C} {c : C} {s : σ}
    {l : Loc C O R} {s' : σ} {b : List R} (h : Runs (seqProg f early react) (.todo c) s [] l s' b) :
    (l = .todo c ∧ s' = s ∧ b = []) ∨
    ∃ o items rest, f c s = .ok (s', o, items) ∧ l = .emitting rest o ∧ items = b ++ rest := by
  induction h with
  | refl => exact Or.inl ⟨rfl, rfl, rfl⟩
  | @step l' s' b' l'' s'' emit _ hex ih =>
    rcases ih with ⟨rfl, rfl, rfl⟩ | ⟨o, items, rest, h1, rfl, h3⟩
    · simp only [seqProg] at hex
      cases hf : f c s' with
      | error e => rw [hf] at hex; cases hex
      | ok v =>
        obtain ⟨s1, o, items⟩ := v
        rw [hf] at hex
        cases hex
        exact Or.inr ⟨o, items, items, rfl, rfl, rfl⟩
    · cases rest with
      | nil => cases hex
      | cons r rs =>
        cases hex
        refine Or.inr ⟨o, items, rs, h1, rfl, ?_⟩
        rw [h3]
        show b' ++ r :: rs = bufferAdd noMerge b' r ++ rs
        rw [bufferAdd_noMerge]
        simp

theorem seq_alone {f : C → σ → Res (σ × O × List R)} {early : C → Option O} {react : R → Option C} {c : C} {s s' : σ}
    {o : O} {items : List R} (h : Alone (seqProg f early react) c s o items s') :
    (early c = some o ∧ items = [] ∧ s' = s) ∨ (early c = none ∧ f c s = .ok (s', o, items)) := by
  cases h with
  | early h => exact Or.inl ⟨h, rfl, rfl⟩
  | @run l s' items o h1 h2 h3 =>
    refine Or.inr ⟨h1, ?_⟩
    rcases seq_runs h2 with ⟨rfl, rfl, rfl⟩ | ⟨o', items', rest, h4, rfl, h5⟩
    · simp only [seqProg] at h3
      cases hf : f c s' with
      | error e => rw [hf] at h3; cases h3
      | ok v => rw [hf] at h3; cases h3
    · cases rest with
      | cons r rs => cases h3
      | nil =>
        cases h3
        rw [h4, h5, List.append_nil]

section
variable {D : Type} [DoubleOps D] {E : Lru.Env} {cfg : AggConfig}

theorem report_noCache {h : Report.Hist D} {s : AggState (OpAgg D)} (r : Report.Reach E cfg h s)
    (hn : cfg.numEntries ≤ 0) : s.cache = none := by
  induction r with
  | @init s h0 =>
    unfold Report.new at h0
    rw [if_neg (by omega)] at h0
    cases h0; rfl
  | @call h s c s' out fl _ hs ih =>
    cases c <;> simp only [Report.step, Report.report, Report.flush, Report.flushAll, withBuffer, ih] at hs
    · split at hs
      · cases hs; exact ih
      · simp only [Option.isNone_none, Bool.or_true, if_true] at hs
        cases hs; exact ih
    all_goals cases hs; exact ih

theorem report_early {h : Report.Hist D} {s : AggState (OpAgg D)} (r : Report.Reach E cfg h s)
    {c : Report.Call D} {o : Status} (he : reportEarly cfg c = some o) : Report.step E cfg c s = .ok (s, o, []) := by
  cases c with
  | report q =>
    simp only [reportEarly] at he
    simp only [Report.step, Report.report]
    split at he
    · rename_i h1
      cases he
      rw [if_pos h1]
    · rename_i h1
      rw [if_neg h1]
      split at he
      · rename_i h2
        cases he
        rw [if_pos]
        rcases Bool.or_eq_true_iff.1 h2 with h2 | h2
        · rw [h2]; rfl
        · rw [report_noCache r (by simpa using h2)]; simp
      · cases he
  | flush => cases he
  | flushAll => cases he

theorem check_noCache {h : Check.Hist D} {s : AggState (Check.Elem D)} (r : Check.Reach E cfg h s)
    (hn : cfg.numEntries ≤ 0) : s.cache = none := by
  induction r with
  | @init s h0 =>
    unfold Check.new at h0
    rw [if_neg (by omega)] at h0
    cases h0; rfl
  | @call h s c s' out fl _ hs ih =>
    obtain ⟨out', h1, _⟩ := Check.step_none E cfg ih c
    rw [h1] at hs
    cases hs; exact ih

theorem check_early {h : Check.Hist D} {s : AggState (Check.Elem D)} (r : Check.Reach E cfg h s)
    {c : Check.Call D} {o : Check.Out} (he : checkEarly cfg c = some o) : Check.step E cfg c s = .ok (s, o, []) := by
  cases c with
  | check q =>
    simp only [checkEarly] at he
    simp only [Check.step, Check.check]
    split at he
    · rename_i h1
      cases he
      rw [if_pos h1]
    · rename_i h1
      rw [if_neg h1]
      cases ho : q.operation with
      | none => rw [ho] at he; cases he; rfl
      | some op =>
        rw [ho] at he
        simp only at he ⊢
        split at he
        · rename_i h2
          cases he
          rw [if_pos]
          rcases Bool.or_eq_true_iff.1 h2 with h2 | h2
          · rw [h2]; rfl
          · rw [check_noCache r (by simpa using h2)]; simp
        · cases he
  | cacheResponse q p => cases he
  | flush => cases he
  | flushAll => cases he

end

theorem quota_early {D : Type} {E : Lru.Env} {cfg : AggConfig} {h : Quota.Hist D} {s : Quota.State D}
    (r : Quota.Reach E cfg h s) {d : Nat} {c : Quota.Call D} {o : Quota.Out} (he : quotaEarly cfg c = some o) :
    Quota.step E cfg d c s = .ok (s, o, []) := by
  cases c with
  | quota q =>
    simp only [quotaEarly] at he
    simp only [Quota.step, Quota.quota]
    split at he
    · rename_i h1
      cases he
      rw [if_pos h1]
    · rename_i h1
      rw [if_neg h1]
      split at he
      · rename_i h2
        cases he
        rw [if_pos h2]
      · rename_i h2
        rw [if_neg h2]
        split at he
        · rename_i h3
          cases he
          simp [withBuffer, r.none h3, bind, Except.bind]
        · cases he
  | cacheResponse q p =>
    simp only [quotaEarly] at he
    split at he
    · rename_i h3
      cases he
      simp [Quota.step, Quota.cacheResponse, withBuffer, r.none h3, bind, Except.bind]
    · cases he
  | flush => cases he
  | flushAll => cases he

end Verif.Conc
