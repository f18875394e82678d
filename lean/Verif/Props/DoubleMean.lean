import Verif.Lemmas.DoubleMerge
import Verif.Props.Distribution
/-
C103, C104: the statistics of a distribution, computed with IEEE-754 doubles.
-/
namespace Verif.Ieee
open Dist DoubleOps

section stats
variable {D : Type} [DoubleOps D]

/-- What `AddSample` does to the statistics. -/
theorem addSample_stats {v : D} {d d' : Distribution D} {st : Status} (h : addSample v d = .ok (st, d')) :
    d' = d ∨
    (d.count = 0 ∧ d'.count = 1 ∧ d'.mean = v ∧ d'.ssd = zero ∧ d'.minimum = v ∧ d'.maximum = v) ∨
    (d.count ≠ 0 ∧ d'.count = d.count + 1 ∧ d'.mean = div (add (mul (ofInt d.count) d.mean) v) (ofInt (d.count + 1)) ∧
      d'.ssd = add d.ssd (mul (sub v d.mean) (sub v d'.mean)) ∧ d'.minimum = stdMin v d.minimum ∧ d'.maximum = stdMax v d.maximum) := by
  unfold addSample at h
  split at h
  · cases h; exact .inl rfl
  · simp only [bind, Except.bind] at h
    split at h
    · cases h
    · rename_i d1 h1
      split at h
      · cases h
      · rename_i i hi
        split at h
        · cases h
        · rename_i d2 h2
          cases h
          obtain ⟨_, c, _, hd⟩ := bumpBucket_ok h2
          subst hd
          right
          unfold updateGeneral at h1
          split at h1
          · rename_i h0
            cases h1
            exact .inl ⟨h0, rfl, rfl, rfl, rfl, rfl⟩
          · rename_i h0
            simp only [bind, Except.bind] at h1
            split at h1
            · cases h1
            · rename_i c1 hc1
              cases h1
              have := (addI64_ok hc1).1
              subst this
              exact .inr ⟨h0, rfl, rfl, rfl, rfl, rfl⟩

/-- What `Merge` does to the statistics. -/
theorem merge_stats {f t r : Distribution D} {st : Status} (h : merge f t = .ok (st, r)) :
    r = t ∨ (t.count ≤ 0 ∧ r = f) ∨
    (0 < f.count ∧ 0 < t.count ∧ r.count = t.count + f.count ∧
      r.mean = div (add (mul (ofInt t.count) t.mean) (mul (ofInt f.count) f.mean)) (ofInt (t.count + f.count)) ∧
      r.ssd = add (add (add t.ssd f.ssd) (mul (mul (ofInt t.count) (sub r.mean t.mean)) (sub r.mean t.mean)))
        (mul (mul (ofInt f.count) (sub r.mean f.mean)) (sub r.mean f.mean))) := by
  unfold merge at h
  split at h
  · cases h; exact .inl rfl
  · split at h
    · cases h; exact .inl rfl
    · split at h
      · cases h; exact .inl rfl
      · split at h
        · cases h; exact .inr (.inl ⟨by assumption, rfl⟩)
        · simp only [bind, Except.bind] at h
          split at h
          · cases h
          · rename_i c hc
            split at h
            · cases h
            · cases h
              have := (addI64_ok hc).1
              subst this
              exact .inr (.inr ⟨by omega, by omega, rfl, rfl, rfl⟩)

/-- What a successful `Merge` does to count, mean, minimum and maximum. -/
theorem merge_both {f t r : Distribution D} (h : merge f t = .ok (.ok, r)) :
    (f.count ≤ 0 ∧ r = t) ∨ (0 < f.count ∧ t.count ≤ 0 ∧ r = f) ∨
    (0 < f.count ∧ 0 < t.count ∧ r.count = t.count + f.count ∧
      r.mean = div (add (mul (ofInt t.count) t.mean) (mul (ofInt f.count) f.mean)) (ofInt (t.count + f.count)) ∧
      r.minimum = stdMin f.minimum t.minimum ∧ r.maximum = stdMax f.maximum t.maximum) := by
  unfold merge at h
  split at h
  · cases h
  · split at h
    · cases h
    · split at h
      · cases h; exact .inl ⟨by assumption, rfl⟩
      · split at h
        · cases h; exact .inr (.inl ⟨by omega, by assumption, rfl⟩)
        · simp only [bind, Except.bind] at h
          split at h
          · cases h
          · rename_i c hc
            split at h
            · cases h
            · cases h
              have := (addI64_ok hc).1
              subst this
              exact .inr (.inr ⟨by omega, by omega, rfl, rfl, rfl, rfl⟩)

end stats

/-! ### Signs -/

/-- Not negative: NaN, plus infinity, or a number that is not negative. -/
def NotNeg (x : F64) : Prop := F64.lt x (.fin 0) = false
/-- Not positive. -/
def NotPos (x : F64) : Prop := F64.lt (.fin 0) x = false

theorem notNeg_fin {q : ℚ} : NotNeg (.fin q) ↔ 0 ≤ q := by
  show decide _ = false ↔ _
  rw [decide_eq_false_iff_not, not_lt]

theorem notPos_fin {q : ℚ} : NotPos (.fin q) ↔ q ≤ 0 := by
  show decide _ = false ↔ _
  rw [decide_eq_false_iff_not, not_lt]

theorem sign_cases (x : F64) : NotNeg x ∨ NotPos x := by
  cases x with
  | nan => exact .inl rfl
  | inf s => cases s; exact .inl rfl; exact .inr rfl
  | fin q =>
    rcases le_total 0 q with h | h
    · exact .inl (notNeg_fin.mpr h)
    · exact .inr (notPos_fin.mpr h)

theorem fl_notNeg {q : ℚ} (h : 0 ≤ q) : NotNeg (fl q) := by
  have h0 := rnd_nonneg h
  have p := pow2_pos 1024
  by_cases h1 : pow2 1024 ≤ rnd q
  · rw [fl_top h1]; rfl
  · rw [fl_fin (by linarith) (not_le.mp h1)]; exact notNeg_fin.mpr h0

theorem fl_notPos {q : ℚ} (h : q ≤ 0) : NotPos (fl q) := by
  have h0 : rnd q ≤ 0 := by have := rnd_mono h; rwa [rnd_zero] at this
  have p := pow2_pos 1024
  by_cases h1 : rnd q ≤ -pow2 1024
  · rw [fl_bot h1]; rfl
  · rw [fl_fin (not_le.mp h1) (by linarith)]; exact notPos_fin.mpr h0

theorem add_notNeg {x y : F64} (hx : NotNeg x) (hy : NotNeg y) : NotNeg (F64.add x y) := by
  cases x with
  | nan => rfl
  | inf s =>
    cases y with
    | nan => rfl
    | inf t => cases s <;> cases t <;> first | rfl | exact Bool.noConfusion hx | exact Bool.noConfusion hy
    | fin b => exact hx
  | fin a =>
    cases y with
    | nan => rfl
    | inf t => exact hy
    | fin b => exact fl_notNeg (add_nonneg (notNeg_fin.mp hx) (notNeg_fin.mp hy))

theorem mul_notNeg {x y : F64} (h : (NotNeg x ∧ NotNeg y) ∨ (NotPos x ∧ NotPos y)) : NotNeg (F64.mul x y) := by
  cases x with
  | nan => rfl
  | inf s =>
    cases y with
    | nan => rfl
    | inf t =>
      cases s <;> cases t <;> first
        | rfl
        | (rcases h with ⟨h1, h2⟩ | ⟨h1, h2⟩ <;> first | exact Bool.noConfusion h1 | exact Bool.noConfusion h2)
    | fin b =>
      show NotNeg (if b = 0 then .nan else .inf (s != decide (b < 0)))
      by_cases hb : b = 0
      · rw [if_pos hb]; rfl
      · rw [if_neg hb]
        rcases h with ⟨h1, h2⟩ | ⟨h1, h2⟩
        · rw [decide_eq_false (not_lt.mpr (notNeg_fin.mp h2))]
          cases s
          · rfl
          · exact Bool.noConfusion h1
        · rw [decide_eq_true (lt_of_le_of_ne (notPos_fin.mp h2) hb)]
          cases s
          · exact Bool.noConfusion h1
          · rfl
  | fin a =>
    cases y with
    | nan => rfl
    | inf t =>
      show NotNeg (if a = 0 then .nan else .inf (t != decide (a < 0)))
      by_cases ha : a = 0
      · rw [if_pos ha]; rfl
      · rw [if_neg ha]
        rcases h with ⟨h1, h2⟩ | ⟨h1, h2⟩
        · rw [decide_eq_false (not_lt.mpr (notNeg_fin.mp h1))]
          cases t
          · rfl
          · exact Bool.noConfusion h2
        · rw [decide_eq_true (lt_of_le_of_ne (notPos_fin.mp h1) ha)]
          cases t
          · exact Bool.noConfusion h2
          · rfl
    | fin b =>
      refine fl_notNeg ?_
      rcases h with ⟨h1, h2⟩ | ⟨h1, h2⟩
      · exact mul_nonneg (notNeg_fin.mp h1) (notNeg_fin.mp h2)
      · exact mul_nonneg_of_nonpos_of_nonpos (notPos_fin.mp h1) (notPos_fin.mp h2)

/-- A positive number times `x` has the sign of `x`. -/
theorem mul_sign {c : ℚ} (hc : 0 < c) {x : F64} :
    (NotNeg x → NotNeg (F64.mul (.fin c) x)) ∧ (NotPos x → NotPos (F64.mul (.fin c) x)) := by
  refine ⟨fun h => mul_notNeg (.inl ⟨notNeg_fin.mpr hc.le, h⟩), fun h => ?_⟩
  cases x with
  | nan => rfl
  | inf t =>
    show NotPos (if c = 0 then .nan else .inf (t != decide (c < 0)))
    rw [if_neg hc.ne', decide_eq_false (not_lt.mpr hc.le)]
    cases t
    · exact Bool.noConfusion h
    · rfl
  | fin b => exact fl_notPos (mul_nonpos_of_nonneg_of_nonpos hc.le (notPos_fin.mp h))

theorem square_notNeg {c : ℚ} (hc : 0 < c) (x : F64) : NotNeg (F64.mul (F64.mul (.fin c) x) x) := by
  rcases sign_cases x with h | h
  · exact mul_notNeg (.inl ⟨(mul_sign hc).1 h, h⟩)
  · exact mul_notNeg (.inr ⟨(mul_sign hc).2 h, h⟩)

/-! ### Finite results -/

theorem fl_eq_fin {q r : ℚ} (h : fl q = .fin r) : r = rnd q := by
  by_cases h1 : pow2 1024 ≤ rnd q
  · rw [fl_top h1] at h; cases h
  · by_cases h2 : rnd q ≤ -pow2 1024
    · rw [fl_bot h2] at h; cases h
    · rw [fl_fin (not_le.mp h2) (not_le.mp h1)] at h
      cases h; rfl

theorem div_eq_fin {a : F64} {k q : ℚ} (hk : 0 < k) (h : F64.div a (.fin k) = .fin q) : ∃ z, a = .fin z ∧ q = rnd (z / k) := by
  cases a with
  | nan => cases h
  | inf s => cases h
  | fin z =>
    rw [div_fin hk.ne'] at h
    exact ⟨z, rfl, fl_eq_fin h⟩

theorem add_eq_fin {a b : F64} {q : ℚ} (h : F64.add a b = .fin q) : ∃ x y, a = .fin x ∧ b = .fin y ∧ q = rnd (x + y) := by
  cases a with
  | nan => cases h
  | inf s =>
    cases b with
    | nan => cases h
    | inf t =>
      change (if s = t then F64.inf s else F64.nan) = _ at h
      split at h <;> cases h
    | fin y => cases h
  | fin x =>
    cases b with
    | nan => cases h
    | inf t => cases h
    | fin y => exact ⟨x, y, rfl, rfl, fl_eq_fin h⟩

theorem mul_eq_fin {b : F64} {c q : ℚ} (hc : 0 < c) (h : F64.mul (.fin c) b = .fin q) : ∃ y, b = .fin y ∧ q = rnd (c * y) := by
  cases b with
  | nan => cases h
  | inf t =>
    change (if c = 0 then F64.nan else _) = _ at h
    rw [if_neg hc.ne'] at h
    cases h
  | fin y => exact ⟨y, rfl, fl_eq_fin h⟩

/-! ### C104 -/

/-- The distributions that `AddSample` and `Merge` produce from messages without samples. -/
inductive Built (lg : F64 → F64) : Distribution F64 → Prop
  | init {d} (h : d.count = 0) (h0 : d.ssd = .fin 0) : Built lg d
  | add {d d' v st} (b : Built lg d) (hv : v.Ok) (h : @addSample F64 (ops lg) v d = .ok (st, d')) : Built lg d'
  | merge {f t r st} (bf : Built lg f) (bt : Built lg t) (h : @Dist.merge F64 (ops lg) f t = .ok (st, r)) : Built lg r

/-- What the proof keeps. -/
structure MeanInv (d : Distribution F64) : Prop where
  count : 0 ≤ d.count
  fresh : d.count = 0 → d.ssd = .fin 0
  mean : 0 < d.count → d.count ≤ 2 ^ 53 → ∀ m, d.mean = .fin m → (∃ s, rnd s = s ∧ m = rnd (s / d.count)) ∧ NotNeg d.ssd

theorem Built.inv {lg : F64 → F64} {d : Distribution F64} (b : Built lg d) : MeanInv d := by
  induction b with
  | init h h0 => exact ⟨by omega, fun _ => h0, fun h1 => by omega⟩
  | @add d d' v st b hv h ih =>
    rcases @addSample_stats F64 (ops lg) _ _ _ _ h with rfl | ⟨h0, h1, h2, h3, _⟩ | ⟨h0, h1, h2, h3, _⟩
    · exact ih
    · refine ⟨by omega, by omega, fun _ _ m hm => ?_⟩
      rw [h2] at hm
      subst hm
      refine ⟨⟨m, rnd_of_isDouble hv, ?_⟩, by rw [h3]; exact notNeg_fin.mpr (le_refl _)⟩
      rw [h1, Int.cast_one, div_one, rnd_of_isDouble hv]
    · have hc := ih.count
      refine ⟨by omega, by omega, fun _ hle m hm => ?_⟩
      have hle' : d.count + 1 ≤ 2 ^ 53 := by omega
      have e1 : @DoubleOps.ofInt F64 (ops lg) d.count = .fin d.count := ofInt_small (by omega)
      have e2 : @DoubleOps.ofInt F64 (ops lg) (d.count + 1) = .fin ((d.count + 1 : Int) : ℚ) := ofInt_small (by omega)
      have hcq : (0 : ℚ) < d.count := by exact_mod_cast (show 0 < d.count by omega)
      have hkq : (0 : ℚ) < ((d.count + 1 : Int) : ℚ) := by exact_mod_cast (show 0 < d.count + 1 by omega)
      have hm' := hm
      rw [h2, e1, e2] at hm'
      obtain ⟨z, hz, rfl⟩ := div_eq_fin hkq hm'
      obtain ⟨p, x, hp, hx, rfl⟩ := add_eq_fin hz
      obtain ⟨y, hy, rfl⟩ := mul_eq_fin hcq hp
      subst hx
      obtain ⟨⟨s, hs, hms⟩, hss⟩ := ih.mean (by omega) (by omega) y hy
      refine ⟨⟨_, rnd_rnd _, by rw [h1]⟩, ?_⟩
      have hnm : rnd (rnd (rnd (d.count * y) + x) / ((d.count + 1 : Int) : ℚ)) = newMean d.count y x := by
        unfold newMean; push_cast; rfl
      rw [hnm] at hm
      rw [h3, hm, hy]
      refine add_notNeg hss ?_
      have side := newMean_side (show 1 ≤ d.count by omega) hle' hs hms (rnd_of_isDouble hv)
      have e3 : ∀ a b : ℚ, @DoubleOps.sub F64 (ops lg) (.fin a) (.fin b) = fl (a - b) := by
        intro a b
        show fl (a + -b) = _
        rw [← sub_eq_add_neg]
      rw [e3, e3]
      refine mul_notNeg ?_
      rcases lt_trichotomy x y with hlt | heq | hgt
      · exact .inr ⟨fl_notPos (by linarith), fl_notPos (by linarith [side.1 hlt])⟩
      · subst heq
        rw [sub_self]
        have z1 : NotNeg (fl 0) := fl_notNeg (le_refl _)
        have z2 : NotPos (fl 0) := fl_notPos (le_refl _)
        rcases le_total (newMean d.count x x) x with hh | hh
        · exact .inl ⟨z1, fl_notNeg (by linarith)⟩
        · exact .inr ⟨z2, fl_notPos (by linarith)⟩
      · exact .inl ⟨fl_notNeg (by linarith), fl_notNeg (by linarith [side.2 hgt])⟩
  | @merge f t r st bf bt h ihf iht =>
    rcases @merge_stats F64 (ops lg) _ _ _ _ h with rfl | ⟨_, rfl⟩ | ⟨hf, ht, h1, h2, h3⟩
    · exact iht
    · exact ihf
    · refine ⟨by omega, by omega, fun _ hle m hm => ?_⟩
      have e1 : @DoubleOps.ofInt F64 (ops lg) t.count = .fin t.count := ofInt_small (by omega)
      have e2 : @DoubleOps.ofInt F64 (ops lg) f.count = .fin f.count := ofInt_small (by omega)
      have e3 : @DoubleOps.ofInt F64 (ops lg) (t.count + f.count) = .fin ((t.count + f.count : Int) : ℚ) := ofInt_small (by omega)
      have htq : (0 : ℚ) < t.count := by exact_mod_cast ht
      have hfq : (0 : ℚ) < f.count := by exact_mod_cast hf
      have hkq : (0 : ℚ) < ((t.count + f.count : Int) : ℚ) := by exact_mod_cast (show 0 < t.count + f.count by omega)
      have hm' := hm
      rw [h2, e1, e2, e3] at hm'
      obtain ⟨z, hz, rfl⟩ := div_eq_fin hkq hm'
      obtain ⟨p, x, hp, hx, rfl⟩ := add_eq_fin hz
      obtain ⟨y, hy, rfl⟩ := mul_eq_fin htq hp
      obtain ⟨w, hw, rfl⟩ := mul_eq_fin hfq hx
      obtain ⟨_, hs1⟩ := iht.mean ht (by omega) y hy
      obtain ⟨_, hs2⟩ := ihf.mean hf (by omega) w hw
      refine ⟨⟨_, rnd_rnd _, by rw [h1]⟩, ?_⟩
      rw [h3, e1, e2]
      exact add_notNeg (add_notNeg (add_notNeg hs1 hs2) (square_notNeg htq _)) (square_notNeg hfq _)

/-- C104: however a distribution was filled by `AddSample` and combined by `Merge`, its sum of squared deviation is not negative if its
mean is finite. -/
theorem C104_not_negative_partial {lg : F64 → F64} {d : Distribution F64} (b : Built lg d) (hc : d.count ≤ 2 ^ 53) {m : ℚ}
    (hm : d.mean = .fin m) : F64.lt d.ssd (.fin 0) = false := by
  rcases Int.lt_or_eq_of_le b.inv.count with h | h
  · exact (b.inv.mean h hc m hm).2
  · rw [b.inv.fresh h.symm]; decide +kernel

/-! ### Examples for C104 -/

/-- An explicit layout with the bound 0, without samples. -/
def twoBuckets : Distribution F64 := ⟨0, .fin 0, .fin 0, .fin 0, .fin 0, [0, 0], .explicit [.fin 0]⟩

theorem Built.addSamples {lg : F64 → F64} {xs : List F64} {d d' : Distribution F64} (b : Built lg d) (hv : ∀ v ∈ xs, v.Ok)
    (h : @Dist.addSamples F64 (ops lg) d xs = .ok d') : Built lg d' := by
  induction xs generalizing d with
  | nil => cases h; exact b
  | cons x t ih =>
    unfold Dist.addSamples at h
    rw [List.foldlM_cons] at h
    simp only [bind, Except.bind] at h
    split at h
    · cases h
    · rename_i d1 h1
      split at h1
      · cases h1
      · rename_i r hr
        cases h1
        exact ih (b.add (hv x (by simp)) (st := r.1) (d' := r.2) hr) (fun v hv' => hv v (by simp [hv'])) h

/-- The call succeeds with a result that passes the test. -/
def okWith {α : Type} (r : Res α) (p : α → Bool) : Bool :=
  match r with
  | .ok a => p a
  | .error _ => false

theorem of_okWith {α : Type} {r : Res α} {p : α → Bool} (h : okWith r p = true) : ∃ a, r = .ok a ∧ p a = true := by
  cases r with
  | ok a => exact ⟨a, rfl, h⟩
  | error e => cases h

/-- C104: the sum of two samples overflows: the sum of squared deviation becomes minus infinity. -/
theorem C104_false_overflow : ∃ d, Built id d ∧ d.count = 2 ∧ d.ssd = .inf true ∧ d.mean = .inf false := by
  obtain ⟨d, hd, h⟩ := of_okWith (r := @Dist.addSamples F64 (ops id) twoBuckets [fl (10 ^ 308), fl (15 * 10 ^ 307)])
    (p := fun d => d.count == 2 && d.ssd == .inf true && d.mean == .inf false) (by decide +kernel)
  simp only [Bool.and_eq_true, beq_iff_eq] at h
  refine ⟨d, Built.addSamples (.init rfl rfl) ?_ hd, h.1.1, h.1.2, h.2⟩
  intro v hv
  rcases List.mem_cons.mp hv with rfl | hv
  · exact fl_ok _
  · rcases List.mem_cons.mp hv with rfl | hv
    · exact fl_ok _
    · cases hv

/-- 146 samples, all of them `8273651932491377 * 2 ^ -53`, described by a caller without rounding. -/
def foreign : Distribution F64 :=
  let m : F64 := .fin (8273651932491377 * pow2 (-53))
  ⟨146, m, m, m, .fin 0, [0, 146], .explicit [.fin 0]⟩

/-- C104: a distribution that a caller filled in without `AddSample` can get a negative sum of squared deviation by one more sample. -/
theorem C104_false_foreign : ∃ d, @Dist.addSample F64 (ops id) (.fin (8273651932491376 * pow2 (-53))) foreign = .ok (.ok, d) ∧
    F64.lt d.ssd (.fin 0) = true := by
  obtain ⟨⟨st, d⟩, hd, h⟩ := of_okWith (r := @Dist.addSample F64 (ops id) (.fin (8273651932491376 * pow2 (-53))) foreign)
    (p := fun r => r.1 == .ok && F64.lt r.2.ssd (.fin 0)) (by decide +kernel)
  simp only [Bool.and_eq_true, beq_iff_eq] at h
  exact ⟨d, by rw [hd, h.1], h.2⟩

/-- Samples that meet the hypotheses of `C104_not_negative_partial`; their sum of squared deviation is positive. -/
example : ∃ d, Built id d ∧ d.count ≤ 2 ^ 53 ∧ d.mean = .fin (7205759403792795 * pow2 (-56)) ∧ F64.lt (.fin 0) d.ssd = true := by
  obtain ⟨d, hd, h⟩ := of_okWith (r := @Dist.addSamples F64 (ops id) twoBuckets [fl (1 / 10), .fin 0, fl (2 / 10)])
    (p := fun d => decide (d.count ≤ 2 ^ 53) && d.mean == .fin (7205759403792795 * pow2 (-56)) && F64.lt (.fin 0) d.ssd) (by decide +kernel)
  simp only [Bool.and_eq_true, beq_iff_eq, decide_eq_true_eq] at h
  refine ⟨d, Built.addSamples (.init rfl rfl) ?_ hd, h.1.1, h.1.2, h.2⟩
  intro v hv
  simp only [List.mem_cons, List.not_mem_nil, or_false] at hv
  rcases hv with rfl | rfl | rfl
  · exact fl_ok _
  · exact isDouble_int (n := 0) (by decide)
  · exact fl_ok _

/-! ### C103 -/

theorem fl_within {q : ℚ} (h : |q| ≤ pow2 1023) : fl q = .fin (rnd q) := by
  obtain ⟨h1, h2⟩ := abs_le.mp h
  exact fl_bound h1 h2

/-- The distributions that `AddSample` and `Merge` make of the samples `xs`, starting with messages without samples. -/
inductive Filled (lg : F64 → F64) : List ℚ → Distribution F64 → Prop
  | init {d} (h : d.count = 0) : Filled lg [] d
  | add {xs d d' v} (b : Filled lg xs d) (h : @addSample F64 (ops lg) (.fin v) d = .ok (.ok, d')) : Filled lg (xs ++ [v]) d'
  | merge {xs ys f t r} (bf : Filled lg xs f) (bt : Filled lg ys t) (h : @Dist.merge F64 (ops lg) f t = .ok (.ok, r)) :
      Filled lg (ys ++ xs) r

/-- What the proof of C103 keeps; the error as a multiple of the number of samples. -/
structure Close (M : ℚ) (xs : List ℚ) (d : Distribution F64) : Prop where
  mean : ∃ m, d.mean = .fin m ∧ |xs.length * m - xs.sum| ≤ 4 * xs.length * (xs.length + 1) * (M * pow2 (-53) + pow2 (-1074))
  sum : |xs.sum| ≤ xs.length * M
  min : ∃ a ∈ xs, d.minimum = .fin a ∧ ∀ x ∈ xs, a ≤ x
  max : ∃ a ∈ xs, d.maximum = .fin a ∧ ∀ x ∈ xs, x ≤ a

theorem min_of {lg : F64 → F64} {xs ys : List ℚ} {a b : ℚ} (ha : a ∈ xs) (hb : b ∈ ys) (ha' : ∀ x ∈ xs, a ≤ x) (hb' : ∀ x ∈ ys, b ≤ x) :
    ∃ c ∈ xs ++ ys, @stdMin F64 (ops lg) (.fin b) (.fin a) = .fin c ∧ ∀ x ∈ xs ++ ys, c ≤ x := by
  have e : @stdMin F64 (ops lg) (.fin b) (.fin a) = if a < b then .fin a else .fin b := by
    show (if decide (a < b) = true then _ else _) = _
    simp only [decide_eq_true_eq]
  rw [e]
  by_cases h : a < b
  · rw [if_pos h]
    refine ⟨a, List.mem_append_left _ ha, rfl, fun x hx => ?_⟩
    rcases List.mem_append.mp hx with hx | hx
    · exact ha' x hx
    · exact h.le.trans (hb' x hx)
  · rw [if_neg h]
    refine ⟨b, List.mem_append_right _ hb, rfl, fun x hx => ?_⟩
    rcases List.mem_append.mp hx with hx | hx
    · exact (not_lt.mp h).trans (ha' x hx)
    · exact hb' x hx

theorem max_of {lg : F64 → F64} {xs ys : List ℚ} {a b : ℚ} (ha : a ∈ xs) (hb : b ∈ ys) (ha' : ∀ x ∈ xs, x ≤ a) (hb' : ∀ x ∈ ys, x ≤ b) :
    ∃ c ∈ xs ++ ys, @stdMax F64 (ops lg) (.fin b) (.fin a) = .fin c ∧ ∀ x ∈ xs ++ ys, x ≤ c := by
  have e : @stdMax F64 (ops lg) (.fin b) (.fin a) = if b < a then .fin a else .fin b := by
    show (if decide (b < a) = true then _ else _) = _
    simp only [decide_eq_true_eq]
  rw [e]
  by_cases h : b < a
  · rw [if_pos h]
    refine ⟨a, List.mem_append_left _ ha, rfl, fun x hx => ?_⟩
    rcases List.mem_append.mp hx with hx | hx
    · exact ha' x hx
    · exact (hb' x hx).trans h.le
  · rw [if_neg h]
    refine ⟨b, List.mem_append_right _ hb, rfl, fun x hx => ?_⟩
    rcases List.mem_append.mp hx with hx | hx
    · exact (ha' x hx).trans (not_lt.mp h)
    · exact hb' x hx

/-- Everything that is computed for at most `2 ^ 40` samples is finite. -/
theorem fl_mean {n M : ℚ} (hn : n ≤ 2 ^ 41) (hM0 : 0 ≤ M) (hM : M ≤ pow2 900) {q : ℚ} (hq : |q| ≤ n * (2 * M + 1) * 4) :
    fl q = .fin (rnd q) := by
  refine fl_within ?_
  have b1 : ((2 : ℚ) ^ 41 * (2 * pow2 900 + 1) * 4) ≤ pow2 1023 := by decide +kernel
  have b2 : n * (2 * M + 1) ≤ 2 ^ 41 * (2 * M + 1) := mul_le_mul_of_nonneg_right hn (by linarith)
  linarith

theorem Filled.close {lg : F64 → F64} {xs : List ℚ} {d : Distribution F64} (b : Filled lg xs d) {M : ℚ} (hM : M ≤ pow2 900) :
    d.count = xs.length ∧ (xs ≠ [] → xs.length ≤ 2 ^ 40 → (∀ x ∈ xs, |x| ≤ M) → Close M xs d) := by
  induction b with
  | init h => exact ⟨by simpa using h, fun h => absurd rfl h⟩
  | @add xs d d' v b hr ih =>
    obtain ⟨i, c, _, _, hc1, hc2, _⟩ := @addSample_ok F64 (ops lg) _ _ _ hr
    obtain ⟨ic, ih⟩ := ih
    refine ⟨by rw [List.length_append, List.length_singleton]; push_cast; omega, fun _ hlen hx => ?_⟩
    rw [List.length_append, List.length_singleton] at hlen
    have hvx := hx v (by simp)
    have hM0 : 0 ≤ M := (abs_nonneg _).trans hvx
    by_cases hxs : xs = []
    · subst hxs
      rcases @addSample_stats F64 (ops lg) _ _ _ _ hr with rfl | ⟨_, g1, g2, _, g4, g5⟩ | ⟨g0, _⟩
      · omega
      · have A0 : 0 ≤ M * pow2 (-53) + pow2 (-1074) := add_nonneg (mul_nonneg hM0 (pow2_pos _).le) (pow2_pos _).le
        refine ⟨⟨v, g2, ?_⟩, by simpa using hvx, ⟨v, by simp, g4, by simp⟩, ⟨v, by simp, g5, by simp⟩⟩
        have : (([] ++ [v] : List ℚ).length : ℚ) * v - ([] ++ [v] : List ℚ).sum = 0 := by simp
        rw [this, abs_zero]
        exact mul_nonneg (mul_nonneg (mul_nonneg (by norm_num) (Nat.cast_nonneg _)) (by linarith [Nat.cast_nonneg (α := ℚ) ([] ++ [v] : List ℚ).length])) A0
      · exact absurd (by simpa using ic) g0
    · have hl : 0 < xs.length := List.length_pos_iff.mpr hxs
      obtain ⟨⟨m, im, ie⟩, is, ⟨a, ia, imin, ia'⟩, ⟨b, ib', imax, ib''⟩⟩ := ih hxs (by omega) (fun x h => hx x (by simp [h]))
      rcases @addSample_stats F64 (ops lg) _ _ _ _ hr with rfl | ⟨g0, _⟩ | ⟨g0, g1, g2, _, g4, g5⟩
      · omega
      · omega
      · have hc : (1 : ℚ) ≤ xs.length := by exact_mod_cast hl
        have hc' : (xs.length : ℚ) ≤ 2 ^ 40 := by exact_mod_cast (show xs.length ≤ 2 ^ 40 by omega)
        obtain ⟨s1, s2, s3, s4⟩ := mean_step hc hc' hvx is ie
        have e1 : @DoubleOps.ofInt F64 (ops lg) d.count = .fin (xs.length : ℚ) := by
          rw [ic]
          exact ofInt_small (n := (xs.length : Int)) (by omega)
        have e2 : @DoubleOps.ofInt F64 (ops lg) (d.count + 1) = .fin ((xs.length : ℚ) + 1) := by
          rw [ic]
          have := ofInt_small (n := (xs.length : Int) + 1) (by omega)
          push_cast at this
          exact this
        have hN : 0 ≤ ((xs.length : ℚ) + 1) * (2 * M + 1) := mul_nonneg (by linarith) (by linarith)
        have hbig : ∀ q : ℚ, |q| ≤ (xs.length + 1) * (2 * M + 1) * 4 → fl q = .fin (rnd q) :=
          fun q hq => fl_mean (by linarith) hM0 hM hq
        have hmean : d'.mean = .fin (rnd (rnd (rnd (xs.length * m) + v) / (xs.length + 1))) := by
          rw [g2, e1, e2, im]
          have m1 : @DoubleOps.mul F64 (ops lg) (.fin (xs.length : ℚ)) (.fin m) = .fin (rnd (xs.length * m)) :=
            hbig _ (by linarith)
          have m2 : @DoubleOps.add F64 (ops lg) (.fin (rnd (xs.length * m))) (.fin v) = .fin (rnd (rnd (xs.length * m) + v)) :=
            hbig _ (by linarith)
          have m3 : @DoubleOps.div F64 (ops lg) (.fin (rnd (rnd (xs.length * m) + v))) (.fin ((xs.length : ℚ) + 1)) =
              .fin (rnd (rnd (rnd (xs.length * m) + v) / (xs.length + 1))) := by
            have : F64.div (.fin (rnd (rnd (xs.length * m) + v))) (.fin ((xs.length : ℚ) + 1)) = _ := div_fin (by linarith)
            exact this.trans (hbig _ s4)
          rw [m1, m2, m3]
        refine ⟨⟨_, hmean, ?_⟩, ?_, ?_, ?_⟩
        · rw [List.sum_append, List.sum_singleton, List.length_append, List.length_singleton]
          push_cast
          refine s1.trans (le_of_eq ?_)
          ring
        · rw [List.sum_append, List.sum_singleton, List.length_append, List.length_singleton]
          push_cast
          have := abs_add_le xs.sum v
          linarith [hvx]
        · rw [g4, imin]
          exact min_of ia (List.mem_singleton_self v) ia' (by simp)
        · rw [g5, imax]
          exact max_of ib' (List.mem_singleton_self v) ib'' (by simp)
  | @merge xs ys f t r bf bt hr ihf iht =>
    obtain ⟨fc, ihf⟩ := ihf
    obtain ⟨tc, iht⟩ := iht
    rcases @merge_both F64 (ops lg) _ _ _ hr with ⟨h0, rfl⟩ | ⟨h0, h1, rfl⟩ | ⟨hf, ht, g1, g2, g3, g4⟩
    · have : xs = [] := List.length_eq_zero_iff.mp (by omega)
      subst this
      rw [List.append_nil]
      exact ⟨tc, iht⟩
    · have : ys = [] := List.length_eq_zero_iff.mp (by omega)
      subst this
      exact ⟨fc, ihf⟩
    · refine ⟨by rw [List.length_append]; push_cast; omega, fun _ hlen hx => ?_⟩
      rw [List.length_append] at hlen
      have hxl : 0 < xs.length := by omega
      have hyl : 0 < ys.length := by omega
      obtain ⟨⟨m, im, ie⟩, is, ⟨a, ia, imin, ia'⟩, ⟨b, ib, imax, ib'⟩⟩ :=
        iht (List.length_pos_iff.mp hyl) (by omega) (fun x h => hx x (by simp [h]))
      obtain ⟨⟨k, jm, je⟩, js, ⟨a2, ja, jmin, ja'⟩, ⟨b2, jb, jmax, jb'⟩⟩ :=
        ihf (List.length_pos_iff.mp hxl) (by omega) (fun x h => hx x (by simp [h]))
      have hM0 : 0 ≤ M := (abs_nonneg _).trans (hx a (by simp [ia]))
      have ha : (1 : ℚ) ≤ ys.length := by exact_mod_cast hyl
      have hb : (1 : ℚ) ≤ xs.length := by exact_mod_cast hxl
      have hab : (ys.length : ℚ) + xs.length ≤ 2 ^ 40 := by exact_mod_cast (show ys.length + xs.length ≤ 2 ^ 40 by omega)
      obtain ⟨s1, s2, s3, s4, s5⟩ := merge_step ha hb hab is js ie je
      have e1 : @DoubleOps.ofInt F64 (ops lg) t.count = .fin (ys.length : ℚ) := by
        rw [tc]
        exact ofInt_small (n := (ys.length : Int)) (by omega)
      have e2 : @DoubleOps.ofInt F64 (ops lg) f.count = .fin (xs.length : ℚ) := by
        rw [fc]
        exact ofInt_small (n := (xs.length : Int)) (by omega)
      have e3 : @DoubleOps.ofInt F64 (ops lg) (t.count + f.count) = .fin ((ys.length : ℚ) + xs.length) := by
        rw [tc, fc]
        have := ofInt_small (n := (ys.length : Int) + xs.length) (by omega)
        push_cast at this
        exact this
      have hN : 0 ≤ ((ys.length : ℚ) + xs.length) * (2 * M + 1) := mul_nonneg (by linarith) (by linarith)
      have hbig : ∀ q : ℚ, |q| ≤ (ys.length + xs.length) * (2 * M + 1) * 4 → fl q = .fin (rnd q) :=
        fun q hq => fl_mean (by linarith) hM0 hM hq
      have hmean : r.mean = .fin (rnd (rnd (rnd (ys.length * m) + rnd (xs.length * k)) / (ys.length + xs.length))) := by
        rw [g2, e1, e2, e3, im, jm]
        have m1 : @DoubleOps.mul F64 (ops lg) (.fin (ys.length : ℚ)) (.fin m) = .fin (rnd (ys.length * m)) := hbig _ (by linarith)
        have m2 : @DoubleOps.mul F64 (ops lg) (.fin (xs.length : ℚ)) (.fin k) = .fin (rnd (xs.length * k)) := hbig _ (by linarith)
        have m3 : @DoubleOps.add F64 (ops lg) (.fin (rnd (ys.length * m))) (.fin (rnd (xs.length * k))) =
            .fin (rnd (rnd (ys.length * m) + rnd (xs.length * k))) := hbig _ (by linarith)
        have m4 : @DoubleOps.div F64 (ops lg) (.fin (rnd (rnd (ys.length * m) + rnd (xs.length * k)))) (.fin ((ys.length : ℚ) + xs.length)) =
            .fin (rnd (rnd (rnd (ys.length * m) + rnd (xs.length * k)) / (ys.length + xs.length))) := by
          have : F64.div (.fin (rnd (rnd (ys.length * m) + rnd (xs.length * k)))) (.fin ((ys.length : ℚ) + xs.length)) = _ :=
            div_fin (by linarith)
          exact this.trans (hbig _ s5)
        rw [m1, m2, m3, m4]
      refine ⟨⟨_, hmean, ?_⟩, ?_, ?_, ?_⟩
      · rw [List.sum_append, List.length_append]
        push_cast
        exact s1
      · rw [List.sum_append, List.length_append]
        push_cast
        have := abs_add_le ys.sum xs.sum
        linarith
      · rw [g3, imin, jmin]
        exact min_of ia ja ia' ja'
      · rw [g4, imax, jmax]
        exact max_of ib jb ib' jb'

/-- C103: however `AddSample` and `Merge` filled a distribution, the mean of at most `2 ^ 40` samples of at most `M` differs from the
exact mean by at most `4 (n + 1) (M 2 ^ -53 + 2 ^ -1074)`; count, minimum and maximum are exact. -/
theorem C103_merged_error_partial {lg : F64 → F64} {d : Distribution F64} {M : ℚ} (hM : M ≤ pow2 900) {xs : List ℚ}
    (b : Filled lg xs d) (hne : xs ≠ []) (hlen : xs.length ≤ 2 ^ 40) (hx : ∀ x ∈ xs, |x| ≤ M) :
    d.count = xs.length ∧
    (∃ m, d.mean = .fin m ∧ |m - xs.sum / xs.length| ≤ 4 * (xs.length + 1) * (M * pow2 (-53) + pow2 (-1074))) ∧
    (∃ a ∈ xs, d.minimum = .fin a ∧ ∀ x ∈ xs, a ≤ x) ∧ (∃ a ∈ xs, d.maximum = .fin a ∧ ∀ x ∈ xs, x ≤ a) := by
  obtain ⟨h1, h⟩ := b.close hM
  obtain ⟨⟨m, h2, h3⟩, _, h4, h5⟩ := h hne hlen hx
  refine ⟨h1, ⟨m, h2, ?_⟩, h4, h5⟩
  have hl : (0 : ℚ) < xs.length := by exact_mod_cast List.length_pos_iff.mpr hne
  have e : (xs.length : ℚ) * m - xs.sum = xs.length * (m - xs.sum / xs.length) := by
    rw [mul_sub, mul_div_cancel₀ _ hl.ne']
  rw [e, abs_mul, abs_of_pos hl] at h3
  refine le_of_mul_le_mul_left ?_ hl
  refine h3.trans (le_of_eq ?_)
  ring

theorem addSamples_filled {lg : F64 → F64} (xs : List ℚ) {ys : List ℚ} {d d' : Distribution F64} (hb : d.buckets ≠ .unset)
    (b : Filled lg ys d) (h : @Dist.addSamples F64 (ops lg) d (xs.map .fin) = .ok d') : Filled lg (ys ++ xs) d' := by
  induction xs generalizing d ys with
  | nil => cases h; rwa [List.append_nil]
  | cons v xs ih =>
    unfold Dist.addSamples at h
    rw [List.map_cons, List.foldlM_cons] at h
    simp only [bind, Except.bind] at h
    split at h
    · cases h
    · rename_i d1 h1
      split at h1
      · cases h1
      · rename_i r hr
        cases h1
        obtain ⟨st, d1⟩ := r
        have hst : st = .ok := by
          rcases @addSample_status F64 (ops lg) _ _ _ _ hr with h | h
          · exact h.1
          · exact absurd h.2.1 hb
        subst hst
        obtain ⟨i, c, _, _, _, hc2, _⟩ := @addSample_ok F64 (ops lg) _ _ _ hr
        have := ih (ys := ys ++ [v]) (d := d1) (by rw [hc2]; exact hb) (b.add hr) h
        rwa [List.append_assoc, List.singleton_append] at this

/-- C103 for samples added one after the other. -/
theorem C103_mean_error_partial {lg : F64 → F64} {d d' : Distribution F64} (hd : d.count = 0) (hb : d.buckets ≠ .unset) {M : ℚ}
    (hM : M ≤ pow2 900) (xs : List ℚ) (hne : xs ≠ []) (hlen : xs.length ≤ 2 ^ 40) (hx : ∀ x ∈ xs, |x| ≤ M)
    (h : @Dist.addSamples F64 (ops lg) d (xs.map .fin) = .ok d') :
    d'.count = xs.length ∧
    (∃ m, d'.mean = .fin m ∧ |m - xs.sum / xs.length| ≤ 4 * (xs.length + 1) * (M * pow2 (-53) + pow2 (-1074))) ∧
    (∃ a ∈ xs, d'.minimum = .fin a ∧ ∀ x ∈ xs, a ≤ x) ∧ (∃ a ∈ xs, d'.maximum = .fin a ∧ ∀ x ∈ xs, x ≤ a) :=
  C103_merged_error_partial hM (addSamples_filled xs hb (.init hd) h) hne hlen hx

/-- A case of `C103_merged_error_partial`: two samples merged into another two. -/
example : ∃ d, Filled id ([1, 2] ++ [3 * pow2 (-1), 0]) d ∧ d.count = 4 := by
  obtain ⟨f, hf, hf'⟩ := of_okWith (r := @Dist.addSamples F64 (ops id) twoBuckets ([3 * pow2 (-1), 0].map .fin))
    (p := fun f => okWith (@Dist.addSamples F64 (ops id) twoBuckets ([1, 2].map .fin)) fun t =>
      okWith (@Dist.merge F64 (ops id) f t) fun r => r.1 == .ok && r.2.count == 4) (by decide +kernel)
  obtain ⟨t, ht, ht'⟩ := of_okWith hf'
  obtain ⟨⟨st, r⟩, hr, hr'⟩ := of_okWith ht'
  simp only [Bool.and_eq_true, beq_iff_eq] at hr'
  obtain ⟨rfl, hc⟩ := hr'
  have h0 : twoBuckets.buckets ≠ .unset := by intro h; cases h
  exact ⟨r, .merge (addSamples_filled [3 * pow2 (-1), 0] h0 (.init rfl) hf) (addSamples_filled [1, 2] h0 (.init rfl) ht) hr, hc⟩

/-- C103: the mean need not lie between minimum and maximum: three samples, all of them 0.1. -/
theorem C103_false_outside : ∃ d, @Dist.addSamples F64 (ops id) twoBuckets [fl (1 / 10), fl (1 / 10), fl (1 / 10)] = .ok d ∧
    d.minimum = fl (1 / 10) ∧ d.maximum = fl (1 / 10) ∧ F64.lt d.maximum d.mean = true := by
  obtain ⟨d, hd, h⟩ := of_okWith (r := @Dist.addSamples F64 (ops id) twoBuckets [fl (1 / 10), fl (1 / 10), fl (1 / 10)])
    (p := fun d => d.minimum == fl (1 / 10) && d.maximum == fl (1 / 10) && F64.lt d.maximum d.mean) (by decide +kernel)
  simp only [Bool.and_eq_true, beq_iff_eq] at h
  exact ⟨d, hd, h.1.1, h.1.2, h.2⟩

/-- The hypotheses of `C103_mean_error_partial` for these three samples. -/
example : (∃ d, @Dist.addSamples F64 (ops id) twoBuckets ([7205759403792794 * pow2 (-56), 7205759403792794 * pow2 (-56),
      7205759403792794 * pow2 (-56)].map .fin) = .ok d) ∧ twoBuckets.count = 0 ∧ twoBuckets.buckets ≠ .unset ∧
    |(7205759403792794 * pow2 (-56) : ℚ)| ≤ 1 ∧ (1 : ℚ) ≤ pow2 900 := by
  refine ⟨?_, rfl, (by intro h; cases h), by decide +kernel, by decide +kernel⟩
  obtain ⟨d, hd, _⟩ := of_okWith (r := @Dist.addSamples F64 (ops id) twoBuckets ([7205759403792794 * pow2 (-56),
    7205759403792794 * pow2 (-56), 7205759403792794 * pow2 (-56)].map .fin)) (p := fun _ => true) (by decide +kernel)
  exact ⟨d, hd⟩

end Verif.Ieee
