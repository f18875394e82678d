import Verif.Lemmas.DoubleSsd
import Verif.Props.DoubleMean
/-
C115: how far the sum of squared deviation is from the exact one, computed with IEEE-754 doubles.
-/
namespace Verif.Ieee
open Dist DoubleOps

/-- The mean of some numbers. -/
def exactMean (xs : List ℚ) : ℚ := xs.sum / xs.length

/-- The sum of squared deviation of some numbers from their mean. -/
def exactSsd (xs : List ℚ) : ℚ := (xs.map fun x => (x - exactMean xs) ^ 2).sum

theorem shifted_squares (xs : List ℚ) (c : ℚ) :
    (xs.map fun x => (x - c) ^ 2).sum = (xs.map fun x => x ^ 2).sum - 2 * c * xs.sum + xs.length * c ^ 2 := by
  induction xs with
  | nil => simp
  | cons x xs ih =>
    simp only [List.map_cons, List.sum_cons, List.length_cons, ih]
    push_cast
    ring

theorem exactSsd_eq {xs : List ℚ} (h : xs ≠ []) : exactSsd xs = (xs.map fun x => x ^ 2).sum - xs.sum ^ 2 / xs.length := by
  have hl : (xs.length : ℚ) ≠ 0 := by exact_mod_cast (List.length_pos_iff.mpr h).ne'
  rw [exactSsd, shifted_squares, exactMean]
  field_simp
  ring

theorem exactSsd_nonneg (xs : List ℚ) : 0 ≤ exactSsd xs :=
  List.sum_nonneg fun y hy => by
    obtain ⟨x, _, rfl⟩ := List.mem_map.mp hy
    positivity

theorem squares_le {xs : List ℚ} {M : ℚ} (h : ∀ x ∈ xs, |x| ≤ M) : (xs.map fun x => x ^ 2).sum ≤ xs.length * M ^ 2 := by
  induction xs with
  | nil => simp
  | cons x xs ih =>
    simp only [List.map_cons, List.sum_cons, List.length_cons]
    have h1 := ih fun y hy => h y (List.mem_cons_of_mem _ hy)
    have h2 : x ^ 2 ≤ M ^ 2 := sq_le_sq' (abs_le.mp (h x List.mem_cons_self)).1 (abs_le.mp (h x List.mem_cons_self)).2
    push_cast
    linarith

theorem exactSsd_le {xs : List ℚ} (hne : xs ≠ []) {M : ℚ} (h : ∀ x ∈ xs, |x| ≤ M) : exactSsd xs ≤ xs.length * M ^ 2 := by
  rw [exactSsd_eq hne]
  have h1 := squares_le h
  have h2 : 0 ≤ xs.sum ^ 2 / (xs.length : ℚ) := by positivity
  linarith

theorem abs_sum_le {xs : List ℚ} {M : ℚ} (h : ∀ x ∈ xs, |x| ≤ M) : |xs.sum| ≤ xs.length * M := by
  induction xs with
  | nil => simp
  | cons x xs ih =>
    simp only [List.sum_cons, List.length_cons]
    have h1 := ih fun y hy => h y (List.mem_cons_of_mem _ hy)
    have h2 := h x List.mem_cons_self
    have := abs_add_le x xs.sum
    push_cast
    linarith

theorem exactMean_le {xs : List ℚ} (hne : xs ≠ []) {M : ℚ} (h : ∀ x ∈ xs, |x| ≤ M) : |exactMean xs| ≤ M := by
  have hl : (0 : ℚ) < xs.length := by exact_mod_cast List.length_pos_iff.mpr hne
  rw [exactMean, abs_div, abs_of_pos hl, div_le_iff₀ hl, mul_comm]
  exact abs_sum_le h

theorem exactSsd_append {xs ys : List ℚ} (hx : xs ≠ []) (hy : ys ≠ []) :
    exactSsd (xs ++ ys) = exactSsd xs + exactSsd ys +
      (xs.length : ℚ) * ys.length / (xs.length + ys.length) * (exactMean ys - exactMean xs) ^ 2 := by
  have h1 : (xs.length : ℚ) ≠ 0 := by exact_mod_cast (List.length_pos_iff.mpr hx).ne'
  have h2 : (ys.length : ℚ) ≠ 0 := by exact_mod_cast (List.length_pos_iff.mpr hy).ne'
  have h3 : (xs.length : ℚ) + ys.length ≠ 0 := by
    have : xs.length + ys.length ≠ 0 := by have := List.length_pos_iff.mpr hx; omega
    exact_mod_cast this
  rw [exactSsd_eq hx, exactSsd_eq hy, exactSsd_eq (by simp [hx]), exactMean, exactMean, List.map_append, List.sum_append, List.sum_append,
    List.length_append]
  push_cast
  field_simp
  ring

theorem exactSsd_snoc {xs : List ℚ} (hx : xs ≠ []) (v : ℚ) :
    exactSsd (xs ++ [v]) = exactSsd xs + (v - exactMean xs) * (v - exactMean (xs ++ [v])) := by
  have h1 : (xs.length : ℚ) ≠ 0 := by exact_mod_cast (List.length_pos_iff.mpr hx).ne'
  have h3 : (xs.length : ℚ) + 1 ≠ 0 := by positivity
  rw [exactSsd_append hx (by simp)]
  have e1 : exactSsd [v] = 0 := by simp [exactSsd, exactMean]
  rw [e1, exactMean, exactMean, exactMean, List.sum_append, List.length_append]
  simp only [List.sum_singleton, List.length_singleton]
  push_cast
  field_simp
  ring

/-- The error of the mean, once more. -/
theorem mean_near {M m : ℚ} {xs : List ℚ} (hne : xs ≠ []) (hT : pow2 (-1074) ≤ M * (1 / 2 ^ 53))
    (h : |xs.length * m - xs.sum| ≤ 4 * xs.length * (xs.length + 1) * (M * pow2 (-53) + pow2 (-1074))) :
    |m - exactMean xs| ≤ 8 * (xs.length + 1) * (M * (1 / 2 ^ 53)) := by
  have hl : (0 : ℚ) < xs.length := by exact_mod_cast List.length_pos_iff.mpr hne
  have u1 : pow2 (-53) = 1 / 2 ^ 53 := by decide +kernel
  have e : (xs.length : ℚ) * m - xs.sum = xs.length * (m - exactMean xs) := by
    rw [exactMean, mul_sub, mul_div_cancel₀ _ hl.ne']
  rw [e, abs_mul, abs_of_pos hl, u1] at h
  refine le_of_mul_le_mul_left ?_ hl
  refine h.trans ?_
  have := mul_le_mul_of_nonneg_left hT (show (0 : ℚ) ≤ 4 * xs.length * (xs.length + 1) by positivity)
  linarith

theorem fl_ssd {n M : ℚ} (hn : n ≤ 2 ^ 41) (hM0 : 0 ≤ M) (hM : M ≤ pow2 480) {q : ℚ} (hq : |q| ≤ n * 16 * (M ^ 2 + M + 1)) :
    fl q = .fin (rnd q) := by
  refine fl_within ?_
  have b1 : ((2 : ℚ) ^ 41 * 16 * (pow2 480 * pow2 480 + pow2 480 + 1)) ≤ pow2 1023 := by decide +kernel
  have b2 : n * (M ^ 2 + M + 1) ≤ 2 ^ 41 * (M ^ 2 + M + 1) := mul_le_mul_of_nonneg_right hn (by positivity)
  have b3 : M ^ 2 ≤ pow2 480 * pow2 480 := by rw [sq]; exact mul_le_mul hM hM hM0 (pow2_pos _).le
  linarith

theorem Filled.ssd {lg : F64 → F64} {xs : List ℚ} {d : Distribution F64} (b : Filled lg xs d) {M : ℚ} (hM1 : pow2 (-1021) ≤ M)
    (hM : M ≤ pow2 480) (hne : xs ≠ []) (hlen : xs.length ≤ 2 ^ 40) (hx : ∀ x ∈ xs, |x| ≤ M) :
    ∃ s, d.ssd = .fin s ∧ |s - exactSsd xs| ≤ 128 * xs.length ^ 2 * (M ^ 2 * (1 / 2 ^ 53) + pow2 (-1074)) := by
  have hM9 : M ≤ pow2 900 := hM.trans (by decide +kernel)
  have hT : pow2 (-1074) ≤ M * (1 / 2 ^ 53) := by
    have : pow2 (-1074) = pow2 (-1021) * (1 / 2 ^ 53) := by decide +kernel
    rw [this]
    exact mul_le_mul_of_nonneg_right hM1 (by norm_num)
  have hM0 : 0 ≤ M := (pow2_pos _).le.trans hM1
  have hM2 : 0 ≤ M ^ 2 := by positivity
  have t0 := pow2_pos (-1074)
  induction b with
  | init h => exact absurd rfl hne
  | @add xs d d' v b hr ih =>
    have hcl := (b.add hr).close hM9
    obtain ⟨m', hm', em'⟩ := (hcl.2 hne hlen hx).mean
    replace em' := mean_near hne hT em'
    have hcl0 := b.close hM9
    have hvx := hx v (by simp)
    rw [List.length_append, List.length_singleton] at hlen
    by_cases hxs : xs = []
    · subst hxs
      rcases @addSample_stats F64 (ops lg) _ _ _ _ hr with rfl | ⟨_, g1, g2, g3, _⟩ | ⟨g0, _⟩
      · have := hcl.1; have := hcl0.1; simp at *; omega
      · refine ⟨0, g3, ?_⟩
        have : exactSsd ([] ++ [v]) = 0 := by simp [exactSsd, exactMean]
        rw [this, sub_zero, abs_zero]
        exact mul_nonneg (mul_nonneg (by norm_num) (sq_nonneg _)) (add_nonneg (mul_nonneg hM2 (by norm_num)) t0.le)
      · exact absurd (by simpa using hcl0.1) g0
    · have hx' : ∀ x ∈ xs, |x| ≤ M := fun x h => hx x (by simp [h])
      have hl : 0 < xs.length := List.length_pos_iff.mpr hxs
      obtain ⟨m, hm, em⟩ := (hcl0.2 hxs (by omega) hx').mean
      replace em := mean_near hxs hT em
      obtain ⟨s, hs, es⟩ := ih hxs (by omega) hx'
      rcases @addSample_stats F64 (ops lg) _ _ _ _ hr with rfl | ⟨g0, _⟩ | ⟨g0, g1, g2, g3, _⟩
      · have h1 := hcl.1; have h2 := hcl0.1
        rw [List.length_append, List.length_singleton] at h1; push_cast at h1; omega
      · have := hcl0.1; omega
      · have hc : (1 : ℚ) ≤ xs.length := by exact_mod_cast hl
        have hc' : (xs.length : ℚ) ≤ 2 ^ 40 := by exact_mod_cast (show xs.length ≤ 2 ^ 40 by omega)
        have hμ := exactMean_le hxs hx'
        have hμ' := exactMean_le hne hx
        have d1 : |v - exactMean xs| ≤ 2 * M := by
          have := abs_sub v (exactMean xs); linarith
        have d2 : |v - exactMean (xs ++ [v])| ≤ 2 * M := by
          have := abs_sub v (exactMean (xs ++ [v])); linarith
        rw [List.length_append, List.length_singleton] at em'
        push_cast at em'
        rw [show (xs.length : ℚ) + 1 + 1 = xs.length + 2 by ring] at em'
        obtain ⟨p1, p2, p3, p4⟩ := dev_err hc hc' hT d1 d2 em em'
        have hE : |(v - exactMean xs) * (v - exactMean (xs ++ [v]))| ≤ 4 * M ^ 2 := by
          have := abs_mul_le d1 d2; linarith
        obtain ⟨q1, q2⟩ := ssd_add hc hc' (exactSsd_nonneg xs) (exactSsd_le hxs hx') es hE p1
        have hbig : ∀ q : ℚ, |q| ≤ (xs.length + 1) * 16 * (M ^ 2 + M + 1) → fl q = .fin (rnd q) :=
          fun q hq => fl_ssd (by linarith) hM0 hM hq
        have cM : M ≤ xs.length * M := le_mul_of_one_le_left hM0 hc
        have cM2 : M ^ 2 ≤ xs.length * M ^ 2 := le_mul_of_one_le_left hM2 hc
        have k1 : @DoubleOps.sub F64 (ops lg) (.fin v) (.fin m) = .fin (rnd (v - m)) := by
          rw [sub_eq_add_neg]
          exact hbig _ (by rw [← sub_eq_add_neg]; linarith)
        have k2 : @DoubleOps.sub F64 (ops lg) (.fin v) (.fin m') = .fin (rnd (v - m')) := by
          rw [sub_eq_add_neg]
          exact hbig _ (by rw [← sub_eq_add_neg]; linarith)
        have k3 : @DoubleOps.mul F64 (ops lg) (.fin (rnd (v - m))) (.fin (rnd (v - m'))) = .fin (rnd (rnd (v - m) * rnd (v - m'))) :=
          hbig _ (by linarith)
        have k4 : @DoubleOps.add F64 (ops lg) (.fin s) (.fin (rnd (rnd (v - m) * rnd (v - m')))) =
            .fin (rnd (s + rnd (rnd (v - m) * rnd (v - m')))) := hbig _ (by linarith)
        refine ⟨_, by rw [g3, hs, hm, hm', k1, k2, k3, k4], ?_⟩
        rw [exactSsd_snoc hxs, List.length_append, List.length_singleton]
        push_cast
        exact q1
  | @merge xs ys f t r bf bt hr ihf iht =>
    have hcl := (bf.merge bt hr).close hM9
    have hf := bf.close hM9
    have ht := bt.close hM9
    rcases @merge_both F64 (ops lg) _ _ _ hr with ⟨h0, rfl⟩ | ⟨h0, h1, rfl⟩ | ⟨hf0, ht0, g1, g2, _, _⟩
    · have : xs = [] := List.length_eq_zero_iff.mp (by omega)
      subst this
      rw [List.append_nil] at hne hlen hx ⊢
      exact iht hne hlen hx
    · have : ys = [] := List.length_eq_zero_iff.mp (by omega)
      subst this
      exact ihf hne hlen hx
    · rw [List.length_append] at hlen
      have hxl : 0 < xs.length := by omega
      have hyl : 0 < ys.length := by omega
      have hxn := List.length_pos_iff.mp hxl
      have hyn := List.length_pos_iff.mp hyl
      have hx1 : ∀ x ∈ xs, |x| ≤ M := fun x h => hx x (by simp [h])
      have hy1 : ∀ x ∈ ys, |x| ≤ M := fun x h => hx x (by simp [h])
      obtain ⟨⟨m, hm, ie⟩, is, _, _⟩ := ht.2 hyn (by omega) hy1
      obtain ⟨⟨k, hk, je⟩, js, _, _⟩ := hf.2 hxn (by omega) hx1
      have em := mean_near hyn hT ie
      have ek := mean_near hxn hT je
      obtain ⟨s, hs, es⟩ := iht hyn (by omega) hy1
      obtain ⟨z, hz, ez⟩ := ihf hxn (by omega) hx1
      rcases @merge_stats F64 (ops lg) _ _ _ _ hr with rfl | ⟨h0, rfl⟩ | ⟨_, _, _, _, g3⟩
      · omega
      · omega
      have ha : (1 : ℚ) ≤ ys.length := by exact_mod_cast hyl
      have hb : (1 : ℚ) ≤ xs.length := by exact_mod_cast hxl
      have hab : (ys.length : ℚ) + xs.length ≤ 2 ^ 40 := by exact_mod_cast (show ys.length + xs.length ≤ 2 ^ 40 by omega)
      have e1 : @DoubleOps.ofInt F64 (ops lg) t.count = .fin (ys.length : ℚ) := by
        rw [ht.1]
        exact ofInt_small (n := (ys.length : Int)) (by omega)
      have e2 : @DoubleOps.ofInt F64 (ops lg) f.count = .fin (xs.length : ℚ) := by
        rw [hf.1]
        exact ofInt_small (n := (xs.length : Int)) (by omega)
      have e3 : @DoubleOps.ofInt F64 (ops lg) (t.count + f.count) = .fin ((ys.length : ℚ) + xs.length) := by
        rw [ht.1, hf.1]
        have := ofInt_small (n := (ys.length : Int) + xs.length) (by omega)
        push_cast at this
        exact this
      rw [e1, e2, hm, hk, e3] at g2
      rw [e1, e2, hm, hk, hs, hz] at g3
      have hμ := exactMean_le hyn hy1
      have hν := exactMean_le hxn hx1
      have hQ0 := exactSsd_nonneg ys
      have hQ := exactSsd_le hyn hy1
      have hR0 := exactSsd_nonneg xs
      have hR := exactSsd_le hxn hx1
      rw [exactSsd_append hyn hxn, List.length_append]
      push_cast
      obtain ⟨s1, s2, s3, s4, s5⟩ := merge_step ha hb hab is js ie je
      clear hm hk hs hz hr ihf iht hcl hf ht bf bt hlen hxl hyl e1 e2 e3 is js ie je s1
      generalize (ys.length : ℚ) = a at *
      generalize (xs.length : ℚ) = b at *
      generalize exactMean ys = μ at *
      generalize exactMean xs = ν at *
      generalize exactSsd ys = Q at *
      generalize exactSsd xs = R at *
      have hN : 0 ≤ (a + b) * (2 * M + 1) := mul_nonneg (by linarith) (by linarith)
      have hbig : ∀ q : ℚ, |q| ≤ (a + b) * (2 * M + 1) * 4 → fl q = .fin (rnd q) :=
        fun q hq => fl_mean (by linarith) hM0 hM9 hq
      have hbig2 : ∀ q : ℚ, |q| ≤ (a + b) * 16 * (M ^ 2 + M + 1) → fl q = .fin (rnd q) :=
        fun q hq => fl_ssd (by linarith) hM0 hM hq
      have hmean : r.mean = .fin (rnd (rnd (rnd (a * m) + rnd (b * k)) / (a + b))) := by
        rw [g2]
        have m1 : @DoubleOps.mul F64 (ops lg) (.fin a) (.fin m) = .fin (rnd (a * m)) := hbig _ (by linarith)
        have m2 : @DoubleOps.mul F64 (ops lg) (.fin b) (.fin k) = .fin (rnd (b * k)) := hbig _ (by linarith)
        have m3 : @DoubleOps.add F64 (ops lg) (.fin (rnd (a * m))) (.fin (rnd (b * k))) =
            .fin (rnd (rnd (a * m) + rnd (b * k))) := hbig _ (by linarith)
        have m4 : @DoubleOps.div F64 (ops lg) (.fin (rnd (rnd (a * m) + rnd (b * k)))) (.fin (a + b)) =
            .fin (rnd (rnd (rnd (a * m) + rnd (b * k)) / (a + b))) := by
          have : F64.div (.fin (rnd (rnd (a * m) + rnd (b * k)))) (.fin (a + b)) = _ := div_fin (by linarith)
          exact this.trans (hbig _ s5)
        rw [m1, m2, m3, m4]
      obtain ⟨o1, o2, o3, o4, ⟨o5, o6, o7⟩, ⟨o8, o9, o10⟩⟩ := ssd_merge_all ha hb hab hT hμ hν em ek hQ0 hQ hR0 hR es ez rfl
      rw [hmean] at g3
      generalize rnd (rnd (rnd (a * m) + rnd (b * k)) / (a + b)) = q at *
      have aM : M ≤ a * M := le_mul_of_one_le_left hM0 ha
      have bM : M ≤ b * M := le_mul_of_one_le_left hM0 hb
      have aM2 : M ^ 2 ≤ a * M ^ 2 := le_mul_of_one_le_left hM2 ha
      have bM2 : M ^ 2 ≤ b * M ^ 2 := le_mul_of_one_le_left hM2 hb
      have k1 : @DoubleOps.sub F64 (ops lg) (.fin q) (.fin m) = .fin (rnd (q - m)) := by
        rw [sub_eq_add_neg]
        exact hbig2 _ (by rw [← sub_eq_add_neg]; linarith)
      have k2 : @DoubleOps.sub F64 (ops lg) (.fin q) (.fin k) = .fin (rnd (q - k)) := by
        rw [sub_eq_add_neg]
        exact hbig2 _ (by rw [← sub_eq_add_neg]; linarith)
      rw [k1, k2] at g3
      generalize rnd (q - m) = x at *
      generalize rnd (q - k) = y at *
      have k3 : @DoubleOps.mul F64 (ops lg) (.fin a) (.fin x) = .fin (rnd (a * x)) := hbig2 _ (by linarith)
      have k4 : @DoubleOps.mul F64 (ops lg) (.fin b) (.fin y) = .fin (rnd (b * y)) := hbig2 _ (by linarith)
      rw [k3, k4] at g3
      have k5 : @DoubleOps.mul F64 (ops lg) (.fin (rnd (a * x))) (.fin x) = .fin (rnd (rnd (a * x) * x)) := hbig2 _ (by linarith)
      have k6 : @DoubleOps.mul F64 (ops lg) (.fin (rnd (b * y))) (.fin y) = .fin (rnd (rnd (b * y) * y)) := hbig2 _ (by linarith)
      rw [k5, k6] at g3
      generalize rnd (rnd (a * x) * x) = x at *
      generalize rnd (rnd (b * y) * y) = y at *
      have k7 : @DoubleOps.add F64 (ops lg) (.fin s) (.fin z) = .fin (rnd (s + z)) := hbig2 _ (by linarith)
      rw [k7] at g3
      have k8 : @DoubleOps.add F64 (ops lg) (.fin (rnd (s + z))) (.fin x) = .fin (rnd (rnd (s + z) + x)) := hbig2 _ (by linarith)
      rw [k8] at g3
      have k9 : @DoubleOps.add F64 (ops lg) (.fin (rnd (rnd (s + z) + x))) (.fin y) = .fin (rnd (rnd (rnd (s + z) + x) + y)) :=
        hbig2 _ (by linarith)
      rw [k9] at g3
      exact ⟨_, g3, o1⟩

/-- C115: however `AddSample` and `Merge` filled a distribution, the sum of squared deviation of at most `2 ^ 40` samples of at most `M`
differs from the exact one by at most `128 n ^ 2 (M ^ 2 2 ^ -53 + 2 ^ -1074)`. -/
theorem C115_ssd_error_partial {lg : F64 → F64} {xs : List ℚ} {d : Distribution F64} (b : Filled lg xs d) {M : ℚ}
    (hM1 : pow2 (-1021) ≤ M) (hM : M ≤ pow2 480) (hne : xs ≠ []) (hlen : xs.length ≤ 2 ^ 40) (hx : ∀ x ∈ xs, |x| ≤ M) :
    ∃ s, d.ssd = .fin s ∧ |s - exactSsd xs| ≤ 128 * xs.length ^ 2 * (M ^ 2 * pow2 (-53) + pow2 (-1074)) := by
  have u1 : pow2 (-53) = 1 / 2 ^ 53 := by decide +kernel
  rw [u1]
  exact b.ssd hM1 hM hne hlen hx

/-- A case of `C115_ssd_error_partial`: two samples merged into another two.  Every number
on the way is a double, so the sum is exact. -/
example : ∃ d, Filled id ([1, 2] ++ [3 * pow2 (-1), 0]) d ∧ d.ssd = .fin (exactSsd ([1, 2] ++ [3 * pow2 (-1), 0])) := by
  obtain ⟨f, hf, hf'⟩ := of_okWith (r := @Dist.addSamples F64 (ops id) twoBuckets ([3 * pow2 (-1), 0].map .fin))
    (p := fun f => okWith (@Dist.addSamples F64 (ops id) twoBuckets ([1, 2].map .fin)) fun t =>
      okWith (@Dist.merge F64 (ops id) f t) fun r => r.1 == .ok && r.2.ssd == .fin (exactSsd ([1, 2] ++ [3 * pow2 (-1), 0]))) (by decide +kernel)
  obtain ⟨t, ht, ht'⟩ := of_okWith hf'
  obtain ⟨⟨st, r⟩, hr, hr'⟩ := of_okWith ht'
  simp only [Bool.and_eq_true, beq_iff_eq] at hr'
  obtain ⟨rfl, hc⟩ := hr'
  have h0 : twoBuckets.buckets ≠ .unset := by intro h; cases h
  exact ⟨r, .merge (addSamples_filled [3 * pow2 (-1), 0] h0 (.init rfl) hf) (addSamples_filled [1, 2] h0 (.init rfl) ht) hr, hc⟩

/-- C115: the error is not small compared with the sum: seven samples, all of them 0.174, have a positive sum of squared deviation. -/
theorem C115_false_equal : ∃ d, @Dist.addSamples F64 (ops id) twoBuckets (List.replicate 7 (fl (174 / 1000))) = .ok d ∧
    F64.lt (.fin 0) d.ssd = true ∧ d.minimum = d.maximum := by
  obtain ⟨d, hd, h⟩ := of_okWith (r := @Dist.addSamples F64 (ops id) twoBuckets (List.replicate 7 (fl (174 / 1000))))
    (p := fun d => F64.lt (.fin 0) d.ssd && d.minimum == d.maximum) (by decide +kernel)
  simp only [Bool.and_eq_true, beq_iff_eq] at h
  exact ⟨d, hd, h⟩

/-- C115: the sum of squared deviation of samples that differ can be zero. -/
theorem C115_false_zero : ∃ d, @Dist.addSamples F64 (ops id) twoBuckets [.fin (1 + pow2 (-52)), .fin (1 + pow2 (-51)), .fin (1 + pow2 (-51))] = .ok d ∧
    d.ssd = .fin 0 ∧ d.minimum = .fin (1 + pow2 (-52)) ∧ d.maximum = .fin (1 + pow2 (-51)) := by
  obtain ⟨d, hd, h⟩ := of_okWith (r := @Dist.addSamples F64 (ops id) twoBuckets [.fin (1 + pow2 (-52)), .fin (1 + pow2 (-51)), .fin (1 + pow2 (-51))])
    (p := fun d => d.ssd == .fin 0 && d.minimum == .fin (1 + pow2 (-52)) && d.maximum == .fin (1 + pow2 (-51))) (by decide +kernel)
  simp only [Bool.and_eq_true, beq_iff_eq] at h
  exact ⟨d, hd, h.1.1, h.1.2, h.2⟩

end Verif.Ieee
