import Verif.Lemmas.DoubleMean
/-
The error of the mean that `Merge` computes.
-/
namespace Verif.Ieee

/-- A sum that is off by at most the error kept, for at most `2 ^ 40` samples of at most `M`. -/
theorem sum_bound {c m S M t : ℚ} (hc : 1 ≤ c) (hc2 : c ≤ 2 ^ 40) (hM : 0 ≤ M) (ht : 0 ≤ t) (hS : |S| ≤ c * M)
    (hm : |c * m - S| ≤ 4 * c * (c + 1) * (M * (1 / 2 ^ 53) + 2 * t)) :
    |c * m| ≤ c * (M * (1 + 1 / 1024) + t * 2 ^ 44) := by
  have A0 : 0 ≤ M * (1 / 2 ^ 53) + 2 * t := by positivity
  have h2 : |c * m| ≤ |S| + |c * m - S| := by
    have := abs_add_le S (c * m - S)
    rwa [add_sub_cancel] at this
  have h3 : 4 * (c + 1) * (M * (1 / 2 ^ 53) + 2 * t) ≤ M / 1024 + t * 2 ^ 44 := by
    have : (c + 1) * (M * (1 / 2 ^ 53) + 2 * t) ≤ 2 ^ 41 * (M * (1 / 2 ^ 53) + 2 * t) :=
      mul_le_mul_of_nonneg_right (by linarith) A0
    linarith
  have h4 := mul_le_mul_of_nonneg_left h3 (show 0 ≤ c by linarith)
  linarith

/-- The error of the mean of two distributions of `a` and `b` samples, together at most `2 ^ 40`. -/
theorem merge_step {a b m k S T M : ℚ} (ha : 1 ≤ a) (hb : 1 ≤ b) (hab : a + b ≤ 2 ^ 40) (hS : |S| ≤ a * M) (hT : |T| ≤ b * M)
    (hm : |a * m - S| ≤ 4 * a * (a + 1) * (M * pow2 (-53) + pow2 (-1074)))
    (hk : |b * k - T| ≤ 4 * b * (b + 1) * (M * pow2 (-53) + pow2 (-1074))) :
    |(a + b) * rnd (rnd (rnd (a * m) + rnd (b * k)) / (a + b)) - (S + T)| ≤
      4 * (a + b) * (a + b + 1) * (M * pow2 (-53) + pow2 (-1074)) ∧
    |a * m| ≤ (a + b) * (2 * M + 1) ∧ |b * k| ≤ (a + b) * (2 * M + 1) ∧
    |rnd (a * m) + rnd (b * k)| ≤ (a + b) * (2 * M + 1) * 2 ∧
    |rnd (rnd (a * m) + rnd (b * k)) / (a + b)| ≤ (a + b) * (2 * M + 1) * 4 := by
  have E0 := rnd_err (a * m)
  have E1 := rnd_err (b * k)
  have E2 := rnd_err (rnd (a * m) + rnd (b * k))
  have E3 := rnd_err (rnd (rnd (a * m) + rnd (b * k)) / (a + b))
  have u1 : pow2 (-53) = 1 / 2 ^ 53 := by decide +kernel
  have t0 := pow2_pos (-1075)
  have tT : pow2 (-1074) = 2 * pow2 (-1075) := by decide +kernel
  have t1 : pow2 (-1075) ≤ 1 / 2 ^ 60 := by decide +kernel
  have hM0 : 0 ≤ M := by
    have := (abs_nonneg _).trans hS
    exact nonneg_of_mul_nonneg_right this (by linarith)
  have hN1 : 1 ≤ (a + b) * (2 * M + 1) := one_le_mul_of_one_le_of_one_le (by linarith) (by linarith)
  have hprod : a + b ≤ 2 * (a * b) := by
    have g1 := mul_le_mul_of_nonneg_left hb (show 0 ≤ a by linarith)
    have g2 := mul_le_mul_of_nonneg_right ha (show 0 ≤ b by linarith)
    linarith
  rw [tT] at hm hk ⊢
  rw [u1] at E0 E1 E2 E3 hm hk ⊢
  generalize pow2 (-1075) = t at *
  have hn : 0 < a + b := by linarith
  generalize rnd (a * m) = p at *
  generalize rnd (b * k) = r at *
  generalize hs : rnd (p + r) = s at *
  generalize rnd (s / (a + b)) = q at *
  have h1 := sum_bound ha (by linarith) hM0 t0.le hS hm
  have h2 := sum_bound hb (by linarith) hM0 t0.le hT hk
  have hY : |a * m| + |b * k| ≤ (a + b) * (M * (1 + 1 / 1024) + t * 2 ^ 44) := by linarith
  generalize hYd : (a + b) * (M * (1 + 1 / 1024) + t * 2 ^ 44) = Y at *
  have hYu : Y * (1 / 2 ^ 53) ≤ (a + b) * (M * (1 / 2 ^ 53) * (1 + 1 / 1024) + t / 2 ^ 9) := by
    rw [← hYd]; apply le_of_eq; ring
  have hY0 : 0 ≤ Y := (add_nonneg (abs_nonneg _) (abs_nonneg _)).trans hY
  have am := abs_nonneg (a * m)
  have bk := abs_nonneg (b * k)
  have P1 : |p - a * m| + |r - b * k| ≤ Y * (1 / 2 ^ 53) + 2 * t := by
    have := mul_le_mul_of_nonneg_right hY (show (0 : ℚ) ≤ 1 / 2 ^ 53 by norm_num)
    linarith
  have P2 : |p + r| ≤ Y + Y * (1 / 2 ^ 53) + 2 * t := by
    have g1 := abs_add_le (p - a * m + (r - b * k)) (a * m + b * k)
    rw [show p - a * m + (r - b * k) + (a * m + b * k) = p + r by ring] at g1
    have g2 := abs_add_le (p - a * m) (r - b * k)
    have g3 := abs_add_le (a * m) (b * k)
    linarith
  have P3 : |s - (p + r)| ≤ (Y + Y * (1 / 2 ^ 53) + 2 * t) * (1 / 2 ^ 53) + t := by
    have := mul_le_mul_of_nonneg_right P2 (show (0 : ℚ) ≤ 1 / 2 ^ 53 by norm_num)
    linarith
  have P4 : |s| ≤ Y + 3 * (Y * (1 / 2 ^ 53)) + 4 * t := by
    have g1 := abs_add_le (s - (p + r)) (p + r)
    rw [sub_add_cancel] at g1
    linarith
  have E4 : |(a + b) * q - s| ≤ |s| * (1 / 2 ^ 53) + (a + b) * t := by
    have e : (a + b) * q - s = (a + b) * (q - s / (a + b)) := by rw [mul_sub, mul_div_cancel₀ _ hn.ne']
    rw [e, abs_mul, abs_of_pos hn]
    have g1 := mul_le_mul_of_nonneg_left E3 hn.le
    rw [abs_div, abs_of_pos hn] at g1
    have e2 : (a + b) * (|s| / (a + b) * (1 / 2 ^ 53) + t) = |s| * (1 / 2 ^ 53) + (a + b) * t := by field_simp
    rwa [e2] at g1
  have P5 : |s| * (1 / 2 ^ 53) ≤ (Y + 3 * (Y * (1 / 2 ^ 53)) + 4 * t) * (1 / 2 ^ 53) :=
    mul_le_mul_of_nonneg_right P4 (by norm_num)
  have hkt : t ≤ (a + b) * t / 2 := by
    have := mul_le_mul_of_nonneg_right (show 2 ≤ a + b by linarith) t0.le
    linarith
  have hMu0 : 0 ≤ M * (1 / 2 ^ 53) := by positivity
  have hkMu : 0 ≤ (a + b) * (M * (1 / 2 ^ 53)) := by positivity
  have hYb : Y ≤ (a + b) * (2 * M + 1) := by
    rw [← hYd]; exact mul_le_mul_of_nonneg_left (by linarith) hn.le
  refine ⟨?_, by linarith, by linarith, ?_, ?_⟩
  · have e : (a + b) * q - (S + T) =
      ((a + b) * q - s) + (s - (p + r)) + ((p - a * m) + (r - b * k)) + ((a * m - S) + (b * k - T)) := by ring
    rw [e]
    have a1 := abs_add_le (((a + b) * q - s) + (s - (p + r)) + ((p - a * m) + (r - b * k))) ((a * m - S) + (b * k - T))
    have a2 := abs_add_le (((a + b) * q - s) + (s - (p + r))) ((p - a * m) + (r - b * k))
    have a3 := abs_add_le ((a + b) * q - s) (s - (p + r))
    have a4 := abs_add_le (p - a * m) (r - b * k)
    have a5 := abs_add_le (a * m - S) (b * k - T)
    have tot : |((a + b) * q - s) + (s - (p + r)) + ((p - a * m) + (r - b * k)) + ((a * m - S) + (b * k - T))| ≤
        (3 + 1 / 100) * (Y * (1 / 2 ^ 53)) + (a + b) * t + 4 * t + (4 * a * (a + 1) * (M * (1 / 2 ^ 53) + 2 * t) +
        4 * b * (b + 1) * (M * (1 / 2 ^ 53) + 2 * t)) := by linarith
    refine tot.trans ?_
    have A0 : 0 ≤ M * (1 / 2 ^ 53) + 2 * t := by positivity
    have slack := mul_le_mul_of_nonneg_right hprod A0
    have e2 : 4 * (a + b) * (a + b + 1) * (M * (1 / 2 ^ 53) + 2 * t) =
      4 * a * (a + 1) * (M * (1 / 2 ^ 53) + 2 * t) + 4 * b * (b + 1) * (M * (1 / 2 ^ 53) + 2 * t) +
        4 * (2 * (a * b) * (M * (1 / 2 ^ 53) + 2 * t)) := by ring
    rw [e2]
    have e3 : (a + b) * (M * (1 / 2 ^ 53) * (1 + 1 / 1024) + t / 2 ^ 9) =
      (a + b) * (M * (1 / 2 ^ 53)) * (1 + 1 / 1024) + (a + b) * t / 2 ^ 9 := by ring
    rw [e3] at hYu
    have e4 : (a + b) * (M * (1 / 2 ^ 53) + 2 * t) = (a + b) * (M * (1 / 2 ^ 53)) + 2 * ((a + b) * t) := by ring
    rw [e4] at slack
    linarith
  · linarith
  · have h5 : |s / (a + b)| ≤ |s| := by
      rw [abs_div, abs_of_pos hn]
      exact div_le_self (abs_nonneg _) (by linarith)
    linarith

end Verif.Ieee
