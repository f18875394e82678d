import Verif.Props.DoubleBuckets
import Mathlib.Analysis.SpecialFunctions.Log.Base
import Mathlib.Analysis.SpecialFunctions.Log.Deriv
import Mathlib.Analysis.Convex.SpecificFunctions.Basic
import Mathlib.Analysis.Complex.ExponentialBounds
/-
C121: the bucket of a sample in an exponential layout, computed with IEEE-754 doubles and a `log2` of bounded error.
-/
namespace Verif.Ieee
open Real

/-- `lg` gives the double nearest to the logarithm of a positive double. -/
def Nearest (lg : F64 → F64) : Prop :=
  ∀ x : ℚ, IsDouble x → 0 < x → ∃ y : ℚ, lg (.fin x) = .fin y ∧ IsDouble y ∧ ∀ z : ℚ, IsDouble z → |(y : ℝ) - logb 2 x| ≤ |(z : ℝ) - logb 2 x|

/-- `lg` gives the logarithm of a positive double up to a relative error of 2^-50. -/
def Accurate (lg : F64 → F64) : Prop :=
  ∀ x : ℚ, IsDouble x → 0 < x → ∃ y : ℚ, lg (.fin x) = .fin y ∧ |(y : ℝ) - logb 2 x| ≤ |logb 2 x| * 2⁻¹ ^ 50 + 2⁻¹ ^ 1000

/-! ### The witness -/

theorem log2_near : |log 2 - 0.693147180559945309417| ≤ 1 / 10 ^ 18 := by
  have t : |(2⁻¹ : ℝ)| = 2⁻¹ := by rw [abs_of_pos]; norm_num
  have z := Real.abs_log_sub_add_sum_range_le (show |(2⁻¹ : ℝ)| < 1 by rw [t]; norm_num) 62
  rw [t] at z
  norm_num1 at z
  rw [one_div (2 : ℝ), log_inv, ← sub_eq_add_neg, _root_.abs_sub_comm] at z
  have := abs_le.mp z
  rw [abs_le]
  constructor
  · linarith [this.1]
  · linarith [this.2]

theorem log1516_near : |log (15 / 16) + 0.064538521137571171673| ≤ 1 / 10 ^ 18 := by
  have t : |(16⁻¹ : ℝ)| = 16⁻¹ := by rw [abs_of_pos]; norm_num
  have z := Real.abs_log_sub_add_sum_range_le (show |(16⁻¹ : ℝ)| < 1 by rw [t]; norm_num) 16
  rw [t] at z
  norm_num1 at z
  have := abs_le.mp z
  rw [abs_le]
  constructor
  · linarith [this.1]
  · linarith [this.2]

theorem logb15 : logb 2 15 = 4 + log (15 / 16) / log 2 := by
  have h2 : (0 : ℝ) < log 2 := log_pos (by norm_num)
  have e : log (15 / 16) = log 15 - 4 * log 2 := by
    rw [log_div (by norm_num) (by norm_num), show (16 : ℝ) = 2 ^ 4 by norm_num, log_pow]; norm_num
  rw [logb, e]
  field_simp
  ring

theorem logb3375 : logb 2 3375 = 3 * logb 2 15 := by
  rw [show (3375 : ℝ) = 15 ^ 3 by norm_num, logb_pow]; norm_num

/-- The logarithm of 15, to 17 digits. -/
theorem logb15_near : |logb 2 15 - 3.90689059560851852938| ≤ 1 / 10 ^ 17 := by
  have h1 := abs_le.mp log2_near
  have h2 := abs_le.mp log1516_near
  have h0 : (0 : ℝ) < log 2 := log_pos (by norm_num)
  rw [logb15, abs_le]
  have e : 4 + log (15 / 16) / log 2 - 3.90689059560851852938 = (log (15 / 16) + 0.09310940439148147062 * log 2) / log 2 := by
    field_simp
    ring
  rw [e, le_div_iff₀ h0, div_le_iff₀ h0]
  constructor <;> linarith [h1.1, h1.2, h2.1, h2.2]

/-- Doubles above a power of two lie on a grid. -/
theorem double_grid {y : ℚ} {e : Int} (hy : IsDouble y) (h : pow2 e < y) : ∃ m : Int, y = m * pow2 (e - 52) := by
  obtain ⟨m, k, hk, hm, rfl, _, _⟩ := hy
  have hle : (m : ℚ) ≤ ((2 ^ 53 : Int) : ℚ) := by exact_mod_cast (by omega : m ≤ 2 ^ 53)
  have h1 : pow2 e < pow2 (53 + k) := by
    rw [pow2_add, show pow2 53 = ((2 ^ 53 : Int) : ℚ) from pow2_nat 53]
    exact lt_of_lt_of_le h (mul_le_mul_of_nonneg_right hle (pow2_pos k).le)
  have h2 : e - 52 ≤ k := by have := pow2_lt_iff.mp h1; omega
  rw [pow2_sub_int h2]
  exact ⟨m * 2 ^ (k - (e - 52)).toNat, by push_cast; ring⟩

/-- Two points of a grid that are close are equal. -/
theorem grid_eq {k m : Int} {c : ℚ} (hc : 0 < c) (h : |(k : ℚ) * c - m * c| < c) : k = m := by
  rw [← sub_mul, abs_mul, abs_of_pos hc] at h
  have h1 : |((k - m : Int) : ℚ)| < 1 := by
    push_cast
    by_contra hge
    rw [not_lt] at hge
    nlinarith
  rw [← Int.cast_abs] at h1
  have : |k - m| < 1 := by exact_mod_cast h1
  have := Int.abs_lt_one_iff.mp this
  omega

/-- What a correctly rounded logarithm is. -/
theorem nearest_eq {lg : F64 → F64} (hlg : Nearest lg) {x : ℚ} (hx : IsDouble x) (hx0 : 0 < x) (e m : Int) (hd : IsDouble (m * pow2 (e - 52)))
    (hlo : pow2 e ≤ m * pow2 (e - 52) - pow2 (e - 52)) (hc : |((m * pow2 (e - 52) : ℚ) : ℝ) - logb 2 x| < ((pow2 (e - 52) : ℚ) : ℝ) / 2) :
    lg (.fin x) = .fin (m * pow2 (e - 52)) := by
  obtain ⟨y, h1, h2, h3⟩ := hlg x hx hx0
  have h4 := h3 _ hd
  have h5 : |y - m * pow2 (e - 52)| < pow2 (e - 52) := by
    have : |(y : ℝ) - ((m * pow2 (e - 52) : ℚ) : ℝ)| < ((pow2 (e - 52) : ℚ) : ℝ) := by
      have t := abs_sub_le (y : ℝ) (logb 2 x) ((m * pow2 (e - 52) : ℚ) : ℝ)
      rw [abs_sub_comm (logb 2 (x : ℝ))] at t
      linarith
    rw [← Rat.cast_sub, ← Rat.cast_abs] at this
    exact_mod_cast this
  have h6 : pow2 e < y := by have := (abs_lt.mp h5).1; linarith
  obtain ⟨k, rfl⟩ := double_grid h2 h6
  rw [h1, grid_eq (pow2_pos _) h5]

/-- C121: even with a correctly rounded `log2`, a sample that is a bound exactly is counted below it: 3375 = 15^3. -/
theorem C121_false_bound {lg : F64 → F64} (hlg : Nearest lg) :
    @Dist.exponentialIndex F64 (ops lg) 10 (.fin 15) (.fin 1) (.fin 3375) = .ok 3 := by
  have n1 := abs_le.mp logb15_near
  have p1 : pow2 (1 - 52) = 1 / 2251799813685248 := by decide +kernel
  have p3 : pow2 (3 - 52) = 1 / 562949953421312 := by decide +kernel
  have l1 : lg (.fin 15) = .fin (8797535515279910 * pow2 (1 - 52)) := by
    have := nearest_eq hlg (x := 15) (isDouble_int (n := 15) (by decide)) (by norm_num) 1 8797535515279910
      ⟨8797535515279910, 1 - 52, by decide, by decide, rfl, by decide +kernel, by decide +kernel⟩ (by decide +kernel)
      (by rw [p1, abs_lt]; push_cast; constructor <;> linarith [n1.1, n1.2])
    exact_mod_cast this
  have l3 : lg (.fin 3375) = .fin (6598151636459932 * pow2 (3 - 52)) := by
    have := nearest_eq hlg (x := 3375) (isDouble_int (n := 3375) (by decide)) (by norm_num) 3 6598151636459932
      ⟨6598151636459932, 3 - 52, by decide, by decide, rfl, by decide +kernel, by decide +kernel⟩ (by decide +kernel)
      (by rw [p3, abs_lt]; push_cast; rw [logb3375]; constructor <;> linarith [n1.1, n1.2])
    exact_mod_cast this
  have step : @Dist.exponentialIndex F64 (ops lg) 10 (.fin 15) (.fin 1) (.fin 3375) = if F64.le (.fin 1) (.fin 3375) = true then
      (@Dist.castInt F64 (ops lg) (F64.div (lg (F64.div (.fin 3375) (.fin 1))) (lg (.fin 15)))).bind fun q => (addI32 1 q).bind fun i =>
        (addI32 10 1).bind fun last => .ok (if i > last then last else i) else .ok 0 := rfl
  rw [step, show F64.div (.fin 3375) (.fin 1) = .fin 3375 by decide +kernel, l1, l3]
  have c : @Dist.castInt F64 (ops lg) = @Dist.castInt F64 (ops id) := rfl
  rw [c]
  decide +kernel

/-- There is a correctly rounded logarithm. -/
theorem nearest_exists : ∃ lg, Nearest lg := by
  have fin : {q : ℚ | IsDouble q}.Finite := by
    obtain ⟨N, e2⟩ : ∃ N : Int, pow2 1024 = N * pow2 (-1074) := ⟨_, pow2_sub_int (by decide)⟩
    refine Set.Finite.subset ((Set.finite_Icc (-N) N).image fun m : Int => (m : ℚ) * pow2 (-1074)) ?_
    rintro q hq
    obtain ⟨m, e⟩ := isDouble_grid hq
    obtain ⟨_, _, _, _, _, h1, h2⟩ := hq
    refine ⟨m, ?_, e.symm⟩
    have hp := pow2_pos (-1074)
    rw [e2, e] at h1 h2
    have h3 := lt_of_mul_lt_mul_right h2 hp.le
    rw [← neg_mul] at h1
    have h4 := lt_of_mul_lt_mul_right h1 hp.le
    exact ⟨(by exact_mod_cast h4 : -N < m).le, (by exact_mod_cast h3 : m < N).le⟩
  have near : ∀ r : ℝ, ∃ y, IsDouble y ∧ ∀ z, IsDouble z → |(y : ℝ) - r| ≤ |(z : ℝ) - r| := by
    intro r
    obtain ⟨y, h1, h2⟩ := Set.exists_min_image _ (fun q : ℚ => |(q : ℝ) - r|) fin ⟨0, isDouble_int (n := 0) (by decide)⟩
    exact ⟨y, h1, h2⟩
  choose f hf using near
  refine ⟨fun v => match v with | .fin x => .fin (f (logb 2 x)) | v => v, fun x _ _ => ⟨_, rfl, hf _⟩⟩

/-- The logarithms of doubles. -/
theorem logb_double {x : ℚ} (hx : IsDouble x) (hx0 : 0 < x) : |logb 2 (x : ℝ)| ≤ 1074 := by
  have c : ∀ k : Int, ((pow2 k : ℚ) : ℝ) = (2 : ℝ) ^ (k : ℝ) := by
    intro k
    rw [pow2_eq]
    push_cast
    rw [← rpow_intCast]
  have hx1 : (0 : ℝ) < x := by exact_mod_cast hx0
  obtain ⟨m, e⟩ := isDouble_grid hx
  obtain ⟨_, _, _, _, _, _, h2⟩ := hx
  have hm : 1 ≤ m := by
    by_contra h
    have : (m : ℚ) ≤ 0 := by exact_mod_cast (by omega : m ≤ 0)
    have := mul_nonpos_of_nonpos_of_nonneg this (pow2_pos (-1074)).le
    linarith
  have h1 : pow2 (-1074) ≤ x := by
    rw [e]
    have : (1 : ℚ) ≤ m := by exact_mod_cast hm
    exact le_mul_of_one_le_left (pow2_pos _).le this
  have h1' : ((pow2 (-1074) : ℚ) : ℝ) ≤ x := by exact_mod_cast h1
  have h2' : (x : ℝ) ≤ ((pow2 1024 : ℚ) : ℝ) := by exact_mod_cast h2.le
  rw [c] at h1' h2'
  rw [abs_le, le_logb_iff_rpow_le (by norm_num) hx1, logb_le_iff_le_rpow (by norm_num) hx1]
  constructor
  · push_cast at h1'
    exact h1'
  · refine h2'.trans (rpow_le_rpow_of_exponent_le (by norm_num) (by norm_num))

set_option exponentiation.threshold 2000 in
/-- A correctly rounded logarithm is accurate. -/
theorem Nearest.accurate {lg : F64 → F64} (h : Nearest lg) : Accurate lg := by
  intro x hx hx0
  obtain ⟨y, h1, _, h3⟩ := h x hx hx0
  refine ⟨y, h1, ?_⟩
  have hb := logb_double hx hx0
  generalize logb 2 (x : ℝ) = r at h3 hb
  have u : ((pow2 (-53) : ℚ) : ℝ) ≤ 2⁻¹ ^ 51 := by rw [pow2_eq]; push_cast; norm_num
  have u0 : (0 : ℝ) ≤ ((pow2 (-53) : ℚ) : ℝ) := by exact_mod_cast (pow2_pos _).le
  have w : ((pow2 (-1075) : ℚ) : ℝ) ≤ 2⁻¹ ^ 1001 := by
    rw [pow2_eq]
    push_cast
    rw [show (-1075 : ℤ) = -((1075 : ℕ) : ℤ) by norm_num, zpow_neg, zpow_natCast, ← inv_pow]
    exact pow_le_pow_of_le_one (by norm_num) (by norm_num) (by norm_num)
  have d0 : (0 : ℝ) < 2⁻¹ ^ 1000 := pow_pos (by norm_num) _
  have w2 : (2 : ℝ)⁻¹ ^ 1001 = 2⁻¹ ^ 1000 / 2 := by rw [pow_succ]; ring
  have d1 : (2 : ℝ)⁻¹ ^ 1000 ≤ 2⁻¹ ^ 1 := pow_le_pow_of_le_one (by norm_num) (by norm_num) (by norm_num)
  rw [w2] at w
  generalize (2 : ℝ)⁻¹ ^ 1000 = d at d0 d1 w ⊢
  obtain ⟨q, q1, q2⟩ := exists_rat_btwn (show r < r + d / 8 by linarith)
  have hq : |q| ≤ 2000 := by
    have : |(q : ℝ)| ≤ 2000 := by
      have hb := abs_le.mp hb
      rw [abs_le]
      constructor <;> linarith
    exact_mod_cast this
  have big : (2000 : ℚ) < pow2 1024 := by decide +kernel
  have b1 : rnd q ≤ 2000 := by
    have := rnd_mono (abs_le.mp hq).2
    rwa [show rnd 2000 = 2000 from rnd_int (n := 2000) (by decide)] at this
  have b2 : -2000 ≤ rnd q := by
    have := rnd_mono (abs_le.mp hq).1
    rwa [rnd_neg, show rnd 2000 = 2000 from rnd_int (n := 2000) (by decide)] at this
  have h4 := h3 _ (rnd_isDouble (by linarith) (by linarith))
  have h5 : |((rnd q : ℚ) : ℝ) - q| ≤ |(q : ℝ)| * ((pow2 (-53) : ℚ) : ℝ) + ((pow2 (-1075) : ℚ) : ℝ) := by exact_mod_cast rnd_err q
  have h6 := abs_sub_le ((rnd q : ℚ) : ℝ) q r
  have h7 : |(q : ℝ) - r| ≤ d / 8 := by rw [abs_of_pos (by linarith)]; linarith
  have h8 : |(q : ℝ)| ≤ |r| + d / 8 := by
    have := abs_sub_abs_le_abs_sub (q : ℝ) r
    linarith
  have h9 : |(q : ℝ)| * ((pow2 (-53) : ℚ) : ℝ) ≤ (|r| + d / 8) * 2⁻¹ ^ 51 := mul_le_mul h8 u u0 (by positivity)
  have r0 := abs_nonneg r
  have e1 : (2 : ℝ)⁻¹ ^ 51 = 1 / 2251799813685248 := by norm_num
  have e2 : (2 : ℝ)⁻¹ ^ 50 = 1 / 1125899906842624 := by norm_num
  rw [e1] at h9
  rw [e2]
  nlinarith

/-! ### The error -/

/-- The quotient of logarithms, scaled back, is close to the exact logarithm. -/
theorem ratio_close {l L p y1 y2 r d : ℝ} (hl : 2⁻¹ ^ 20 ≤ l) (hl2 : l ≤ 1074) (hL0 : 0 ≤ L) (hL : L ≤ 1024) (hp : |p - L| ≤ 2⁻¹ ^ 52)
    (h1 : |y1 - p| ≤ |p| * 2⁻¹ ^ 50 + d) (h2 : |y2 - l| ≤ |l| * 2⁻¹ ^ 50 + d) (hd0 : 0 ≤ d) (hd : d ≤ 2⁻¹ ^ 80)
    (hr : |r - y1 / y2| ≤ |y1 / y2| * 2⁻¹ ^ 53 + d) : 0 < y2 ∧ |y1 / y2| ≤ 2 ^ 40 ∧ |r * l - L| ≤ 2⁻¹ ^ 37 := by
  have l0 : 0 < l := lt_of_lt_of_le (by norm_num) hl
  have hy : |y2 - l| ≤ l * 2⁻¹ ^ 49 := by
    rw [abs_of_pos l0] at h2
    norm_num at h2 hd hl ⊢
    linarith
  have hy2 : l * (1 - 2⁻¹ ^ 49) ≤ y2 := by linarith [(abs_le.mp hy).1]
  have y0 : 0 < y2 := lt_of_lt_of_le (mul_pos l0 (by norm_num)) hy2
  have q1 : |l / y2 - 1| ≤ 2⁻¹ ^ 48 := by
    rw [show l / y2 - 1 = (l - y2) / y2 by field_simp, abs_div, abs_of_pos y0, div_le_iff₀ y0, abs_sub_comm]
    have : l * 2⁻¹ ^ 49 ≤ 2⁻¹ ^ 48 * (l * (1 - 2⁻¹ ^ 49)) := by norm_num; linarith
    exact hy.trans (this.trans (mul_le_mul_of_nonneg_left hy2 (by norm_num)))
  have q2 : l / y2 ≤ 2 := by have := (abs_le.mp q1).2; norm_num at this; linarith
  have q0 : 0 < l / y2 := div_pos l0 y0
  have p1 : |p| ≤ 1025 := by
    have := abs_le.mp hp
    norm_num at this
    rw [abs_le]
    constructor <;> linarith [this.1, this.2]
  have y1L : |y1 - L| ≤ 1026 * 2⁻¹ ^ 50 := by
    have := abs_sub_le y1 p L
    norm_num at this hp h1 hd ⊢
    linarith
  have y1b : |y1| ≤ 1030 := by
    have := abs_le.mp y1L
    norm_num at this
    rw [abs_le]
    constructor <;> linarith [this.1, this.2]
  have e1 : |y1 / y2| * l ≤ 2060 := by
    rw [abs_div, abs_of_pos y0, div_mul_eq_mul_div, mul_div_assoc]
    calc |y1| * (l / y2) ≤ 1030 * 2 := mul_le_mul y1b q2 q0.le (by norm_num)
      _ = 2060 := by norm_num
  have e2 : |y1 * (l / y2) - y1| ≤ 1030 * 2⁻¹ ^ 48 := by
    rw [show y1 * (l / y2) - y1 = y1 * (l / y2 - 1) by ring, abs_mul]
    exact mul_le_mul y1b q1 (abs_nonneg _) (by norm_num)
  refine ⟨y0, ?_, ?_⟩
  · have h3 : |y1 / y2| * 2⁻¹ ^ 20 ≤ 2060 := le_trans (mul_le_mul_of_nonneg_left hl (abs_nonneg _)) e1
    norm_num at h3 ⊢
    linarith
  · have e3 : |(r - y1 / y2) * l| ≤ 2060 * 2⁻¹ ^ 53 + 1074 * d := by
      rw [abs_mul, abs_of_pos l0]
      have h4 := mul_le_mul_of_nonneg_right hr l0.le
      have h5 : d * l ≤ d * 1074 := mul_le_mul_of_nonneg_left hl2 hd0
      have h6 : (|y1 / y2| * 2⁻¹ ^ 53 + d) * l = |y1 / y2| * l * 2⁻¹ ^ 53 + d * l := by ring
      rw [h6] at h4
      have h7 := mul_le_mul_of_nonneg_right e1 (show (0 : ℝ) ≤ 2⁻¹ ^ 53 by norm_num)
      linarith
    have e4 : r * l - L = (r - y1 / y2) * l + (y1 * (l / y2) - y1) + (y1 - L) := by
      field_simp
      ring
    rw [e4]
    refine (abs_add_three _ _ _).trans ?_
    norm_num at e3 e2 y1L hd ⊢
    linarith

/-- Comparing powers by their logarithms. -/
theorem pow_le_of_log {g q e : ℝ} (k : ℤ) (hg : 0 < g) (hq : 0 < q) (e0 : 0 ≤ e) (e1 : e ≤ 1) (h : k * logb 2 g ≤ logb 2 q + e) :
    g ^ k ≤ q * (1 + e) := by
  have h1 : g ^ k = (2 : ℝ) ^ (k * logb 2 g) := by
    rw [mul_comm, rpow_mul (by norm_num), rpow_logb (by norm_num) (by norm_num) hg, rpow_intCast]
  have h2 : (2 : ℝ) ^ e ≤ 1 + e := by
    have := rpow_one_add_le_one_add_mul_self (s := 1) (by norm_num) e0 e1
    norm_num at this
    exact this
  calc g ^ k ≤ (2 : ℝ) ^ (logb 2 q + e) := by rw [h1]; exact rpow_le_rpow_of_exponent_le (by norm_num) h
    _ = q * (2 : ℝ) ^ e := by rw [rpow_add (by norm_num), rpow_logb (by norm_num) (by norm_num) hq]
    _ ≤ q * (1 + e) := mul_le_mul_of_nonneg_left h2 hq.le

theorem lt_pow_of_log {g q e : ℝ} (k : ℤ) (hg : 0 < g) (hq : 0 < q) (e0 : 0 ≤ e) (e1 : e ≤ 1) (h : logb 2 q < k * logb 2 g + e) :
    q < g ^ k * (1 + e) := by
  have h1 : g ^ k = (2 : ℝ) ^ (k * logb 2 g) := by
    rw [mul_comm, rpow_mul (by norm_num), rpow_logb (by norm_num) (by norm_num) hg, rpow_intCast]
  have h2 : (2 : ℝ) ^ e ≤ 1 + e := by
    have := rpow_one_add_le_one_add_mul_self (s := 1) (by norm_num) e0 e1
    norm_num at this
    exact this
  calc q = (2 : ℝ) ^ logb 2 q := (rpow_logb (by norm_num) (by norm_num) hq).symm
    _ < (2 : ℝ) ^ (k * logb 2 g + e) := rpow_lt_rpow_of_exponent_lt (by norm_num) h
    _ = g ^ k * (2 : ℝ) ^ e := by rw [rpow_add (by norm_num), h1]
    _ ≤ g ^ k * (1 + e) := mul_le_mul_of_nonneg_left h2 (zpow_nonneg hg.le k)

/-- The logarithm of a rounded quotient. -/
theorem log_rounded {p q : ℝ} (hq : 0 < q) (h : |p - q| ≤ q * 2⁻¹ ^ 53) : |logb 2 p - logb 2 q| ≤ 2⁻¹ ^ 52 := by
  have h1 := abs_le.mp h
  have hp : 0 < p := lt_of_lt_of_le (mul_pos hq (show (0 : ℝ) < 1 - 2⁻¹ ^ 53 by norm_num)) (by linarith [h1.1])
  have l2 : (0.69 : ℝ) ≤ log 2 := by linarith [log_two_gt_d9]
  have l0 : (0 : ℝ) < log 2 := by linarith
  rw [logb, logb, ← sub_div, ← log_div hp.ne' hq.ne', abs_div, abs_of_pos l0, div_le_iff₀ l0]
  have a1 : log (p / q) ≤ p / q - 1 := log_le_sub_one_of_pos (div_pos hp hq)
  have a2 : log (q / p) ≤ q / p - 1 := log_le_sub_one_of_pos (div_pos hq hp)
  have a3 : log (p / q) = -log (q / p) := by rw [← log_inv, inv_div]
  have b1 : p / q - 1 ≤ 2⁻¹ ^ 53 := by
    rw [sub_le_iff_le_add, div_le_iff₀ hq]
    linarith [h1.2]
  have b2 : q / p - 1 ≤ 2⁻¹ ^ 53 * 1.1 := by
    rw [sub_le_iff_le_add, div_le_iff₀ hp]
    have := h1.1
    norm_num at this ⊢
    linarith
  rw [abs_le]
  norm_num at b1 b2 ⊢
  constructor <;> linarith

/-- The sample `x` is in bucket `i` of the layout with bounds `s`, `s g`, ..., `s g^n`, up to a relative error of `e`. -/
def InBucket (n : Int) (g s x e : ℚ) (i : Int) : Prop :=
  (x < s ∧ i = 0) ∨ (s ≤ x ∧ 1 ≤ i ∧ i ≤ n + 1 ∧ s * g ^ (i - 1) ≤ x * (1 + e) ∧ (i ≤ n → x < s * g ^ i * (1 + e)))

theorem logb_growth {g : ℚ} (h : 1 + pow2 (-20) ≤ g) : 2⁻¹ ^ 20 ≤ logb 2 (g : ℝ) := by
  have h1 : (1 : ℝ) + 2⁻¹ ^ 20 ≤ g := by
    have : ((1 + pow2 (-20) : ℚ) : ℝ) ≤ g := by exact_mod_cast h
    rw [show pow2 (-20) = 1 / 1048576 by decide +kernel] at this
    push_cast at this
    norm_num at this ⊢
    linarith
  have g0 : (0 : ℝ) < g := lt_of_lt_of_le (by norm_num) h1
  have l2 : log 2 ≤ 0.7 := by linarith [log_two_lt_d9]
  have l0 : (0 : ℝ) < log 2 := by linarith [log_two_gt_d9]
  have a : log ((1 + 2⁻¹ ^ 20)⁻¹ : ℝ) ≤ (1 + 2⁻¹ ^ 20)⁻¹ - 1 := log_le_sub_one_of_pos (by norm_num)
  rw [log_inv] at a
  have b : log (1 + 2⁻¹ ^ 20 : ℝ) ≤ log g := log_le_log (by norm_num) h1
  rw [logb, le_div_iff₀ l0]
  norm_num at a b ⊢
  linarith

/-- The value `UpdateExponentialBucketCount` converts to an integer. -/
theorem exponential_ratio {lg : F64 → F64} (hlg : Accurate lg) {g s x : ℚ} (hg : IsDouble g) (hg1 : 1 + pow2 (-20) ≤ g) (hs : 0 < s)
    (hx : s ≤ x) (hov : F64.div (.fin x) (.fin s) ≠ .inf false) :
    ∃ r : ℚ, F64.div (lg (F64.div (.fin x) (.fin s))) (lg (.fin g)) = .fin r ∧
      |(r : ℝ) * logb 2 (g : ℝ) - logb 2 ((x / s : ℚ) : ℝ)| ≤ 2⁻¹ ^ 37 ∧ 0 ≤ logb 2 ((x / s : ℚ) : ℝ) ∧ logb 2 ((x / s : ℚ) : ℝ) ≤ 1024 := by
  have q1 : 1 ≤ x / s := by rw [le_div_iff₀ hs]; linarith
  have b1 : 1 ≤ rnd (x / s) := by
    have := rnd_mono q1
    rwa [show rnd 1 = 1 from rnd_int (n := 1) (by decide)] at this
  have b2 : rnd (x / s) < pow2 1024 := by
    by_contra h
    rw [not_lt] at h
    exact hov (by rw [div_fin hs.ne', fl_top h])
  have b3 : -pow2 1024 < rnd (x / s) := by have := pow2_pos 1024; linarith
  rw [div_fin hs.ne', fl_fin b3 b2]
  have hq : x / s ≤ pow2 1024 := by
    by_contra h
    rw [not_le] at h
    have := rnd_mono h.le
    have e : pow2 1024 = ((1 : Int) : ℚ) * pow2 1024 := by simp
    rw [e, rnd_exact (by decide) (by decide), ← e] at this
    linarith
  obtain ⟨y1, hy1, e1⟩ := hlg _ (rnd_isDouble b3 b2) (by linarith)
  obtain ⟨y2, hy2, e2⟩ := hlg g hg (by have := pow2_pos (-20); linarith)
  have u : ((pow2 (-53) : ℚ) : ℝ) = 2⁻¹ ^ 53 := by rw [pow2_eq]; push_cast; norm_num
  have rel : |((rnd (x / s) : ℚ) : ℝ) - ((x / s : ℚ) : ℝ)| ≤ ((x / s : ℚ) : ℝ) * 2⁻¹ ^ 53 := by
    have h := rnd_rel (q := x / s) (by
      rw [abs_of_pos (by linarith)]
      exact le_trans (by decide +kernel) q1)
    rw [abs_of_pos (show 0 < x / s by linarith)] at h
    rw [← u]
    exact_mod_cast h
  have q0 : (1 : ℝ) ≤ ((x / s : ℚ) : ℝ) := by exact_mod_cast q1
  have hL0 : 0 ≤ logb 2 ((x / s : ℚ) : ℝ) := logb_nonneg (by norm_num) q0
  have hL : logb 2 ((x / s : ℚ) : ℝ) ≤ 1024 := by
    rw [logb_le_iff_le_rpow (by norm_num) (by linarith)]
    have : ((x / s : ℚ) : ℝ) ≤ ((pow2 1024 : ℚ) : ℝ) := by exact_mod_cast hq
    rw [pow2_eq] at this
    push_cast at this
    rw [← rpow_intCast] at this
    exact_mod_cast this
  have hp := log_rounded (by linarith) rel
  have hr : |((rnd (y1 / y2) : ℚ) : ℝ) - (y1 : ℝ) / y2| ≤ |(y1 : ℝ) / y2| * 2⁻¹ ^ 53 + 2⁻¹ ^ 1000 := by
    have h : |((rnd (y1 / y2) : ℚ) : ℝ) - ((y1 / y2 : ℚ) : ℝ)| ≤ |((y1 / y2 : ℚ) : ℝ)| * ((pow2 (-53) : ℚ) : ℝ) + ((pow2 (-1075) : ℚ) : ℝ) := by
      exact_mod_cast rnd_err (y1 / y2)
    rw [u] at h
    push_cast at h
    have w : ((pow2 (-1075) : ℚ) : ℝ) ≤ 2⁻¹ ^ 1000 := by
      rw [pow2_eq]
      push_cast
      rw [show (-1075 : ℤ) = -((1075 : ℕ) : ℤ) by norm_num, zpow_neg, zpow_natCast, ← inv_pow]
      exact pow_le_pow_of_le_one (by norm_num) (by norm_num) (by norm_num)
    exact h.trans (add_le_add_right w _)
  have lg2 : logb 2 (g : ℝ) ≤ 1074 := (le_abs_self _).trans (logb_double hg (by have := pow2_pos (-20); linarith))
  obtain ⟨c0, c1, c2⟩ := ratio_close (logb_growth hg1) lg2 hL0 hL hp e1 e2 (pow_nonneg (by norm_num) _)
    (pow_le_pow_of_le_one (by norm_num) (by norm_num) (by norm_num)) hr
  have c0' : (0 : ℚ) < y2 := by exact_mod_cast c0
  have c1' : |y1 / y2| ≤ 2 ^ 40 := by exact_mod_cast c1
  have big : (2 : ℚ) ^ 40 ≤ pow2 1023 := by decide +kernel
  have c3 := abs_le.mp c1'
  refine ⟨rnd (y1 / y2), ?_, c2, hL0, hL⟩
  rw [hy1, hy2, div_fin c0'.ne']
  exact fl_bound (by linarith) (by linarith)

/-- C121: with a `log2` of bounded error, the bucket of a sample contains it up to a relative error of 2^-37, if the growth factor is at
least 1 + 2^-20 and the quotient of the sample by the scale does not overflow.  What is missing: samples at a bound. -/
theorem C121_near_partial {lg : F64 → F64} (hlg : Accurate lg) {n : Int} {g s x : ℚ} (hn0 : 0 < n) (hn : n ≤ 2 ^ 31 - 3) (hg : IsDouble g)
    (hg1 : 1 + pow2 (-20) ≤ g) (hs : 0 < s) (hov : F64.div (.fin x) (.fin s) ≠ .inf false) :
    ∃ i, @Dist.exponentialIndex F64 (ops lg) n (.fin g) (.fin s) (.fin x) = .ok i ∧ InBucket n g s x (pow2 (-37)) i := by
  have step : @Dist.exponentialIndex F64 (ops lg) n (.fin g) (.fin s) (.fin x) = if F64.le (.fin s) (.fin x) = true then
      (@Dist.castInt F64 (ops lg) (F64.div (lg (F64.div (.fin x) (.fin s))) (lg (.fin g)))).bind fun q => (addI32 1 q).bind fun i =>
        (addI32 n 1).bind fun last => .ok (if i > last then last else i) else .ok 0 := rfl
  rw [step]
  by_cases hx : s ≤ x
  case neg =>
    rw [le_fin_false.mpr (not_le.mp hx)]
    exact ⟨0, rfl, .inl ⟨not_le.mp hx, rfl⟩⟩
  obtain ⟨r, hr, hc, hL0, hL⟩ := exponential_ratio hlg hg hg1 hs hx hov
  rw [le_fin.mpr hx, if_pos rfl, hr]
  have g0 : (0 : ℝ) < g := by
    have : (0 : ℚ) < g := by have := pow2_pos (-20); linarith
    exact_mod_cast this
  have q0 : (0 : ℝ) < ((x / s : ℚ) : ℝ) := by
    have : 0 < x / s := div_pos (by linarith) hs
    exact_mod_cast this
  have hl := logb_growth hg1
  have hc := abs_le.mp hc
  have r1 : r < 2 ^ 30 + 1 := by
    by_contra h
    have h1 : (2 : ℝ) ^ 30 + 1 ≤ r := by exact_mod_cast not_lt.mp h
    have h2 : ((2 : ℝ) ^ 30 + 1) * 2⁻¹ ^ 20 ≤ r * logb 2 g := mul_le_mul h1 hl (by norm_num) (by linarith)
    have h3 := hc.2
    generalize logb 2 ((x / s : ℚ) : ℝ) = L at h3 hL
    norm_num at h2 h3
    linarith
  have r2 : -1 < r := by
    by_contra h
    have h1 : (r : ℝ) ≤ -1 := by exact_mod_cast not_lt.mp h
    have h2 : (2 : ℝ)⁻¹ ^ 20 * 1 ≤ logb 2 g * (-r) := mul_le_mul hl (by linarith) (by norm_num) (by linarith [show (0 : ℝ) ≤ 2⁻¹ ^ 20 by norm_num])
    have h3 := hc.1
    generalize logb 2 ((x / s : ℚ) : ℝ) = L at h3 hL0
    rw [show logb 2 (g : ℝ) * -r = -(r * logb 2 g) by ring] at h2
    norm_num at h2 h3
    linarith
  have t0 : 0 ≤ F64.trunc r ∧ F64.trunc r ≤ 2 ^ 30 ∧ (F64.trunc r : ℚ) ≤ max r 0 ∧ r < F64.trunc r + 1 := by
    unfold F64.trunc
    split
    · rename_i h
      have : ⌊-r⌋ = 0 := by rw [Int.floor_eq_iff]; constructor <;> (push_cast; linarith)
      rw [this]
      refine ⟨by decide, by decide, ?_, ?_⟩
      · push_cast; simp
      · push_cast; linarith
    · rename_i h
      rw [not_lt] at h
      refine ⟨Int.floor_nonneg.mpr h, ?_, (Int.floor_le r).trans (le_max_left _ _), Int.lt_floor_add_one r⟩
      have : ⌊r⌋ < 2 ^ 30 + 1 := by rw [Int.floor_lt]; push_cast; linarith
      omega
  obtain ⟨t1, t2, t3, t4⟩ := t0
  have e : @Dist.castInt F64 (ops lg) (.fin r) = .ok (F64.trunc r) := by
    show (match F64.toInt (-(2 ^ 31)) (2 ^ 31 - 1) (.fin r) with | some i => (Except.ok i : Res Int) | none => .error .badCast) = _
    have e2 : F64.toInt (-(2 ^ 31)) (2 ^ 31 - 1) (.fin r) = some (F64.trunc r) := by
      show (if -(2 ^ 31) ≤ F64.trunc r ∧ F64.trunc r ≤ 2 ^ 31 - 1 then some (F64.trunc r) else none) = _
      rw [if_pos ⟨by omega, by omega⟩]
    rw [e2]
  rw [e]
  generalize F64.trunc r = q at t1 t2 t3 t4
  have a1 : addI32 1 q = .ok (1 + q) := by
    unfold addI32; rw [if_pos]
    simp only [InI32, int32Min, int32Max]; omega
  have a2 : addI32 n 1 = .ok (n + 1) := by
    unfold addI32; rw [if_pos]
    simp only [InI32, int32Min, int32Max]; omega
  show ∃ i, (addI32 1 q).bind _ = .ok i ∧ _
  rw [a1]
  show ∃ i, (addI32 n 1).bind _ = .ok i ∧ _
  rw [a2]
  have l0 : (0 : ℝ) ≤ logb 2 (g : ℝ) := le_trans (by norm_num) hl
  have u : ((pow2 (-37) : ℚ) : ℝ) = 2⁻¹ ^ 37 := by rw [pow2_eq]; push_cast; norm_num
  have lower : ∀ k : Int, k ≤ q → s * g ^ k ≤ x * (1 + pow2 (-37)) := by
    intro k hk
    have h1 : (k : ℝ) * logb 2 g ≤ logb 2 ((x / s : ℚ) : ℝ) + 2⁻¹ ^ 37 := by
      have h2 : (k : ℝ) ≤ max (r : ℝ) 0 := by
        have : (k : ℚ) ≤ max r 0 := le_trans (by exact_mod_cast hk) t3
        exact_mod_cast this
      have h3 := mul_le_mul_of_nonneg_right h2 l0
      rcases le_total (r : ℝ) 0 with h | h
      · rw [max_eq_right h, zero_mul] at h3
        have : (0 : ℝ) ≤ 2⁻¹ ^ 37 := by norm_num
        linarith
      · rw [max_eq_left h] at h3
        linarith [hc.2]
    have h4 := pow_le_of_log k g0 q0 (by norm_num) (by norm_num) h1
    rw [← u] at h4
    have h5 : g ^ k ≤ x / s * (1 + pow2 (-37)) := by exact_mod_cast h4
    have h6 := mul_le_mul_of_nonneg_left h5 hs.le
    have h7 : s * (x / s * (1 + pow2 (-37))) = x * (1 + pow2 (-37)) := by field_simp
    linarith
  have upper : x < s * g ^ (1 + q) * (1 + pow2 (-37)) := by
    have h1 : logb 2 ((x / s : ℚ) : ℝ) < ((1 + q : Int) : ℝ) * logb 2 g + 2⁻¹ ^ 37 := by
      have h2 : (r : ℝ) < ((1 + q : Int) : ℝ) := by
        have : r < ((1 + q : Int) : ℚ) := by push_cast; linarith
        exact_mod_cast this
      have h3 := mul_lt_mul_of_pos_right h2 (lt_of_lt_of_le (show (0 : ℝ) < 2⁻¹ ^ 20 by norm_num) hl)
      linarith [hc.1]
    have h4 := lt_pow_of_log (1 + q) g0 q0 (by norm_num) (by norm_num) h1
    rw [← u] at h4
    have h5 : x / s < g ^ (1 + q) * (1 + pow2 (-37)) := by exact_mod_cast h4
    rw [div_lt_iff₀ hs] at h5
    linarith
  refine ⟨_, rfl, .inr ⟨hx, ?_, ?_, ?_, ?_⟩⟩
  · split <;> omega
  · split <;> omega
  · refine lower _ ?_
    split <;> omega
  · intro hi
    split at hi
    · omega
    · rename_i hle
      rw [if_neg hle]
      exact upper

/-- C121: `AddSample` adds one to such a bucket and leaves the others alone. -/
theorem C121_add_sample_partial {lg : F64 → F64} (hlg : Accurate lg) {n : Int} {g s x : ℚ} (hn0 : 0 < n) (hn : n ≤ 2 ^ 31 - 3)
    (hg : IsDouble g) (hg1 : 1 + pow2 (-20) ≤ g) (hs : 0 < s) (hov : F64.div (.fin x) (.fin s) ≠ .inf false) (d : Distribution F64)
    (hb : d.buckets = .exponential n (.fin g) (.fin s)) (hl : (d.bucketCounts.length : Int) = n + 2)
    (hc : 0 ≤ d.count ∧ d.count < 2 ^ 63 - 1) (hcs : ∀ c ∈ d.bucketCounts, 0 ≤ c ∧ c < 2 ^ 63 - 1) :
    ∃ d' i, @Dist.addSample F64 (ops lg) (.fin x) d = .ok (.ok, d') ∧ InBucket n g s x (pow2 (-37)) i ∧
      d'.bucketCounts.length = d.bucketCounts.length ∧
      ∀ k : Nat, d'.bucketCounts.getD k 0 = d.bucketCounts.getD k 0 + if (k : Int) = i then 1 else 0 := by
  obtain ⟨i, hi, hin⟩ := C121_near_partial hlg hn0 hn hg hg1 hs hov
  have hib : 0 ≤ i ∧ i < n + 2 := by
    rcases hin with ⟨_, rfl⟩ | ⟨_, h1, h2, _⟩ <;> omega
  have hu : ∃ d1, @Dist.updateGeneral F64 (ops lg) (.fin x) d = .ok d1 ∧ d1.bucketCounts = d.bucketCounts := by
    unfold Dist.updateGeneral
    by_cases h0 : d.count = 0
    · rw [if_pos h0]; exact ⟨_, rfl, rfl⟩
    · rw [if_neg h0, Dist.addI64_eq (show InI64 (d.count + 1) by simp only [InI64, int64Min, Verif.int64Max]; omega)]
      exact ⟨_, rfl, rfl⟩
  obtain ⟨d1, hd1, hb1⟩ := hu
  have hlt : i.toNat < d.bucketCounts.length := by omega
  have hm := hcs _ (List.getElem_mem hlt)
  have hbump : ∃ d2, Dist.bumpBucket i d1 = .ok d2 ∧ d2.bucketCounts = d.bucketCounts.set i.toNat (d.bucketCounts[i.toNat] + 1) := by
    unfold Dist.bumpBucket
    rw [if_neg (by omega), hb1, List.getElem?_eq_getElem hlt]
    show ∃ d2, (addI64 (d.bucketCounts[i.toNat]) 1).bind _ = .ok d2 ∧ _
    rw [Dist.addI64_eq (show InI64 (d.bucketCounts[i.toNat] + 1) by simp only [InI64, int64Min, Verif.int64Max]; omega)]
    exact ⟨_, rfl, rfl⟩
  obtain ⟨d2, hd2, hset⟩ := hbump
  refine ⟨d2, i, ?_, hin, ?_, fun k => ?_⟩
  · unfold Dist.addSample
    rw [hb]
    show (@Dist.updateGeneral F64 (ops lg) (.fin x) d).bind _ = _
    rw [hd1]
    show (@Dist.exponentialIndex F64 (ops lg) n (.fin g) (.fin s) (.fin x)).bind _ = _
    rw [hi]
    show (Dist.bumpBucket i d1).bind _ = _
    rw [hd2]
    rfl
  · rw [hset, List.length_set]
  · rw [hset, List.getD_eq_getElem?_getD, List.getD_eq_getElem?_getD, List.getElem?_set]
    by_cases hk : (k : Int) = i
    · have : i.toNat = k := by omega
      subst this
      rw [if_pos rfl, if_pos hlt, if_pos hk, List.getElem?_eq_getElem hlt]
      rfl
    · rw [if_neg (by omega), if_neg hk, add_zero]

/-- Corollary: the bucket is the right one, or the next one to it. -/
theorem C121_within_one_partial {n : Int} {g s x : ℚ} {i j : Int} (hg1 : 1 + pow2 (-20) ≤ g) (hs : 0 < s) (hi : InBucket n g s x (pow2 (-37)) i)
    (hj : InBucket n g s x 0 j) : |i - j| ≤ 1 := by
  have g0 : 1 < g := lt_of_lt_of_le (by decide +kernel) hg1
  have e : 1 + pow2 (-37) ≤ g := le_trans (by decide +kernel) hg1
  rcases hi with ⟨h1, rfl⟩ | ⟨h1, h2, h3, h4, h5⟩ <;> rcases hj with ⟨k1, rfl⟩ | ⟨k1, k2, k3, k4, k5⟩
  · simp
  · linarith
  · linarith
  · rw [add_zero, mul_one] at k4 k5
    have x0 : 0 < x := by linarith
    have up : ∀ k : Int, s * g ^ (k + 1) = s * g ^ k * g := fun k => by rw [zpow_add_one₀ (by linarith)]; ring
    have m : ∀ a b : Int, a ≤ b → s * g ^ a ≤ s * g ^ b := fun a b h => mul_le_mul_of_nonneg_left (zpow_le_zpow_right₀ g0.le h) hs.le
    have a1 : i ≤ j + 1 := by
      by_contra h
      have hj := k5 (by omega)
      have h6 := m (j + 1) (i - 1) (by omega)
      rw [up] at h6
      have h7 : x * (1 + pow2 (-37)) ≤ x * g := mul_le_mul_of_nonneg_left e x0.le
      have h8 : x * g < s * g ^ j * g := mul_lt_mul_of_pos_right hj (by linarith)
      linarith
    have a2 : j ≤ i + 1 := by
      by_contra h
      have hi := h5 (by omega)
      have h6 := m (i + 1) (j - 1) (by omega)
      rw [up] at h6
      have h7 : s * g ^ i * (1 + pow2 (-37)) ≤ s * g ^ i * g := mul_le_mul_of_nonneg_left e (mul_pos hs (zpow_pos (by linarith) i)).le
      linarith
    rw [abs_le]
    omega

/-- A case of C121: there is a correctly rounded `log2`, so an accurate one, and with growth factor 15 it
counts 3375 one bucket too low, which is right up to the error. -/
example : ∃ lg, Nearest lg ∧ Accurate lg ∧ IsDouble 15 ∧ 1 + pow2 (-20) ≤ (15 : ℚ) ∧ F64.div (.fin 3375) (.fin 1) ≠ .inf false ∧
    ¬ InBucket 10 15 1 3375 0 3 ∧ InBucket 10 15 1 3375 0 4 ∧ InBucket 10 15 1 3375 (pow2 (-37)) 3 := by
  obtain ⟨lg, h⟩ := nearest_exists
  have w : InBucket 10 15 1 3375 (pow2 (-37)) 3 := by
    obtain ⟨i, h1, h2⟩ := C121_near_partial h.accurate (n := 10) (g := 15) (s := 1) (x := 3375) (by decide) (by decide)
      (isDouble_int (n := 15) (by decide)) (by decide +kernel) (by norm_num) (by decide +kernel)
    rw [C121_false_bound h] at h1
    cases h1
    exact h2
  refine ⟨lg, h, h.accurate, isDouble_int (n := 15) (by decide), by decide +kernel, by decide +kernel, ?_, ?_, w⟩
  · rintro (⟨h1, _⟩ | ⟨_, _, _, _, h5⟩)
    · norm_num at h1
    · have := h5 (by decide)
      norm_num at this
  · exact .inr ⟨by norm_num, by decide, by decide, by norm_num, fun _ => by norm_num⟩

end Verif.Ieee
