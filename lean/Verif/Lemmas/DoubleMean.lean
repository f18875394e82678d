import Verif.Lemmas.Double
/-
Rounding to nearest, and the running mean: rounding never moves a new mean across the sample.
-/
namespace Verif.Ieee

/-- The exponent of the spacing of the doubles from `2 ^ e` on. -/
def gapExp (e : Int) : Int := max (e - 52) (-1074)

theorem roundEven_nearest (x : ℚ) (z : Int) : |(roundEven x : ℚ) - x| ≤ |(z : ℚ) - x| := by
  have h1 := Int.floor_le x
  have h2 := Int.lt_floor_add_one x
  have hz : |(z : ℚ) - x| ≥ x - ⌊x⌋ ∨ |(z : ℚ) - x| ≥ ⌊x⌋ + 1 - x := by
    rcases le_or_gt z ⌊x⌋ with h | h
    · left
      have : (z : ℚ) ≤ ⌊x⌋ := by exact_mod_cast h
      have := neg_abs_le ((z : ℚ) - x)
      linarith
    · right
      have : ((⌊x⌋ + 1 : Int) : ℚ) ≤ z := by exact_mod_cast h
      push_cast at this
      have := le_abs_self ((z : ℚ) - x)
      linarith
  rcases roundEven_cases x with ⟨h, g⟩ | ⟨h, g⟩
  · rw [h, abs_sub_comm, abs_of_nonneg (by linarith)]
    rcases hz with hz | hz <;> linarith
  · rw [h]; push_cast
    rw [abs_of_nonneg (by linarith)]
    rcases hz with hz | hz <;> linarith

/-- Doubles from `2 ^ e` on are multiples of the spacing. -/
theorem grid {d : ℚ} {e : Int} (hd : rnd d = d) (h : e < -1022 ∨ pow2 e ≤ d) : ∃ z : Int, d = z * pow2 (gapExp e) := by
  obtain ⟨m, k, hk, hm, he⟩ := rnd_form d
  rw [hd] at he
  by_cases hg : gapExp e ≤ k
  · refine ⟨m * 2 ^ (k - gapExp e).toNat, ?_⟩
    rw [he, pow2_sub_int hg]
    push_cast
    ring
  · have hke : k < e - 52 ∧ gapExp e = e - 52 := by unfold gapExp at *; omega
    rcases h with h | h
    · omega
    · rw [he, pow2_sub_int (show k ≤ e by omega)] at h
      have hp := pow2_pos k
      have h1 : ((2 ^ (e - k).toNat : Int) : ℚ) ≤ m := le_of_mul_le_mul_right h hp
      have h2 : (2 ^ (e - k).toNat : Int) ≤ m := by exact_mod_cast h1
      have h3 : (2 ^ 53 : Int) ≤ 2 ^ (e - k).toNat := by
        exact_mod_cast Nat.pow_le_pow_right (n := 2) (by omega) (show 53 ≤ (e - k).toNat by omega)
      have hm53 : m = 2 ^ 53 := by omega
      have hek : e - k = 53 := by
        by_contra hne
        have : (2 ^ 54 : Int) ≤ 2 ^ (e - k).toNat := by
          exact_mod_cast Nat.pow_le_pow_right (n := 2) (by omega) (show 54 ≤ (e - k).toNat by omega)
        omega
      refine ⟨2 ^ 52, ?_⟩
      rw [he, hm53, hke.2, show k = (e - 52) - 1 by omega]
      have := pow2_succ (e - 52 - 1)
      rw [show e - 52 - 1 + 1 = e - 52 by omega] at this
      rw [this]
      push_cast
      ring

/-- Rounding is to a nearest double. -/
theorem rnd_nearest {d : ℚ} (y : ℚ) (hd : rnd d = d) : |rnd y - y| ≤ |d - y| := by
  have pos : ∀ {y d : ℚ}, 0 < y → rnd d = d → |rnd y - y| ≤ |d - y| := by
    intro y d hy hd
    have hp := pow2_pos (ulpExp y)
    have e : rnd y = rndPos y := if_pos hy
    have mult : ∀ z : Int, |rnd y - y| ≤ |(z : ℚ) * pow2 (ulpExp y) - y| := by
      intro z
      have h := roundEven_nearest (y / pow2 (ulpExp y)) z
      have e1 : ∀ a : ℚ, a * pow2 (ulpExp y) - y = (a - y / pow2 (ulpExp y)) * pow2 (ulpExp y) := by
        intro a
        rw [sub_mul, div_mul_cancel₀ _ hp.ne']
      rw [e]
      unfold rndPos
      rw [e1, e1, abs_mul, abs_mul]
      exact mul_le_mul_of_nonneg_right h (abs_nonneg _)
    by_cases hc : expo y < -1022 ∨ pow2 (expo y) ≤ d
    · obtain ⟨z, hz⟩ := grid hd hc
      rw [hz]
      exact mult z
    · rw [not_or, not_le] at hc
      obtain ⟨h1, h2⟩ := hc
      have h3 := (expo_spec hy).1
      have h4 := mult (2 ^ (expo y - ulpExp y).toNat)
      rw [← pow2_sub_int (show ulpExp y ≤ expo y by unfold ulpExp; omega)] at h4
      refine h4.trans ?_
      rw [abs_of_nonpos (by linarith), abs_of_nonpos (by linarith)]
      linarith
  rcases lt_trichotomy y 0 with h | h | h
  · have := pos (y := -y) (d := -d) (by linarith) (by rw [rnd_neg, hd])
    rw [rnd_neg] at this
    rw [← abs_neg, ← abs_neg (d - y)]
    rw [show -(rnd y - y) = -rnd y - -y by ring, show -(d - y) = -d - -y by ring]
    exact this
  · subst h
    rw [rnd_zero, sub_self, abs_zero]
    exact abs_nonneg _
  · exact pos h hd

theorem rnd_pow2 {e : Int} (h : -1074 ≤ e) : rnd (pow2 e) = pow2 e := by
  have := rnd_exact (m := 1) (k := e) h (by decide)
  rwa [Int.cast_one, one_mul] at this

/-- The rounding error below `2 ^ (e + 1)`. -/
theorem rnd_near {y : ℚ} {e : Int} (h0 : 0 ≤ y) (h : y < pow2 (e + 1)) : |rnd y - y| ≤ pow2 (gapExp e) / 2 := by
  have hp := pow2_pos (gapExp e)
  rcases eq_or_lt_of_le h0 with h1 | h1
  · rw [← h1, rnd_zero, sub_self, abs_zero]; linarith
  · have e1 : rnd y = rndPos y := if_pos h1
    rw [e1]
    refine rndPos_err.trans ?_
    have h2 := expo_lt h1 h
    have : pow2 (ulpExp y) ≤ pow2 (gapExp e) := pow2_le (by unfold ulpExp gapExp; omega)
    linarith

theorem double_min {v : ℚ} (hv : rnd v = v) (h : 0 < v) : pow2 (-1074) ≤ v := by
  obtain ⟨z, hz⟩ := grid (e := -1023) hv (.inl (by omega))
  rw [show gapExp (-1023) = -1074 by decide] at hz
  have p := pow2_pos (-1074)
  have hm : (0 : ℚ) < z := by
    by_contra hn
    have := mul_nonpos_of_nonpos_of_nonneg (not_lt.mp hn) p.le
    linarith
  have : (1 : ℚ) ≤ z := by exact_mod_cast (show (0 : Int) < z by exact_mod_cast hm)
  nlinarith

/-- The next double is one spacing away. -/
theorem sep {a b : ℚ} {e : Int} (ha : rnd a = a) (hb : rnd b = b) (hab : a < b) (h : pow2 e ≤ a) : a + pow2 (gapExp e) ≤ b := by
  obtain ⟨x, hx⟩ := grid ha (.inr h)
  obtain ⟨y, hy⟩ := grid hb (.inr (h.trans hab.le))
  have p := pow2_pos (gapExp e)
  have hxy : x < y := by
    by_contra hn
    have h1 : (y : ℚ) ≤ x := by exact_mod_cast not_lt.mp hn
    have := mul_le_mul_of_nonneg_right h1 p.le
    linarith
  have h1 : ((x + 1 : Int) : ℚ) ≤ y := by exact_mod_cast hxy
  have h2 := mul_le_mul_of_nonneg_right h1 p.le
  push_cast at h2
  linarith

/-- The previous double of one that is not a power of two. -/
theorem pred_le {d v : ℚ} {e : Int} (hd : rnd d = d) (hv : rnd v = v) (he : -1074 ≤ e) (h : pow2 e < v) (hdv : d < v) :
    d ≤ v - pow2 (gapExp e) := by
  by_cases hc : pow2 e ≤ d
  · have := sep hd hv hdv hc
    linarith
  · have := sep (rnd_pow2 he) hv h (le_refl _)
    linarith [not_le.mp hc]

/-- The integer count and the spacing. -/
theorem count_exp {c : Int} (hc : 1 ≤ c) : ∃ i : Nat, (2 ^ i : Int) ≤ c ∧ c + 1 ≤ 2 ^ (i + 1) := by
  refine ⟨Nat.log2 c.toNat, ?_, ?_⟩
  · have := Nat.log2_self_le (n := c.toNat) (by omega)
    have h : ((2 ^ Nat.log2 c.toNat : Nat) : Int) ≤ c := by omega
    exact_mod_cast h
  · have := Nat.lt_log2_self (n := c.toNat)
    have h : c < ((2 ^ (Nat.log2 c.toNat + 1) : Nat) : Int) := by omega
    push_cast at h
    omega

theorem gap_mul (i : Nat) (e : Int) : pow2 (gapExp (i + 1 + e)) ≤ 2 * (2 ^ i : Int) * pow2 (gapExp e) := by
  have h1 : pow2 (gapExp (i + 1 + e)) ≤ pow2 ((i + 1 : Int) + gapExp e) := pow2_le (by unfold gapExp; omega)
  rw [pow2_add, pow2_succ, pow2_nat] at h1
  exact h1

variable {c : Int} {s m v : ℚ}

/-- The new mean, `((count * mean) + value) / (count + 1)`. -/
def newMean (c : Int) (m v : ℚ) : ℚ := rnd (rnd (rnd (c * m) + v) / (c + 1))

/-- The mean is a rounded quotient of a double: then the product with the count is at least as near to a double as the count times
the rounding error of the mean. -/
theorem product_near (hc : 1 ≤ c) (hs : rnd s = s) : |rnd (c * m) - c * m| ≤ c * |s / c - m| := by
  have hq : (0 : ℚ) < c := by exact_mod_cast hc
  have h := rnd_nearest (c * m) hs
  have e : s - c * m = c * (s / c - m) := by rw [mul_sub, mul_div_cancel₀ _ hq.ne']
  rw [e, abs_mul, abs_of_pos hq] at h
  exact h

theorem newMean_below (hc : 1 ≤ c) (hc2 : c + 1 ≤ 2 ^ 53) (hs : rnd s = s) (hm : m = rnd (s / c)) (hv : rnd v = v) (hv0 : 0 < v)
    (hvm : v < m) : v ≤ newMean c m v := by
  have hq : (1 : ℚ) ≤ c := by exact_mod_cast hc
  have hk0 : (0 : ℚ) < c + 1 := by linarith
  have hm0 : 0 < m := hv0.trans hvm
  have hmm : rnd m = m := by rw [hm, rnd_rnd]
  have he := expo_spec hv0
  have hemin : -1074 ≤ expo v := le_expo hv0 (double_min hv hv0)
  generalize expo v = e at he hemin
  rcases eq_or_lt_of_le he.1 with hpow | hlt
  · -- a power of two
    have h1 : rnd (c * v) = c * v := by rw [← hpow]; exact rnd_exact hemin (by omega)
    have h2 : rnd (((c + 1 : Int) : ℚ) * v) = ((c + 1 : Int) : ℚ) * v := by rw [← hpow]; exact rnd_exact hemin (by omega)
    push_cast at h2
    have h3 : c * v ≤ rnd (c * m) := by rw [← h1]; exact rnd_mono (mul_le_mul_of_nonneg_left hvm.le (by linarith))
    have h4 : (c + 1) * v ≤ rnd (rnd (c * m) + v) := by rw [← h2]; exact rnd_mono (by linarith)
    unfold newMean
    rw [← hv]
    refine rnd_mono ?_
    rw [hv, le_div_iff₀ hk0]
    linarith
  · by_contra hneg
    rw [not_le] at hneg
    have hg0 := pow2_pos (gapExp e)
    have hN : rnd (newMean c m v) = newMean c m v := rnd_rnd _
    have hN1 := pred_le hN hv hemin hlt hneg
    have hp0 : 0 ≤ rnd (c * m) := rnd_nonneg (mul_nonneg (by linarith) hm0.le)
    have hs0 : 0 ≤ rnd (rnd (c * m) + v) := rnd_nonneg (by linarith)
    have hY0 : 0 ≤ rnd (rnd (c * m) + v) / (c + 1) := div_nonneg hs0 hk0.le
    have hYv : rnd (rnd (c * m) + v) / (c + 1) < v := by
      by_contra hn
      have := rnd_mono (not_lt.mp hn)
      rw [hv] at this
      exact absurd hneg (not_lt.mpr this)
    have hYe := (abs_le.mp (rnd_near hY0 (hYv.trans he.2))).1
    have hY : rnd (rnd (c * m) + v) / (c + 1) ≤ v - pow2 (gapExp e) / 2 := by
      unfold newMean at hN1
      linarith
    rw [div_le_iff₀ hk0] at hY
    obtain ⟨i, hi1, hi2⟩ := count_exp hc
    have hi1q : ((2 ^ i : Int) : ℚ) ≤ c := by exact_mod_cast hi1
    have hi2q : (c : ℚ) + 1 ≤ ((2 ^ (i + 1) : Int) : ℚ) := by exact_mod_cast hi2
    have hB : (c + 1) * v < pow2 ((i + 1 + e : Int) + 1) := by
      rw [show ((i : Int) + 1 + e + 1) = ((i + 1 : Nat) : Int) + (e + 1) by push_cast; ring, pow2_add, pow2_nat]
      exact mul_lt_mul' hi2q he.2 hv0.le (lt_of_lt_of_le hk0 hi2q)
    have hZ : rnd (c * m) + v < pow2 ((i + 1 + e : Int) + 1) := by
      by_contra hn
      have := rnd_mono (not_lt.mp hn)
      rw [rnd_pow2 (by omega)] at this
      nlinarith
    have hSe := (abs_le.mp (rnd_near (by linarith) hZ)).1
    have hgm := gap_mul i e
    have hcg : ((2 ^ i : Int) : ℚ) * pow2 (gapExp e) ≤ c * pow2 (gapExp e) := mul_le_mul_of_nonneg_right hi1q hg0.le
    have hP : rnd (c * m) ≤ c * v + (c - 1) * pow2 (gapExp e) / 2 := by linarith
    have hmv := sep hv hmm hvm he.1
    have hgap : c * (m - v) / 2 < c * m - rnd (c * m) := by nlinarith
    have hnear := product_near (m := m) hc hs
    have hpos : 0 < c * m - rnd (c * m) := by
      have : 0 ≤ c * (m - v) / 2 := div_nonneg (mul_nonneg (by linarith) (by linarith)) (by norm_num)
      linarith
    rw [abs_sub_comm, abs_of_pos hpos] at hnear
    have hdev : (m - v) / 2 < |s / c - m| := by
      by_contra hn
      have := mul_le_mul_of_nonneg_left (not_lt.mp hn) (show (0 : ℚ) ≤ c by linarith)
      linarith
    have hnv := rnd_nearest (s / c) hv
    rw [← hm] at hnv
    rcases lt_or_ge (s / c) m with hy | hy
    · rw [abs_of_neg (by linarith)] at hdev
      rw [abs_of_pos (by linarith)] at hnv
      rcases le_total (s / c) v with h | h
      · rw [abs_of_nonneg (by linarith)] at hnv; linarith
      · rw [abs_of_nonpos (by linarith)] at hnv; linarith
    · rw [abs_of_nonneg (by linarith)] at hdev
      have he' := expo_spec hm0
      have hemin' : -1074 ≤ expo m := le_expo hm0 (double_min hmm hm0)
      generalize expo m = e' at he' hemin'
      rcases eq_or_lt_of_le he'.1 with hpow | hlt'
      · have : rnd (c * m) = c * m := by rw [← hpow]; exact rnd_exact hemin' (by omega)
        linarith
      · have hpm := pred_le hv hmm hemin' hlt' hvm
        have hylt : s / c < pow2 (e' + 1) := by
          by_contra hn
          have := rnd_mono (not_lt.mp hn)
          rw [rnd_pow2 (by omega), ← hm] at this
          linarith
        have := (abs_le.mp (rnd_near (by linarith) hylt)).1
        rw [← hm] at this
        linarith

theorem newMean_above (hc : 1 ≤ c) (hc2 : c + 1 ≤ 2 ^ 53) (hs : rnd s = s) (hm : m = rnd (s / c)) (hv : rnd v = v) (hm0 : 0 < m)
    (hvm : m < v) : newMean c m v ≤ v := by
  have hq : (1 : ℚ) ≤ c := by exact_mod_cast hc
  have hk0 : (0 : ℚ) < c + 1 := by linarith
  have hv0 : 0 < v := hm0.trans hvm
  have hmm : rnd m = m := by rw [hm, rnd_rnd]
  have he := expo_spec hv0
  have hemin : -1074 ≤ expo v := le_expo hv0 (double_min hv hv0)
  generalize expo v = e at he hemin
  rcases eq_or_lt_of_le he.1 with hpow | hlt
  · have h1 : rnd (c * v) = c * v := by rw [← hpow]; exact rnd_exact hemin (by omega)
    have h2 : rnd (((c + 1 : Int) : ℚ) * v) = ((c + 1 : Int) : ℚ) * v := by rw [← hpow]; exact rnd_exact hemin (by omega)
    push_cast at h2
    have h3 : rnd (c * m) ≤ c * v := by rw [← h1]; exact rnd_mono (mul_le_mul_of_nonneg_left hvm.le (by linarith))
    have h4 : rnd (rnd (c * m) + v) ≤ (c + 1) * v := by rw [← h2]; exact rnd_mono (by linarith)
    unfold newMean
    have h5 : rnd (rnd (c * m) + v) / (c + 1) ≤ v := by
      rw [div_le_iff₀ hk0]; linarith
    have := rnd_mono h5
    rwa [hv] at this
  · by_contra hneg
    rw [not_le] at hneg
    have hg0 := pow2_pos (gapExp e)
    have hN : rnd (newMean c m v) = newMean c m v := rnd_rnd _
    have hN1 := sep hv hN hneg he.1
    have hp0 : 0 ≤ rnd (c * m) := rnd_nonneg (mul_nonneg (by linarith) hm0.le)
    have hs0 : 0 ≤ rnd (rnd (c * m) + v) := rnd_nonneg (by linarith)
    have hY0 : 0 ≤ rnd (rnd (c * m) + v) / (c + 1) := div_nonneg hs0 hk0.le
    have hvtop := sep hv (rnd_pow2 (show -1074 ≤ e + 1 by omega)) he.2 he.1
    have hY : v + pow2 (gapExp e) / 2 ≤ rnd (rnd (c * m) + v) / (c + 1) := by
      by_contra hn
      rw [not_le] at hn
      have := (abs_le.mp (rnd_near hY0 (show rnd (rnd (c * m) + v) / (c + 1) < pow2 (e + 1) by linarith))).2
      unfold newMean at hN1
      linarith
    rw [le_div_iff₀ hk0] at hY
    obtain ⟨i, hi1, hi2⟩ := count_exp hc
    have hi1q : ((2 ^ i : Int) : ℚ) ≤ c := by exact_mod_cast hi1
    have hi2q : (c : ℚ) + 1 ≤ ((2 ^ (i + 1) : Int) : ℚ) := by exact_mod_cast hi2
    have hgm := gap_mul i e
    have hcg : ((2 ^ i : Int) : ℚ) * pow2 (gapExp e) ≤ c * pow2 (gapExp e) := mul_le_mul_of_nonneg_right hi1q hg0.le
    have hBe : pow2 ((i + 1 + e : Int) + 1) = ((2 ^ (i + 1) : Int) : ℚ) * pow2 (e + 1) := by
      rw [show ((i : Int) + 1 + e + 1) = ((i + 1 : Nat) : Int) + (e + 1) by push_cast; ring, pow2_add, pow2_nat]
    have hB : (c + 1) * (v + pow2 (gapExp e)) ≤ pow2 ((i + 1 + e : Int) + 1) := by
      rw [hBe]
      exact mul_le_mul hi2q hvtop (by linarith) (by linarith)
    have hcm : c * m < c * v := mul_lt_mul_of_pos_left hvm (by linarith)
    have hPe := (abs_le.mp (rnd_near (e := i + 1 + e) (mul_nonneg (by linarith) hm0.le) (show c * m < _ by nlinarith))).2
    have hZ : rnd (c * m) + v < pow2 ((i + 1 + e : Int) + 1) := by nlinarith
    have hSe := (abs_le.mp (rnd_near (by linarith) hZ)).2
    have hP : c * v - (c - 1) * pow2 (gapExp e) / 2 ≤ rnd (c * m) := by linarith
    have hmv := pred_le hmm hv hemin hlt hvm
    have hgap : c * (v - m) / 2 < rnd (c * m) - c * m := by nlinarith
    have hnear := product_near (m := m) hc hs
    have hpos : 0 < rnd (c * m) - c * m := by
      have : 0 ≤ c * (v - m) / 2 := div_nonneg (mul_nonneg (by linarith) (by linarith)) (by norm_num)
      linarith
    rw [abs_of_pos hpos] at hnear
    have hdev : (v - m) / 2 < |s / c - m| := by
      by_contra hn
      have := mul_le_mul_of_nonneg_left (not_lt.mp hn) (show (0 : ℚ) ≤ c by linarith)
      linarith
    have hnv := rnd_nearest (s / c) hv
    rw [← hm] at hnv
    rcases lt_or_ge m (s / c) with hy | hy
    · rw [abs_of_pos (by linarith)] at hdev
      rw [abs_of_neg (by linarith)] at hnv
      rcases le_total v (s / c) with h | h
      · rw [abs_of_nonpos (by linarith)] at hnv; linarith
      · rw [abs_of_nonneg (by linarith)] at hnv; linarith
    · rw [abs_of_nonpos (by linarith)] at hdev
      have he' := expo_spec hm0
      generalize expo m = e' at he'
      have hpm := sep hmm hv hvm he'.1
      have hy0 : 0 ≤ s / c := by
        by_contra hn
        have := rnd_mono (not_le.mp hn).le
        rw [rnd_zero, ← hm] at this
        linarith
      have := (abs_le.mp (rnd_near hy0 (lt_of_le_of_lt hy he'.2))).2
      rw [← hm] at this
      linarith

theorem newMean_neg (c : Int) (m v : ℚ) : newMean c (-m) (-v) = -newMean c m v := by
  unfold newMean
  rw [mul_neg, rnd_neg, ← neg_add, rnd_neg, neg_div, rnd_neg]

/-- A new mean is never on the other side of the sample. -/
theorem newMean_side (hc : 1 ≤ c) (hc2 : c + 1 ≤ 2 ^ 53) (hs : rnd s = s) (hm : m = rnd (s / c)) (hv : rnd v = v) :
    (v < m → v ≤ newMean c m v) ∧ (m < v → newMean c m v ≤ v) := by
  have hq : (1 : ℚ) ≤ c := by exact_mod_cast hc
  have hk0 : (0 : ℚ) < c + 1 := by linarith
  -- the sample is not positive, the mean not negative
  have mixed : ∀ {m v : ℚ}, rnd v = v → v ≤ 0 → 0 ≤ m → v ≤ newMean c m v := by
    intro m v hv hv0 hm0
    have hp0 : 0 ≤ rnd (c * m) := rnd_nonneg (mul_nonneg (by linarith) hm0)
    have h1 : v ≤ rnd (rnd (c * m) + v) := by
      have := rnd_mono (show v ≤ rnd (c * m) + v by linarith)
      rwa [hv] at this
    have h2 : v ≤ rnd (rnd (c * m) + v) / (c + 1) := by
      rw [le_div_iff₀ hk0]
      nlinarith
    have := rnd_mono h2
    rwa [hv] at this
  have hs' : rnd (-s) = -s := by rw [rnd_neg, hs]
  have hm' : -m = rnd (-s / c) := by rw [neg_div, rnd_neg, hm]
  have hv' : rnd (-v) = -v := by rw [rnd_neg, hv]
  constructor
  · intro h
    rcases lt_or_ge 0 v with h0 | h0
    · exact newMean_below hc hc2 hs hm hv h0 h
    · rcases lt_or_ge m 0 with h1 | h1
      · have := newMean_above hc hc2 hs' hm' hv' (by linarith) (by linarith)
        rw [newMean_neg] at this
        linarith
      · exact mixed hv h0 h1
  · intro h
    rcases lt_or_ge v 0 with h0 | h0
    · have := newMean_below hc hc2 hs' hm' hv' (by linarith) (by linarith)
      rw [newMean_neg] at this
      linarith
    · rcases lt_or_ge 0 m with h1 | h1
      · exact newMean_above hc hc2 hs hm hv h1 h
      · have := mixed (m := -m) hv' (by linarith) (by linarith)
        rw [newMean_neg] at this
        linarith

/-- The error of one step of the running mean, for at most `2 ^ 40` samples of at most `M`. -/
theorem mean_step {c m v S M : ℚ} (hc : 1 ≤ c) (hc2 : c ≤ 2 ^ 40) (hv : |v| ≤ M) (hS : |S| ≤ c * M)
    (hm : |c * m - S| ≤ 4 * c * (c + 1) * (M * pow2 (-53) + pow2 (-1074))) :
    |(c + 1) * rnd (rnd (rnd (c * m) + v) / (c + 1)) - (S + v)| ≤ 4 * (c + 1) * (c + 2) * (M * pow2 (-53) + pow2 (-1074)) ∧
    |c * m| ≤ (c + 1) * (2 * M + 1) ∧ |rnd (c * m) + v| ≤ (c + 1) * (2 * M + 1) * 2 ∧
    |rnd (rnd (c * m) + v) / (c + 1)| ≤ (c + 1) * (2 * M + 1) * 4 := by
  have E1 := rnd_err (c * m)
  have E2 := rnd_err (rnd (c * m) + v)
  have E3 := rnd_err (rnd (rnd (c * m) + v) / (c + 1))
  have u1 : pow2 (-53) = 1 / 2 ^ 53 := by decide +kernel
  have t0 := pow2_pos (-1075)
  have tT : pow2 (-1074) = 2 * pow2 (-1075) := by decide +kernel
  have t1 : pow2 (-1075) ≤ 1 / 2 ^ 60 := by decide +kernel
  have hM0 : 0 ≤ M := (abs_nonneg _).trans hv
  rw [tT] at hm ⊢
  rw [u1] at E1 E2 E3 hm ⊢
  generalize pow2 (-1075) = t at *
  have hk : 0 < c + 1 := by linarith
  generalize rnd (c * m) = p at *
  generalize hs : rnd (p + v) = s at *
  generalize rnd (s / (c + 1)) = q at *
  -- the product
  have A0 : 0 ≤ M * (1 / 2 ^ 53) + 2 * t := by positivity
  have h1 : |c * m| ≤ c * M + c * (M / 1024 + t * 2 ^ 44) := by
    have h2 : |c * m| ≤ |S| + |c * m - S| := by
      have := abs_add_le S (c * m - S)
      rwa [add_sub_cancel] at this
    have h3 : 4 * (c + 1) * (M * (1 / 2 ^ 53) + 2 * t) ≤ M / 1024 + t * 2 ^ 44 := by
      have : (c + 1) * (M * (1 / 2 ^ 53) + 2 * t) ≤ 2 ^ 41 * (M * (1 / 2 ^ 53) + 2 * t) :=
        mul_le_mul_of_nonneg_right (by linarith) A0
      linarith
    have h4 := mul_le_mul_of_nonneg_left h3 (show 0 ≤ c by linarith)
    linarith
  -- N = (c + 1) (2 M + 2 ^ 44 t) bounds everything
  have hY : |c * m| + |v| ≤ (c + 1) * (M * (1 + 1 / 1024) + t * 2 ^ 44) := by nlinarith
  generalize hYd : (c + 1) * (M * (1 + 1 / 1024) + t * 2 ^ 44) = Y at *
  have hYu : Y * (1 / 2 ^ 53) ≤ (c + 1) * (M * (1 / 2 ^ 53) * (1 + 1 / 1024) + t / 2 ^ 9) := by
    rw [← hYd]; apply le_of_eq; ring
  have hY0 : 0 ≤ Y := (add_nonneg (abs_nonneg _) (abs_nonneg _)).trans hY
  have av := abs_nonneg v
  have P1 : |p - c * m| ≤ Y * (1 / 2 ^ 53) + t := by
    have := mul_le_mul_of_nonneg_right (show |c * m| ≤ Y by linarith) (show (0 : ℚ) ≤ 1 / 2 ^ 53 by norm_num)
    linarith
  have P2 : |p + v| ≤ Y + Y * (1 / 2 ^ 53) + t := by
    have h2 : |p + v| ≤ |p - c * m| + |c * m + v| := by
      have := abs_add_le (p - c * m) (c * m + v)
      rwa [show p - c * m + (c * m + v) = p + v by ring] at this
    have h3 := abs_add_le (c * m) v
    linarith
  have P3 : |s - (p + v)| ≤ (Y + Y * (1 / 2 ^ 53) + t) * (1 / 2 ^ 53) + t := by
    have := mul_le_mul_of_nonneg_right P2 (show (0 : ℚ) ≤ 1 / 2 ^ 53 by norm_num)
    linarith
  have P4 : |s| ≤ 2 * Y + 3 * t := by
    have h2 : |s| ≤ |s - (p + v)| + |p + v| := by
      have := abs_add_le (s - (p + v)) (p + v)
      rwa [sub_add_cancel] at this
    linarith
  have P4' : |s| ≤ Y + 3 * (Y * (1 / 2 ^ 53)) + 3 * t := by
    have h2 : |s| ≤ |s - (p + v)| + |p + v| := by
      have := abs_add_le (s - (p + v)) (p + v)
      rwa [sub_add_cancel] at this
    linarith
  have E4 : |(c + 1) * q - s| ≤ |s| * (1 / 2 ^ 53) + (c + 1) * t := by
    have e : (c + 1) * q - s = (c + 1) * (q - s / (c + 1)) := by rw [mul_sub, mul_div_cancel₀ _ hk.ne']
    rw [e, abs_mul, abs_of_pos hk]
    have h2 := mul_le_mul_of_nonneg_left E3 hk.le
    rw [abs_div, abs_of_pos hk] at h2
    have e2 : (c + 1) * (|s| / (c + 1) * (1 / 2 ^ 53) + t) = |s| * (1 / 2 ^ 53) + (c + 1) * t := by field_simp
    rwa [e2] at h2
  have P5 : |s| * (1 / 2 ^ 53) ≤ (Y + 3 * (Y * (1 / 2 ^ 53)) + 3 * t) * (1 / 2 ^ 53) :=
    mul_le_mul_of_nonneg_right P4' (by norm_num)
  have hkt : t ≤ (c + 1) * t / 2 := by nlinarith
  have hMu0 : 0 ≤ M * (1 / 2 ^ 53) := by positivity
  have hkMu : 0 ≤ (c + 1) * (M * (1 / 2 ^ 53)) := by positivity
  have hYb : Y ≤ (c + 1) * (2 * M + 1) := by
    rw [← hYd]; exact mul_le_mul_of_nonneg_left (by linarith) hk.le
  refine ⟨?_, by linarith, ?_, ?_⟩
  · have e : (c + 1) * q - (S + v) = ((c + 1) * q - s) + (s - (p + v)) + (p - c * m) + (c * m - S) := by ring
    rw [e]
    have a1 := abs_add_le (((c + 1) * q - s) + (s - (p + v)) + (p - c * m)) (c * m - S)
    have a2 := abs_add_le (((c + 1) * q - s) + (s - (p + v))) (p - c * m)
    have a3 := abs_add_le ((c + 1) * q - s) (s - (p + v))
    have tot : |((c + 1) * q - s) + (s - (p + v)) + (p - c * m) + (c * m - S)| ≤
        4 * (Y * (1 / 2 ^ 53)) + (c + 1) * t + 3 * t + 4 * c * (c + 1) * (M * (1 / 2 ^ 53) + 2 * t) := by linarith
    refine tot.trans ?_
    have e2 : 4 * (c + 1) * (c + 2) * (M * (1 / 2 ^ 53) + 2 * t) =
      4 * c * (c + 1) * (M * (1 / 2 ^ 53) + 2 * t) + 8 * ((c + 1) * (M * (1 / 2 ^ 53))) + 16 * ((c + 1) * t) := by ring
    rw [e2]
    have e3 : (c + 1) * (M * (1 / 2 ^ 53) * (1 + 1 / 1024) + t / 2 ^ 9) =
      (c + 1) * (M * (1 / 2 ^ 53)) * (1 + 1 / 1024) + (c + 1) * t / 2 ^ 9 := by ring
    rw [e3] at hYu
    linarith
  · have : t ≤ (c + 1) * (2 * M + 1) := by nlinarith
    linarith
  · have h2 : |s / (c + 1)| ≤ |s| := by
      rw [abs_div, abs_of_pos hk]
      exact div_le_self (abs_nonneg _) (by linarith)
    have : t ≤ (c + 1) * (2 * M + 1) / 3 := by nlinarith
    linarith

end Verif.Ieee
