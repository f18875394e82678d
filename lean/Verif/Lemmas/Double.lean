import Verif.Model.Double
import Mathlib.Tactic.Linarith
import Mathlib.Tactic.Ring
import Mathlib.Tactic.FieldSimp
import Mathlib.Tactic.NormNum
import Mathlib.Tactic.Positivity
/-
Rounding to a double: monotone, exact on doubles, relative error at most 2^-53.
-/
namespace Verif.Ieee

theorem pow2_eq (k : Int) : pow2 k = (2 : ℚ) ^ k := by
  cases k with
  | ofNat n => simp [pow2]
  | negSucc n => simp [pow2, zpow_negSucc]

theorem pow2_pos (k : Int) : 0 < pow2 k := by rw [pow2_eq]; exact zpow_pos (by norm_num) k

theorem pow2_add (a b : Int) : pow2 (a + b) = pow2 a * pow2 b := by
  simp only [pow2_eq]; exact zpow_add₀ (by norm_num) a b

theorem pow2_succ (a : Int) : pow2 (a + 1) = 2 * pow2 a := by
  rw [pow2_add, show pow2 1 = 2 by decide +kernel]; ring

theorem pow2_le {a b : Int} (h : a ≤ b) : pow2 a ≤ pow2 b := by
  simp only [pow2_eq]; exact zpow_le_zpow_right₀ (by norm_num) h

theorem pow2_lt {a b : Int} (h : a < b) : pow2 a < pow2 b := by
  simp only [pow2_eq]; exact zpow_lt_zpow_right₀ (by norm_num) h

theorem pow2_lt_iff {a b : Int} : pow2 a < pow2 b ↔ a < b := by
  simp only [pow2_eq]; exact zpow_lt_zpow_iff_right₀ (by norm_num)

theorem pow2_nat (n : Nat) : pow2 n = ((2 ^ n : Int) : ℚ) := by
  show (((2 ^ n : Nat)) : ℚ) = _
  push_cast; rfl

theorem pow2_sub_int {a b : Int} (h : b ≤ a) : pow2 a = ((2 ^ (a - b).toNat : Int) : ℚ) * pow2 b := by
  rw [← pow2_nat, Int.toNat_of_nonneg (by omega), ← pow2_add]
  congr 1; omega

/-! ### The exponent -/

theorem expo_spec {q : ℚ} (h : 0 < q) : pow2 (expo q) ≤ q ∧ q < pow2 (expo q + 1) := by
  have hn : 0 < q.num := Rat.num_pos.mpr h
  have hd : 0 < q.den := q.den_pos
  have hq : q = (q.num.natAbs : ℚ) / (q.den : ℚ) := by
    conv_lhs => rw [← Rat.num_div_den q]
    congr 1
    have : q.num = (q.num.natAbs : Int) := by omega
    conv_lhs => rw [this]
    simp
  have ha1 : 2 ^ Nat.log2 q.num.natAbs ≤ q.num.natAbs := Nat.log2_self_le (by omega)
  have ha2 : q.num.natAbs < 2 ^ (Nat.log2 q.num.natAbs + 1) := Nat.lt_log2_self
  have hb1 : 2 ^ Nat.log2 q.den ≤ q.den := Nat.log2_self_le (by omega)
  have hb2 : q.den < 2 ^ (Nat.log2 q.den + 1) := Nat.lt_log2_self
  generalize ha : Nat.log2 q.num.natAbs = a at *
  generalize hb : Nat.log2 q.den = b at *
  generalize hnn : q.num.natAbs = n at *
  generalize hdd : q.den = d at *
  have hd' : (0 : ℚ) < d := by exact_mod_cast hd
  have e1 : pow2 (a : Int) ≤ n := by rw [pow2_nat]; exact_mod_cast ha1
  have e2 : (n : ℚ) < pow2 ((a : Int) + 1) := by
    have : ((a : Int) + 1) = ((a + 1 : Nat) : Int) := by push_cast; rfl
    rw [this, pow2_nat]; exact_mod_cast ha2
  have e3 : pow2 (b : Int) ≤ d := by rw [pow2_nat]; exact_mod_cast hb1
  have e4 : (d : ℚ) < pow2 ((b : Int) + 1) := by
    have : ((b : Int) + 1) = ((b + 1 : Nat) : Int) := by push_cast; rfl
    rw [this, pow2_nat]; exact_mod_cast hb2
  have hlow : pow2 ((a : Int) - b - 1) ≤ q := by
    rw [hq, le_div_iff₀ hd']
    refine le_trans ?_ e1
    have : pow2 (a : Int) = pow2 ((a : Int) - b - 1) * pow2 ((b : Int) + 1) := by rw [← pow2_add]; congr 1; omega
    rw [this]
    exact mul_le_mul_of_nonneg_left e4.le (pow2_pos _).le
  have hhigh : q < pow2 ((a : Int) - b + 1) := by
    rw [hq, div_lt_iff₀ hd']
    refine lt_of_lt_of_le e2 ?_
    have : pow2 ((a : Int) + 1) = pow2 ((a : Int) - b + 1) * pow2 (b : Int) := by rw [← pow2_add]; congr 1; omega
    rw [this]
    exact mul_le_mul_of_nonneg_left e3 (pow2_pos _).le
  unfold expo
  simp only [hnn, hdd, ha, hb]
  split
  · rename_i hle; exact ⟨hle, hhigh⟩
  · rename_i hle
    rw [not_le] at hle
    refine ⟨hlow, ?_⟩
    rw [show (a : Int) - b - 1 + 1 = a - b by omega]
    exact hle

theorem expo_mono {p q : ℚ} (hp : 0 < p) (h : p ≤ q) : expo p ≤ expo q := by
  by_contra hn
  have h1 := (expo_spec hp).1
  have h2 := (expo_spec (lt_of_lt_of_le hp h)).2
  have h3 : pow2 (expo q + 1) ≤ pow2 (expo p) := pow2_le (by omega)
  linarith

theorem expo_lt {q : ℚ} (h : 0 < q) {k : Int} (hk : q < pow2 k) : expo q < k :=
  pow2_lt_iff.mp (lt_of_le_of_lt (expo_spec h).1 hk)

theorem le_expo {q : ℚ} (h : 0 < q) {k : Int} (hk : pow2 k ≤ q) : k ≤ expo q := by
  have := pow2_lt_iff.mp (lt_of_le_of_lt hk (expo_spec h).2)
  omega

/-! ### Rounding to integers -/

theorem roundEven_low {x : ℚ} (h : x - ⌊x⌋ < 1 / 2) : roundEven x = ⌊x⌋ := by
  unfold roundEven; simp only; rw [if_pos h]

theorem roundEven_high {x : ℚ} (h : 1 / 2 < x - ⌊x⌋) : roundEven x = ⌊x⌋ + 1 := by
  unfold roundEven; simp only; rw [if_neg (by linarith), if_pos h]

theorem roundEven_tie {x : ℚ} (h : x - ⌊x⌋ = 1 / 2) : roundEven x = if ⌊x⌋ % 2 = 0 then ⌊x⌋ else ⌊x⌋ + 1 := by
  unfold roundEven; simp only; rw [if_neg (by linarith), if_neg (by linarith)]

theorem roundEven_cases (x : ℚ) : (roundEven x = ⌊x⌋ ∧ x - ⌊x⌋ ≤ 1 / 2) ∨ (roundEven x = ⌊x⌋ + 1 ∧ 1 / 2 ≤ x - ⌊x⌋) := by
  rcases lt_trichotomy (x - ⌊x⌋) (1 / 2) with h | h | h
  · exact .inl ⟨roundEven_low h, h.le⟩
  · rw [roundEven_tie h]
    by_cases hp : ⌊x⌋ % 2 = 0
    · rw [if_pos hp]; exact .inl ⟨rfl, h.le⟩
    · rw [if_neg hp]; exact .inr ⟨rfl, h.ge⟩
  · exact .inr ⟨roundEven_high h, h.le⟩

theorem roundEven_mono {x y : ℚ} (h : x ≤ y) : roundEven x ≤ roundEven y := by
  have hf : ⌊x⌋ ≤ ⌊y⌋ := Int.floor_mono h
  rcases eq_or_lt_of_le hf with he | hl
  · have hxy : x - ⌊x⌋ ≤ y - ⌊y⌋ := by rw [he]; linarith
    rcases roundEven_cases x with ⟨h1, g1⟩ | ⟨h1, g1⟩ <;> rcases roundEven_cases y with ⟨h2, g2⟩ | ⟨h2, g2⟩
    · omega
    · omega
    · have e1 : x - ⌊x⌋ = 1 / 2 := by linarith
      have e2 : y - ⌊y⌋ = 1 / 2 := by linarith
      rw [roundEven_tie e1, roundEven_tie e2, he]
    · omega
  · rcases roundEven_cases x with ⟨h1, _⟩ | ⟨h1, _⟩ <;> rcases roundEven_cases y with ⟨h2, _⟩ | ⟨h2, _⟩ <;> omega

theorem roundEven_int (n : Int) : roundEven (n : ℚ) = n := by
  unfold roundEven
  simp

theorem roundEven_err (x : ℚ) : |(roundEven x : ℚ) - x| ≤ 1 / 2 := by
  have h1 := Int.floor_le x
  have h2 := Int.lt_floor_add_one x
  rcases roundEven_cases x with ⟨h, g⟩ | ⟨h, g⟩
  · rw [h, abs_le]; constructor <;> linarith
  · rw [h, abs_le]; push_cast; constructor <;> linarith

/-! ### Rounding to doubles -/

theorem ulpExp_mono {p q : ℚ} (hp : 0 < p) (h : p ≤ q) : ulpExp p ≤ ulpExp q := by
  have := expo_mono hp h
  unfold ulpExp; omega

/-- A bound that is a multiple of the unit in the last place is kept. -/
theorem rndPos_le {p : ℚ} {n : Int} (h : p ≤ n * pow2 (ulpExp p)) : rndPos p ≤ n * pow2 (ulpExp p) := by
  unfold rndPos
  refine mul_le_mul_of_nonneg_right ?_ (pow2_pos _).le
  have : roundEven (p / pow2 (ulpExp p)) ≤ n := by
    rw [← roundEven_int n]
    exact roundEven_mono (by rw [div_le_iff₀ (pow2_pos _)]; exact h)
  exact_mod_cast this

theorem le_rndPos {p : ℚ} {n : Int} (h : n * pow2 (ulpExp p) ≤ p) : n * pow2 (ulpExp p) ≤ rndPos p := by
  unfold rndPos
  refine mul_le_mul_of_nonneg_right ?_ (pow2_pos _).le
  have : n ≤ roundEven (p / pow2 (ulpExp p)) := by
    rw [← roundEven_int n]
    exact roundEven_mono (by rw [le_div_iff₀ (pow2_pos _)]; exact h)
  exact_mod_cast this

theorem rndPos_nonneg {p : ℚ} (h : 0 ≤ p) : 0 ≤ rndPos p := by
  have := le_rndPos (p := p) (n := 0) (by simpa using h)
  simpa using this

theorem rndPos_mono {p q : ℚ} (hp : 0 < p) (h : p ≤ q) : rndPos p ≤ rndPos q := by
  have hq := lt_of_lt_of_le hp h
  rcases eq_or_lt_of_le (ulpExp_mono hp h) with he | hl
  · unfold rndPos
    rw [← he]
    refine mul_le_mul_of_nonneg_right ?_ (pow2_pos _).le
    have : roundEven (p / pow2 (ulpExp p)) ≤ roundEven (q / pow2 (ulpExp p)) :=
      roundEven_mono (by gcongr; exact (pow2_pos _).le)
    exact_mod_cast this
  · have hu : ulpExp q = expo q - 52 := by
      unfold ulpExp at hl ⊢; omega
    have hpq : expo p < expo q := by unfold ulpExp at hl; omega
    have h1 : pow2 (expo q) ≤ rndPos q := by
      have := pow2_sub_int (a := expo q) (b := ulpExp q) (by omega)
      rw [this]
      refine le_rndPos ?_
      rw [← this]; exact (expo_spec hq).1
    have h2 : rndPos p ≤ pow2 (expo q) := by
      have := pow2_sub_int (a := expo q) (b := ulpExp p) (by omega)
      rw [this]
      refine rndPos_le ?_
      rw [← this]
      exact le_trans (expo_spec hp).2.le (pow2_le (by omega))
    exact le_trans h2 h1

theorem rnd_neg (q : ℚ) : rnd (-q) = -rnd q := by
  unfold rnd
  rcases lt_trichotomy q 0 with h | h | h
  · rw [if_pos (by linarith), if_neg (by linarith), if_pos h]; simp
  · subst h; simp
  · rw [if_neg (by linarith), if_pos (by linarith), if_pos h]; simp

theorem rnd_zero : rnd 0 = 0 := by simp [rnd]

theorem rnd_nonneg {q : ℚ} (h : 0 ≤ q) : 0 ≤ rnd q := by
  unfold rnd
  split
  · exact rndPos_nonneg h
  · split
    · linarith
    · exact le_refl _

theorem rnd_mono {p q : ℚ} (h : p ≤ q) : rnd p ≤ rnd q := by
  have pos : ∀ {p q : ℚ}, 0 ≤ p → p ≤ q → rnd p ≤ rnd q := by
    intro p q hp h
    rcases eq_or_lt_of_le hp with h0 | h0
    · rw [← h0, rnd_zero]; exact rnd_nonneg (hp.trans h)
    · unfold rnd
      rw [if_pos h0, if_pos (lt_of_lt_of_le h0 h)]
      exact rndPos_mono h0 h
  rcases le_total 0 p with hp | hp
  · exact pos hp h
  · rcases le_total 0 q with hq | hq
    · have h1 : 0 ≤ rnd (-p) := rnd_nonneg (by linarith)
      rw [rnd_neg] at h1
      have h2 := rnd_nonneg hq
      linarith
    · have := pos (p := -q) (q := -p) (by linarith) (by linarith)
      rw [rnd_neg, rnd_neg] at this
      linarith

/-- Numbers with at most 53 bits are not changed. -/
theorem rndPos_exact {m k : Int} (hk : -1074 ≤ k) (hm : m.natAbs ≤ 2 ^ 53) (hp : 0 < (m : ℚ) * pow2 k) : rndPos (m * pow2 k) = m * pow2 k := by
  have main : ∀ {m k : Int}, -1074 ≤ k → m.natAbs < 2 ^ 53 → 0 < (m : ℚ) * pow2 k → rndPos (m * pow2 k) = m * pow2 k := by
    intro m k hk hm hp
    have hmp : 0 < m := by
      have := (mul_pos_iff_of_pos_right (pow2_pos k)).mp hp
      exact_mod_cast this
    have hlt : (m : ℚ) * pow2 k < pow2 (53 + k) := by
      rw [pow2_add]
      refine mul_lt_mul_of_pos_right ?_ (pow2_pos _)
      have h1 : m < 2 ^ 53 := by omega
      have h2 : pow2 53 = ((2 ^ 53 : Int) : ℚ) := by decide +kernel
      rw [h2]; exact_mod_cast h1
    have he := expo_lt hp hlt
    have hu : ulpExp (m * pow2 k) ≤ k := by unfold ulpExp; omega
    generalize hx : (m : ℚ) * pow2 k = x at *
    have hxe : x = ((m * 2 ^ (k - ulpExp x).toNat : Int) : ℚ) * pow2 (ulpExp x) := by
      push_cast
      rw [mul_assoc, ← hx]
      congr 1
      have := pow2_sub_int hu
      push_cast at this
      rw [hx]
      exact this
    unfold rndPos
    have : x / pow2 (ulpExp x) = ((m * 2 ^ (k - ulpExp x).toNat : Int) : ℚ) := by
      rw [div_eq_iff (pow2_pos _).ne']; exact hxe
    rw [this, roundEven_int]
    exact hxe.symm
  rcases eq_or_lt_of_le hm with h | h
  · have hmp : 0 < m := by
      have := (mul_pos_iff_of_pos_right (pow2_pos k)).mp hp
      exact_mod_cast this
    have hm' : m = 2 ^ 53 := by omega
    have e : (m : ℚ) * pow2 k = ((2 ^ 52 : Int) : ℚ) * pow2 (k + 1) := by
      rw [hm', pow2_succ]; push_cast; ring
    rw [e]
    exact main (by omega) (by decide) (by rw [← e]; exact hp)
  · exact main hk h hp

theorem rnd_exact {m k : Int} (hk : -1074 ≤ k) (hm : m.natAbs ≤ 2 ^ 53) : rnd (m * pow2 k) = m * pow2 k := by
  unfold rnd
  split
  · rename_i h; exact rndPos_exact hk hm h
  · split
    · rename_i h
      have e : -((m : ℚ) * pow2 k) = ((-m : Int) : ℚ) * pow2 k := by push_cast; ring
      rw [e, rndPos_exact hk (by rwa [Int.natAbs_neg]) (by rw [← e]; linarith)]
      push_cast; ring
    · linarith

theorem rnd_of_isDouble {q : ℚ} (h : IsDouble q) : rnd q = q := by
  obtain ⟨m, k, hk, hm, rfl, _⟩ := h
  exact rnd_exact hk hm

theorem rnd_int {n : Int} (h : n.natAbs ≤ 2 ^ 53) : rnd n = n := by
  have := rnd_exact (m := n) (k := 0) (by omega) h
  rwa [show pow2 0 = 1 by decide +kernel, mul_one] at this

/-- The result of rounding has at most 53 bits. -/
theorem rndPos_form {q : ℚ} (h : 0 < q) : ∃ m k : Int, -1074 ≤ k ∧ m.natAbs ≤ 2 ^ 53 ∧ rndPos q = m * pow2 k := by
  refine ⟨roundEven (q / pow2 (ulpExp q)), ulpExp q, by unfold ulpExp; omega, ?_, rfl⟩
  have h1 : (0 : Int) ≤ roundEven (q / pow2 (ulpExp q)) := by
    have := roundEven_mono (x := ((0 : Int) : ℚ)) (y := q / pow2 (ulpExp q)) (by have := pow2_pos (ulpExp q); push_cast; positivity)
    rwa [roundEven_int] at this
  have h2 : roundEven (q / pow2 (ulpExp q)) ≤ 2 ^ 53 := by
    have e : q / pow2 (ulpExp q) ≤ ((2 ^ 53 : Int) : ℚ) := by
      rw [div_le_iff₀ (pow2_pos _)]
      have h3 := (expo_spec h).2.le
      refine h3.trans ?_
      have h4 : ((2 ^ 53 : Int) : ℚ) = pow2 53 := by decide +kernel
      rw [h4, ← pow2_add]
      refine pow2_le ?_
      unfold ulpExp; omega
    have := roundEven_mono e
    rwa [roundEven_int] at this
  omega

theorem rnd_form (q : ℚ) : ∃ m k : Int, -1074 ≤ k ∧ m.natAbs ≤ 2 ^ 53 ∧ rnd q = m * pow2 k := by
  unfold rnd
  split
  · rename_i h; exact rndPos_form h
  · split
    · rename_i h
      obtain ⟨m, k, h1, h2, h3⟩ := rndPos_form (q := -q) (by linarith)
      exact ⟨-m, k, h1, by rwa [Int.natAbs_neg], by rw [h3]; push_cast; ring⟩
    · exact ⟨0, 0, by omega, by decide, by simp⟩

/-- Rounding twice changes nothing. -/
theorem rnd_rnd (q : ℚ) : rnd (rnd q) = rnd q := by
  obtain ⟨m, k, h1, h2, h3⟩ := rnd_form q
  rw [h3]; exact rnd_exact h1 h2

/-- A rounded number is a double unless it is too large. -/
theorem rnd_isDouble {q : ℚ} (h1 : -pow2 1024 < rnd q) (h2 : rnd q < pow2 1024) : IsDouble (rnd q) := by
  obtain ⟨m, k, g1, g2, g3⟩ := rnd_form q
  exact ⟨m, k, g1, g2, g3, h1, h2⟩

theorem rndPos_err {q : ℚ} : |rndPos q - q| ≤ pow2 (ulpExp q) / 2 := by
  have h := roundEven_err (q / pow2 (ulpExp q))
  have hp := pow2_pos (ulpExp q)
  have e : rndPos q - q = ((roundEven (q / pow2 (ulpExp q)) : ℚ) - q / pow2 (ulpExp q)) * pow2 (ulpExp q) := by
    unfold rndPos; field_simp
  rw [e, abs_mul, abs_of_pos hp]
  have := mul_le_mul_of_nonneg_right h hp.le
  linarith

/-- The relative error of rounding a number in the normal range. -/
theorem rnd_rel {q : ℚ} (h : pow2 (-1022) ≤ |q|) : |rnd q - q| ≤ |q| * pow2 (-53) := by
  have pos : ∀ {q : ℚ}, 0 < q → pow2 (-1022) ≤ q → |rndPos q - q| ≤ q * pow2 (-53) := by
    intro q h0 h
    refine rndPos_err.trans ?_
    have he := le_expo h0 h
    have hu : ulpExp q = expo q - 52 := by unfold ulpExp; omega
    have : pow2 (ulpExp q) / 2 = pow2 (expo q) * pow2 (-53) := by
      rw [← pow2_add, hu, show expo q - 52 = (expo q + -53) + 1 by omega, pow2_succ]; ring
    rw [this]
    exact mul_le_mul_of_nonneg_right (expo_spec h0).1 (pow2_pos _).le
  unfold rnd
  split
  · rename_i h0; rw [abs_of_pos h0] at h ⊢; exact pos h0 h
  · split
    · rename_i h0
      rw [abs_of_neg h0] at h ⊢
      have := pos (q := -q) (by linarith) h
      rw [abs_sub_comm] at this ⊢
      rwa [show q - -rndPos (-q) = -(-q - rndPos (-q)) by ring, abs_neg]
    · have : q = 0 := by linarith
      subst this
      have := pow2_pos (-1022)
      rw [abs_zero] at h
      linarith

/-- The absolute error of rounding any number. -/
theorem rnd_err (q : ℚ) : |rnd q - q| ≤ |q| * pow2 (-53) + pow2 (-1075) := by
  have h1 := pow2_pos (-53)
  have h2 := pow2_pos (-1075)
  by_cases h : pow2 (-1022) ≤ |q|
  · have := rnd_rel h; linarith
  · rw [not_le] at h
    have pos : ∀ {q : ℚ}, 0 < q → q < pow2 (-1022) → |rndPos q - q| ≤ pow2 (-1075) := by
      intro q h0 h
      refine rndPos_err.trans ?_
      have he := expo_lt h0 h
      have hu : ulpExp q = -1074 := by unfold ulpExp; omega
      rw [hu, show (-1074 : Int) = -1075 + 1 by omega, pow2_succ]
      linarith
    have hq : 0 ≤ |q| * pow2 (-53) := by positivity
    unfold rnd
    split
    · rename_i h0; rw [abs_of_pos h0] at h; have := pos h0 h; linarith
    · split
      · rename_i h0
        rw [abs_of_neg h0] at h
        have := pos (q := -q) (by linarith) h
        rw [abs_sub_comm] at this ⊢
        rw [show q - -rndPos (-q) = -(-q - rndPos (-q)) by ring, abs_neg]
        linarith
      · have : q = 0 := by linarith
        subst this
        simpa using h2.le

/-! ### Doubles -/

theorem fl_fin {q : ℚ} (h1 : -pow2 1024 < rnd q) (h2 : rnd q < pow2 1024) : fl q = .fin (rnd q) := by
  unfold fl
  rw [if_neg (by linarith), if_neg (by linarith)]

theorem fl_bound {q : ℚ} (h1 : -pow2 1023 ≤ q) (h2 : q ≤ pow2 1023) : fl q = .fin (rnd q) := by
  have e : rnd (pow2 1023) = pow2 1023 := by
    have := rnd_exact (m := 1) (k := 1023) (by omega) (by decide)
    rwa [Int.cast_one, one_mul] at this
  have hl : pow2 1023 < pow2 1024 := pow2_lt (by omega)
  have g1 := rnd_mono h1
  have g2 := rnd_mono h2
  rw [rnd_neg] at g1
  rw [e] at g1 g2
  exact fl_fin (by linarith) (by linarith)

theorem fl_double {q : ℚ} (h : IsDouble q) : fl q = .fin q := by
  have e := rnd_of_isDouble h
  obtain ⟨_, _, _, _, _, h1, h2⟩ := h
  have g1 : -pow2 1024 < rnd q := lt_of_lt_of_eq h1 e.symm
  have g2 : rnd q < pow2 1024 := lt_of_eq_of_lt e h2
  rw [fl_fin g1 g2, e]

theorem isDouble_int {n : Int} (h : n.natAbs ≤ 2 ^ 53) : IsDouble n := by
  refine ⟨n, 0, by omega, h, by rw [show pow2 0 = 1 by decide +kernel, mul_one], ?_, ?_⟩
  · have h1 : -(2 ^ 53 : Int) ≤ n := by omega
    have h2 : ((-(2 ^ 53 : Int) : Int) : ℚ) ≤ n := by exact_mod_cast h1
    have h3 : -pow2 1024 < ((-(2 ^ 53 : Int) : Int) : ℚ) := by decide +kernel
    linarith
  · have h1 : n ≤ 2 ^ 53 := by omega
    have h2 : (n : ℚ) ≤ ((2 ^ 53 : Int) : ℚ) := by exact_mod_cast h1
    have h3 : ((2 ^ 53 : Int) : ℚ) < pow2 1024 := by decide +kernel
    linarith

theorem ofInt_small {n : Int} (h : n.natAbs ≤ 2 ^ 53) : F64.ofInt n = .fin n := fl_double (isDouble_int h)

/-- A rounded result is a double. -/
theorem fl_ok (q : ℚ) : (fl q).Ok := by
  by_cases h1 : pow2 1024 ≤ rnd q
  · have e : fl q = .inf false := by unfold fl; rw [if_pos h1]
    rw [e]; exact True.intro
  · by_cases h2 : rnd q ≤ -pow2 1024
    · have e : fl q = .inf true := by unfold fl; rw [if_neg h1, if_pos h2]
      rw [e]; exact True.intro
    · rw [not_le] at h1 h2
      rw [fl_fin h2 h1]
      exact rnd_isDouble h2 h1

theorem div_fin {x y : ℚ} (h : y ≠ 0) : F64.div (.fin x) (.fin y) = fl (x / y) := by
  show (if y = 0 then _ else _) = _
  rw [if_neg h]

theorem fl_top {q : ℚ} (h : pow2 1024 ≤ rnd q) : fl q = .inf false := by unfold fl; rw [if_pos h]

theorem fl_bot {q : ℚ} (h : rnd q ≤ -pow2 1024) : fl q = .inf true := by
  have p0 := pow2_pos 1024
  unfold fl; rw [if_neg (by linarith), if_pos h]

theorem le_fin {x y : ℚ} : F64.le (.fin x) (.fin y) = true ↔ x ≤ y := by
  show (decide (_ < _) || decide (_ = _)) = true ↔ _
  rw [Bool.or_eq_true, decide_eq_true_iff, decide_eq_true_iff, le_iff_lt_or_eq]

theorem le_fin_false {x y : ℚ} : F64.le (.fin x) (.fin y) = false ↔ y < x := by
  rw [← not_iff_not, Bool.not_eq_false, le_fin, not_lt]

theorem fl_mono {p q : ℚ} (h : p ≤ q) : F64.le (fl p) (fl q) = true := by
  have m := rnd_mono h
  have p0 := pow2_pos 1024
  by_cases q1 : pow2 1024 ≤ rnd q
  · rw [fl_top q1]
    by_cases p1 : pow2 1024 ≤ rnd p
    · rw [fl_top p1]; rfl
    · by_cases p2 : rnd p ≤ -pow2 1024
      · rw [fl_bot p2]; rfl
      · rw [fl_fin (not_le.mp p2) (not_le.mp p1)]; rfl
  · by_cases p2 : rnd p ≤ -pow2 1024
    · rw [fl_bot p2]
      by_cases q2 : rnd q ≤ -pow2 1024
      · rw [fl_bot q2]; rfl
      · rw [fl_fin (not_le.mp q2) (not_le.mp q1)]; rfl
    · rw [not_le] at q1 p2
      rw [fl_fin p2 (lt_of_le_of_lt m q1), fl_fin (lt_of_lt_of_le p2 m) q1, le_fin]
      exact m

/-- Division by a positive number is monotone. -/
theorem div_mono {a b : F64} {c : ℚ} (hc : 0 < c) (h : F64.le a b = true) : F64.le (F64.div a (.fin c)) (F64.div b (.fin c)) = true := by
  have hneg : decide (c < 0) = false := decide_eq_false (by linarith)
  have hinf : ∀ s, F64.div (.inf s) (.fin c) = .inf s := by
    intro s
    show F64.inf (s != decide (c < 0)) = _
    rw [hneg]; cases s <;> rfl
  have flb : ∀ q, F64.le (fl q) (.inf false) = true ∧ F64.le (.inf true) (fl q) = true := by
    intro q
    by_cases h1 : pow2 1024 ≤ rnd q
    · rw [fl_top h1]; exact ⟨rfl, rfl⟩
    · by_cases h2 : rnd q ≤ -pow2 1024
      · rw [fl_bot h2]; exact ⟨rfl, rfl⟩
      · rw [fl_fin (not_le.mp h2) (not_le.mp h1)]; exact ⟨rfl, rfl⟩
  cases a with
  | nan => cases b <;> cases h
  | inf s =>
    cases b with
    | nan => cases s <;> cases h
    | inf t => rw [hinf, hinf]; exact h
    | fin y =>
      rw [hinf, div_fin hc.ne']
      cases s with
      | true => exact (flb _).2
      | false => cases h
  | fin x =>
    cases b with
    | nan => cases h
    | inf t =>
      rw [hinf, div_fin hc.ne']
      cases t with
      | true => cases h
      | false => exact (flb _).1
    | fin y =>
      rw [div_fin hc.ne', div_fin hc.ne']
      exact fl_mono (div_le_div_of_nonneg_right (le_fin.mp h) hc.le)

theorem trunc_mono {x y : ℚ} (h : x ≤ y) : F64.trunc x ≤ F64.trunc y := by
  unfold F64.trunc
  by_cases hx : x < 0
  · rw [if_pos hx]
    by_cases hy : y < 0
    · rw [if_pos hy]
      have := Int.floor_le_floor (show -y ≤ -x by linarith)
      omega
    · rw [if_neg hy]
      have h1 : 0 ≤ ⌊-x⌋ := Int.floor_nonneg.mpr (by linarith)
      have h2 : 0 ≤ ⌊y⌋ := Int.floor_nonneg.mpr (not_lt.mp hy)
      omega
  · rw [if_neg hx, if_neg (fun hy => hx (lt_of_le_of_lt h hy))]
    exact Int.floor_le_floor h

/-- Conversion to an integer is monotone. -/
theorem toInt_mono {lo hi : Int} {a b : F64} {i j : Int} (h : F64.le a b = true) (ha : F64.toInt lo hi a = some i)
    (hb : F64.toInt lo hi b = some j) : i ≤ j := by
  cases a with
  | nan => cases ha
  | inf s => cases ha
  | fin x =>
    cases b with
    | nan => cases hb
    | inf s => cases hb
    | fin y =>
      have e : ∀ {q : ℚ} {k : Int}, F64.toInt lo hi (.fin q) = some k → k = F64.trunc q := by
        intro q k hk
        change (if lo ≤ F64.trunc q ∧ F64.trunc q ≤ hi then some (F64.trunc q) else none) = some k at hk
        by_cases hr : lo ≤ F64.trunc q ∧ F64.trunc q ≤ hi
        · rw [if_pos hr] at hk; exact (Option.some.inj hk).symm
        · rw [if_neg hr] at hk; cases hk
      rw [e ha, e hb]
      exact trunc_mono (le_fin.mp h)

/-- A double is a multiple of the smallest positive double. -/
theorem isDouble_grid {q : ℚ} (h : IsDouble q) : ∃ m : Int, q = m * pow2 (-1074) := by
  obtain ⟨m, k, hk, _, rfl, _⟩ := h
  refine ⟨m * 2 ^ (k + 1074).toNat, ?_⟩
  have e : pow2 k = pow2 ((k + 1074).toNat : Int) * pow2 (-1074) := by
    rw [← pow2_add]; congr 1; omega
  rw [e, pow2_nat]
  push_cast
  ring

/-- The difference of two doubles is computed with a small relative error, without exception for small numbers. -/
theorem rnd_sub_rel {x y : ℚ} (hx : IsDouble x) (hy : IsDouble y) : |rnd (x - y) - (x - y)| ≤ |x - y| * pow2 (-53) := by
  by_cases h : pow2 (-1022) ≤ |x - y|
  · exact rnd_rel h
  · rw [not_le] at h
    obtain ⟨m, hm⟩ := isDouble_grid hx
    obtain ⟨k, hk⟩ := isDouble_grid hy
    have e : x - y = ((m - k : Int) : ℚ) * pow2 (-1074) := by rw [hm, hk]; push_cast; ring
    have p := pow2_pos (-1074)
    have hs : (m - k).natAbs ≤ 2 ^ 53 := by
      by_contra hb
      have h1 : (2 ^ 53 : Int) ≤ |m - k| := by rw [Int.abs_eq_natAbs]; omega
      have h2 : ((2 ^ 53 : Int) : ℚ) ≤ |((m - k : Int) : ℚ)| := by rw [← Int.cast_abs]; exact_mod_cast h1
      have h3 := mul_le_mul_of_nonneg_right h2 p.le
      rw [e, abs_mul, abs_of_pos p] at h
      have h4 : pow2 (-1022) < ((2 ^ 53 : Int) : ℚ) * pow2 (-1074) := by decide +kernel
      linarith
    rw [e, rnd_exact (by omega) hs, sub_self, abs_zero]
    exact mul_nonneg (abs_nonneg _) (pow2_pos _).le

end Verif.Ieee
