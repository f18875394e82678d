import Verif.Lemmas.Double
/-
C99: the time limits of the caches, computed with doubles.
-/
namespace Verif.Ieee

theorem seconds_ok {ms : Int} (h0 : -(2 ^ 31) ≤ ms) (h1 : ms ≤ 2 ^ 31 - 1) : seconds ms = .fin (rnd ((ms : ℚ) / 1000)) := by
  have a0 : (((-(2 ^ 31) : Int)) : ℚ) ≤ ms := by exact_mod_cast h0
  have a1 : (ms : ℚ) ≤ ((2 ^ 31 - 1 : Int) : ℚ) := by exact_mod_cast h1
  have b0 : -pow2 1023 ≤ ((-(2 ^ 31) : Int) : ℚ) / 1000 := by decide +kernel
  have b1 : ((2 ^ 31 - 1 : Int) : ℚ) / 1000 ≤ pow2 1023 := by decide +kernel
  have e1 : F64.ofInt 1000 = .fin 1000 := by decide +kernel
  unfold seconds
  rw [ofInt_small (by omega), e1]
  have e2 : F64.div (.fin (ms : ℚ)) (.fin 1000) = fl ((ms : ℚ) / 1000) := div_fin (by norm_num)
  rw [e2]
  refine fl_bound (b0.trans ?_) (le_trans ?_ b1)
  · exact div_le_div_of_nonneg_right a0 (by norm_num)
  · exact div_le_div_of_nonneg_right a1 (by norm_num)

/-- What `SetTimeout` does with a finite number that is not negative. -/
theorem timeoutCycles_fin {q : ℚ} (h0 : 0 ≤ q) :
    timeoutCycles (.fin q) = .ok (some (if 2 ^ 63 ≤ rnd (q * 1000000) then int64Max else ⌊rnd (q * 1000000)⌋)) := by
  have e1 : F64.ofInt 1000000 = .fin 1000000 := by decide +kernel
  have e2 : F64.ofInt int64Max = .fin (2 ^ 63) := by decide +kernel
  have b1 : (2 ^ 63 : ℚ) < pow2 1024 := by decide +kernel
  have r0 := rnd_nonneg (show 0 ≤ q * 1000000 by linarith)
  have p0 := pow2_pos 1024
  have hl : F64.lt (.fin q) (.fin 0) = false := decide_eq_false (by linarith)
  have hm : F64.mul (.fin q) (.fin 1000000) = fl (q * 1000000) := rfl
  have step : timeoutCycles (.fin q) = if F64.le (.fin (2 ^ 63)) (fl (q * 1000000)) = true then .ok (some int64Max)
      else match F64.toInt (-(2 ^ 63)) int64Max (fl (q * 1000000)) with
        | some i => .ok (some i)
        | none => .error .badCast := by
    unfold timeoutCycles
    rw [hl, e1, e2, hm]
    rfl
  rw [step]
  by_cases hb : pow2 1024 ≤ rnd (q * 1000000)
  · have e : fl (q * 1000000) = .inf false := by unfold fl; rw [if_pos hb]
    rw [e, if_pos (show F64.le (.fin (2 ^ 63)) (.inf false) = true from rfl), if_pos (b1.le.trans hb)]
  · rw [not_le] at hb
    rw [fl_fin (by linarith) hb]
    generalize rnd (q * 1000000) = r at *
    by_cases hc : 2 ^ 63 ≤ r
    · have hle : F64.le (.fin (2 ^ 63)) (.fin r) = true := by
        show (decide (_ < _) || decide (_ = _)) = true
        rcases eq_or_lt_of_le hc with h | h
        · rw [decide_eq_true h, Bool.or_true]
        · rw [decide_eq_true h, Bool.true_or]
      rw [if_pos hle, if_pos hc]
    · have hle : F64.le (.fin (2 ^ 63)) (.fin r) = false := by
        show (decide (_ < _) || decide (_ = _)) = false
        rw [decide_eq_false (fun h => hc h.le), decide_eq_false (fun h => hc h.le)]; rfl
      have ht : F64.trunc r = ⌊r⌋ := if_neg (by linarith)
      have f0 : 0 ≤ ⌊r⌋ := Int.floor_nonneg.mpr r0
      have f1 : ⌊r⌋ ≤ int64Max := by
        have h : (⌊r⌋ : ℚ) < ((2 ^ 63 : Int) : ℚ) := lt_of_le_of_lt (Int.floor_le r) (by push_cast; exact not_le.mp hc)
        have := Int.cast_lt.mp h
        unfold int64Max; omega
      have hi : F64.toInt (-(2 ^ 63)) int64Max (.fin r) = some ⌊r⌋ := by
        show (if _ then _ else _) = _
        rw [ht, if_pos ⟨by omega, f1⟩]
      rw [hle, if_neg (by decide), hi, if_neg hc]

theorem cycles_range {r : ℚ} (h0 : 0 ≤ r) : 0 ≤ (if 2 ^ 63 ≤ r then int64Max else ⌊r⌋) ∧ (if 2 ^ 63 ≤ r then int64Max else ⌊r⌋) ≤ int64Max := by
  by_cases hc : 2 ^ 63 ≤ r
  · rw [if_pos hc]; unfold int64Max; omega
  · rw [if_neg hc]
    refine ⟨Int.floor_nonneg.mpr h0, ?_⟩
    have h : (⌊r⌋ : ℚ) < ((2 ^ 63 : Int) : ℚ) := lt_of_le_of_lt (Int.floor_le r) (by push_cast; exact not_le.mp hc)
    have := Int.cast_lt.mp h
    unfold int64Max; omega

/-- C99: a non-negative number of milliseconds becomes that number of microseconds, or one less; the conversion is defined. -/
theorem C99_milliseconds_partial {ms : Int} (h0 : 0 ≤ ms) (h1 : ms ≤ 2 ^ 31 - 1) :
    ∃ c, timeoutCycles (seconds ms) = .ok (some c) ∧ 1000 * ms - 1 ≤ c ∧ c ≤ 1000 * ms ∧ 0 ≤ c := by
  have hu0 := pow2_pos (-53)
  have hu : pow2 (-53) ≤ 1 / 10 ^ 15 := by decide +kernel
  have ht0 := pow2_pos (-1075)
  have ht : pow2 (-1075) ≤ 1 / 10 ^ 15 := by decide +kernel
  have a0 : (0 : ℚ) ≤ ms := by exact_mod_cast h0
  have a1 : (ms : ℚ) ≤ 2147483647 := by exact_mod_cast h1
  have E1 := rnd_err ((ms : ℚ) / 1000)
  have E2 := rnd_err (rnd ((ms : ℚ) / 1000) * 1000000)
  have s0 : 0 ≤ rnd ((ms : ℚ) / 1000) := rnd_nonneg (by linarith)
  rw [seconds_ok (by omega) h1]
  generalize pow2 (-53) = u at *
  generalize pow2 (-1075) = t at *
  rw [abs_of_nonneg (show (0 : ℚ) ≤ (ms : ℚ) / 1000 by linarith)] at E1
  rw [abs_of_nonneg (show 0 ≤ rnd ((ms : ℚ) / 1000) * 1000000 by linarith)] at E2
  have m1 : (ms : ℚ) / 1000 * u ≤ 2147484 * (1 / 10 ^ 15) := mul_le_mul (by linarith) hu hu0.le (by norm_num)
  have ⟨E3, E4⟩ := abs_le.mp E1
  have s1 : rnd ((ms : ℚ) / 1000) ≤ 2147485 := by linarith
  have m2 : rnd ((ms : ℚ) / 1000) * 1000000 * u ≤ 2147485000000 * (1 / 10 ^ 15) := mul_le_mul (by linarith) hu hu0.le (by norm_num)
  have ⟨E5, E6⟩ := abs_le.mp E2
  have r0 : 0 ≤ rnd (rnd ((ms : ℚ) / 1000) * 1000000) := rnd_nonneg (by linarith)
  have big : ¬ 2 ^ 63 ≤ rnd (rnd ((ms : ℚ) / 1000) * 1000000) := by rw [not_le]; norm_num at E6 ⊢; linarith
  refine ⟨_, timeoutCycles_fin s0, ?_⟩
  rw [if_neg big]
  refine ⟨?_, ?_, Int.floor_nonneg.mpr r0⟩
  · rw [Int.le_floor]; push_cast; linarith
  · have : ⌊rnd (rnd ((ms : ℚ) / 1000) * 1000000)⌋ < 1000 * ms + 1 := by
      rw [Int.floor_lt]; push_cast; linarith
    omega

/-- C99: a negative number of milliseconds means no limit. -/
theorem C99_negative {ms : Int} (h0 : -(2 ^ 31) ≤ ms) (h1 : ms < 0) : timeoutCycles (seconds ms) = .ok none := by
  rw [seconds_ok h0 (by omega)]
  have h2 : (ms : ℚ) ≤ ((-1 : Int) : ℚ) := by exact_mod_cast (show ms ≤ -1 by omega)
  have h3 : (ms : ℚ) / 1000 ≤ ((-1 : Int) : ℚ) / 1000 := div_le_div_of_nonneg_right h2 (by norm_num)
  have h4 : rnd (((-1 : Int) : ℚ) / 1000) < 0 := by decide +kernel
  have h5 := lt_of_le_of_lt (rnd_mono h3) h4
  unfold timeoutCycles
  rw [show F64.lt (.fin (rnd ((ms : ℚ) / 1000))) (.fin 0) = true from decide_eq_true h5]
  rfl

/-- C99: every number of seconds except NaN is converted without undefined behaviour, to a count an `int64_t` can hold. -/
theorem C99_defined {s : F64} (h : s ≠ .nan) :
    ∃ r, timeoutCycles s = .ok r ∧ ∀ c, r = some c → 0 ≤ c ∧ c ≤ 2 ^ 63 - 1 := by
  cases s with
  | nan => exact absurd rfl h
  | inf b => exact ⟨none, by cases b <;> rfl, by intro c hc; cases hc⟩
  | fin q =>
    by_cases h0 : 0 ≤ q
    · refine ⟨_, timeoutCycles_fin h0, ?_⟩
      intro c hc
      cases hc
      exact cycles_range (rnd_nonneg (by linarith))
    · refine ⟨none, ?_, by intro c hc; cases hc⟩
      unfold timeoutCycles
      rw [show F64.lt (.fin q) (.fin 0) = true from decide_eq_true (not_le.mp h0)]
      rfl

/-- C99: an infinite number of seconds means no limit, as does a negative one. -/
theorem C99_infinite (b : Bool) {q : ℚ} (hq : q < 0) : timeoutCycles (.inf b) = .ok none ∧ timeoutCycles (.fin q) = .ok none := by
  refine ⟨by cases b <;> rfl, ?_⟩
  unfold timeoutCycles
  rw [show F64.lt (.fin q) (.fin 0) = true from decide_eq_true hq]
  rfl

/-- C99: a longer time limit in seconds is never a shorter one in cycles. -/
theorem C99_monotone {p q : ℚ} {c d : Int} (h0 : 0 ≤ p) (h : p ≤ q)
    (hc : timeoutCycles (.fin p) = .ok (some c)) (hd : timeoutCycles (.fin q) = .ok (some d)) : c ≤ d := by
  rw [timeoutCycles_fin h0] at hc
  rw [timeoutCycles_fin (h0.trans h)] at hd
  have m := rnd_mono (show p * 1000000 ≤ q * 1000000 by linarith)
  have z := rnd_nonneg (show 0 ≤ p * 1000000 by linarith)
  generalize rnd (p * 1000000) = a at *
  generalize rnd (q * 1000000) = b at *
  cases hc
  cases hd
  by_cases hb : 2 ^ 63 ≤ b
  · rw [if_pos hb]; exact (cycles_range z).2
  · rw [if_neg hb, if_neg (fun ha => hb (ha.trans m))]
    exact Int.floor_le_floor m

/-- C99: NaN is accepted, and its conversion to an integer is undefined. -/
theorem C99_false_nan : timeoutCycles .nan = .error .badCast := by decide +kernel

/-- C99: the limit of 1001 milliseconds is one microsecond short. -/
theorem C99_false_one_short : timeoutCycles (seconds 1001) = .ok (some 1000999) := by decide +kernel

/-- The theorems on a case each: the default 500 ms, a negative limit, an infinite number of seconds, and the largest limit. -/
example : timeoutCycles (seconds 500) = .ok (some 500000) ∧ timeoutCycles (seconds (-1)) = .ok none ∧
    timeoutCycles (.inf false) = .ok none ∧ timeoutCycles (fl (10 ^ 13)) = .ok (some (2 ^ 63 - 1)) ∧
    timeoutCycles (seconds (2 ^ 31 - 1)) = .ok (some 2147483647000) := by decide +kernel

end Verif.Ieee
