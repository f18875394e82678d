import Verif.Lemmas.Double
import Verif.Lemmas.Distribution
/-
C100, C101: the bucket of a sample, computed with IEEE-754 doubles.
-/
namespace Verif.Ieee

variable {lg : F64 → F64} {n : Int} {w o x : ℚ}

/-- `linearIndex` on doubles. -/
abbrev linIdx (lg : F64 → F64) (n : Int) (w o v : F64) : Res Int := @Dist.linearIndex F64 (ops lg) n w o v

/-- The linear layout does not use `log2`. -/
theorem linIdx_log (n : Int) (w o v : F64) : linIdx lg n w o v = linIdx id n w o v := rfl

theorem fl_mul_up (h : 0 < n) (hn : n ≤ 2 ^ 31 - 1) : F64.mul (.ofInt n) (.fin w) = fl (n * w) := by
  rw [ofInt_small (by omega)]; rfl

/-- A sample is below the computed upper bound iff it is below it without regard to overflow. -/
theorem lt_upper (hn0 : 0 < n) (hn : n ≤ 2 ^ 31 - 1) (hw0 : 0 < w) (ho : IsDouble o) (hx : IsDouble x)
    (h : F64.le (F64.add (.fin o) (F64.mul (.ofInt n) (.fin w))) (.fin x) = false) :
    pow2 1024 ≤ rnd (n * w) ∨ x < rnd (o + rnd (n * w)) := by
  rw [fl_mul_up hn0 hn] at h
  have p0 := pow2_pos 1024
  have r0 : 0 ≤ rnd (n * w) := rnd_nonneg (mul_nonneg (by exact_mod_cast hn0.le) hw0.le)
  by_cases hb : pow2 1024 ≤ rnd (n * w)
  · exact .inl hb
  refine .inr ?_
  rw [not_le] at hb
  rw [fl_fin (by linarith) hb] at h
  change F64.le (fl (o + rnd (n * w))) (.fin x) = false at h
  have e := rnd_of_isDouble ho
  have m := rnd_mono (show o ≤ o + rnd (n * w) by linarith)
  obtain ⟨_, _, _, _, _, hx1, hx2⟩ := hx
  obtain ⟨_, _, _, _, _, ho1, ho2⟩ := ho
  by_cases hc : pow2 1024 ≤ rnd (o + rnd (n * w))
  · exact lt_of_lt_of_le hx2 hc
  · rw [not_le] at hc
    rw [fl_fin (by linarith) hc] at h
    by_contra hlt
    rw [not_lt] at hlt
    have : F64.le (.fin (rnd (o + rnd (n * w)))) (.fin x) = true := by
      show (decide (_ < _) || decide (_ = _)) = true
      rcases eq_or_lt_of_le hlt with h | h
      · rw [decide_eq_true h, Bool.or_true]
      · rw [decide_eq_true h, Bool.true_or]
    rw [this] at h
    cases h

/-- The difference to the offset is at most the computed width of all finite buckets. -/
theorem diff_le (hx : IsDouble x) (hov : rnd (x - o) < pow2 1024)
    (h : pow2 1024 ≤ rnd (n * w) ∨ x < rnd (o + rnd (n * w))) : rnd (x - o) ≤ rnd (n * w) := by
  rcases h with h | h
  · exact hov.le.trans h
  · rw [← rnd_rnd (n * w)]
    refine rnd_mono ?_
    by_contra hlt
    rw [not_le] at hlt
    have := rnd_mono (show o + rnd (n * w) ≤ x by linarith)
    rw [rnd_of_isDouble hx] at this
    linarith

/-- The computed width of all finite buckets is at most half a bucket too large. -/
theorem width_le (hn0 : 0 < n) (hn : n ≤ 2 ^ 31 - 1) (hw : IsDouble w) (hw0 : 0 < w) : rnd (n * w) ≤ (n + 1 / 2) * w := by
  have hnq : (0 : ℚ) < n := by exact_mod_cast hn0
  have hnq2 : (n : ℚ) ≤ 2147483647 := by exact_mod_cast hn
  have pos : 0 < (n : ℚ) * w := mul_pos hnq hw0
  by_cases hs : pow2 (-1022) ≤ (n : ℚ) * w
  · have hr := rnd_rel (q := (n : ℚ) * w) (by rwa [abs_of_pos pos])
    rw [abs_of_pos pos] at hr
    have hu : pow2 (-53) ≤ 1 / 10 ^ 15 := by decide +kernel
    have hu0 := pow2_pos (-53)
    have := (abs_le.mp hr).2
    have h1 : (n : ℚ) * pow2 (-53) ≤ 1 / 2 := by
      have : (n : ℚ) * pow2 (-53) ≤ 2147483647 * (1 / 10 ^ 15) := mul_le_mul hnq2 hu hu0.le (by norm_num)
      linarith
    have h2 := mul_le_mul_of_nonneg_left h1 hw0.le
    nlinarith
  · rw [not_le] at hs
    obtain ⟨m, k, hk, hm, he, _, _⟩ := hw
    have hpk := pow2_pos k
    have hm0 : 0 < m := by
      by_contra hneg
      have : (m : ℚ) ≤ 0 := by exact_mod_cast not_lt.mp hneg
      have := mul_nonpos_of_nonpos_of_nonneg this hpk.le
      rw [← he] at this
      linarith
    have hnm : n * m < 2 ^ 52 := by
      by_contra hneg
      have h1 : ((2 ^ 52 : Int) : ℚ) ≤ ((n * m : Int) : ℚ) := by exact_mod_cast not_lt.mp hneg
      have h2 : pow2 (-1074) ≤ pow2 k := pow2_le hk
      have h3 : ((2 ^ 52 : Int) : ℚ) * pow2 (-1074) = pow2 (-1022) := by decide +kernel
      have h4 : ((2 ^ 52 : Int) : ℚ) * pow2 (-1074) ≤ ((n * m : Int) : ℚ) * pow2 k :=
        mul_le_mul h1 h2 (pow2_pos _).le (by push_cast; exact (mul_pos hnq (by exact_mod_cast hm0)).le)
      rw [h3] at h4
      rw [he] at hs
      push_cast at h4
      rw [mul_assoc] at h4
      linarith
    have e : (n : ℚ) * w = ((n * m : Int) : ℚ) * pow2 k := by rw [he]; push_cast; ring
    have hpos : 0 < n * m := Int.mul_pos hn0 hm0
    rw [e, rnd_exact hk (by omega), ← e]
    nlinarith

/-- The quotient that `UpdateLinearBucketCount` converts to an integer. -/
theorem quotient_le (hn0 : 0 < n) (hn : n ≤ 2 ^ 31 - 1) (hw : IsDouble w) (hw0 : 0 < w) (h : rnd (x - o) ≤ rnd (n * w)) :
    rnd (rnd (x - o) / w) ≤ n + 1 / 2 := by
  have h1 : rnd (x - o) / w ≤ n + 1 / 2 := by
    rw [div_le_iff₀ hw0]
    exact h.trans (width_le hn0 hn hw hw0)
  have e : ((n : ℚ) + 1 / 2) = ((2 * n + 1 : Int) : ℚ) * pow2 (-1) := by
    rw [show pow2 (-1) = 1 / 2 by decide +kernel]; push_cast; ring
  have := rnd_mono h1
  rw [e, rnd_exact (by omega) (by omega), ← e] at this
  exact this

/-- The bucket of a sample between the bounds. -/
theorem linear_mid (hn0 : 0 < n) (hn : n ≤ 2 ^ 31 - 2) (hw : IsDouble w) (hw0 : 0 < w) (ho : IsDouble o) (hx : IsDouble x)
    (hlo : o ≤ x) (h : F64.le (F64.add (.fin o) (F64.mul (.ofInt n) (.fin w))) (.fin x) = false) (hov : rnd (x - o) < pow2 1024) :
    linIdx lg n (.fin w) (.fin o) (.fin x) = .ok (1 + ⌊rnd (rnd (x - o) / w)⌋) ∧ 0 ≤ ⌊rnd (rnd (x - o) / w)⌋ ∧
      ⌊rnd (rnd (x - o) / w)⌋ ≤ n := by
  have hd := diff_le hx hov (lt_upper hn0 (by omega) hw0 ho hx h)
  have hq := quotient_le hn0 (by omega) hw hw0 hd
  have d0 : 0 ≤ rnd (x - o) := rnd_nonneg (by linarith)
  have q0 : 0 ≤ rnd (rnd (x - o) / w) := rnd_nonneg (div_nonneg d0 hw0.le)
  have p0 := pow2_pos 1024
  have hsub : F64.sub (.fin x) (.fin o) = .fin (rnd (x - o)) := by
    show fl (x + -o) = _
    rw [← sub_eq_add_neg]
    exact fl_fin (by linarith) hov
  have hbig : ((2 ^ 31 : Int) : ℚ) < pow2 1024 := by decide +kernel
  have hnq : (n : ℚ) + 1 / 2 ≤ ((2 ^ 31 : Int) : ℚ) := by
    have : (n : ℚ) ≤ ((2 ^ 31 - 2 : Int) : ℚ) := by exact_mod_cast hn
    push_cast at this ⊢
    linarith
  have hdiv : F64.div (.fin (rnd (x - o))) (.fin w) = .fin (rnd (rnd (x - o) / w)) := by
    rw [div_fin hw0.ne']
    exact fl_fin (lt_of_lt_of_le (neg_lt_zero.mpr p0) q0) (lt_of_le_of_lt (hq.trans hnq) hbig)
  have f0 : 0 ≤ ⌊rnd (rnd (x - o) / w)⌋ := Int.floor_nonneg.mpr q0
  have f1 : ⌊rnd (rnd (x - o) / w)⌋ ≤ n := by
    have : ⌊rnd (rnd (x - o) / w)⌋ < n + 1 := by
      rw [Int.floor_lt]; push_cast; linarith
    omega
  refine ⟨?_, f0, f1⟩
  have hlt : F64.lt (.fin x) (.fin o) = false := decide_eq_false (by linarith)
  have step : linIdx lg n (.fin w) (.fin o) (.fin x) = if (F64.lt (.fin x) (.fin o) || false) = true then .ok 0
      else if F64.le (F64.add (.fin o) (F64.mul (.ofInt n) (.fin w))) (.fin x) = true then addI32 n 1
      else (@Dist.castInt F64 (ops lg) (F64.div (F64.sub (.fin x) (.fin o)) (.fin w))).bind fun q => addI32 1 q := rfl
  rw [step, hlt, h, hsub, hdiv]
  have hcast : @Dist.castInt F64 (ops lg) (.fin (rnd (rnd (x - o) / w))) = .ok ⌊rnd (rnd (x - o) / w)⌋ := by
    have ht : F64.trunc (rnd (rnd (x - o) / w)) = ⌊rnd (rnd (x - o) / w)⌋ := if_neg (by linarith)
    have hi : F64.toInt (-(2 ^ 31)) (2 ^ 31 - 1) (.fin (rnd (rnd (x - o) / w))) = some ⌊rnd (rnd (x - o) / w)⌋ := by
      show (if _ then _ else _) = _
      rw [ht, if_pos ⟨by omega, by omega⟩]
    show (match F64.toInt (-(2 ^ 31)) (2 ^ 31 - 1) _ with | some i => _ | none => _) = _
    rw [hi]
  rw [hcast]
  show addI32 1 _ = _
  exact Dist.addI32_eq (by simp only [InI32, int32Min, int32Max]; omega)

/-- The bucket of a sample below the offset. -/
theorem linear_low (v : F64) (h : F64.lt v (.fin o) = true) : linIdx lg n (.fin w) (.fin o) v = .ok 0 := by
  have step : linIdx lg n (.fin w) (.fin o) v = if (F64.lt v (.fin o) || v.isNaN) = true then .ok 0 else _ := rfl
  rw [step, h, Bool.true_or, if_pos rfl]

/-- The bucket of a sample that is not below the computed upper bound. -/
theorem linear_high (hn0 : 0 < n) (hn : n ≤ 2 ^ 31 - 2) (v : F64) (h0 : F64.lt v (.fin o) = false) (h1 : v ≠ .nan)
    (h : F64.le (F64.add (.fin o) (F64.mul (.ofInt n) (.fin w))) v = true) : linIdx lg n (.fin w) (.fin o) v = .ok (n + 1) := by
  have step : linIdx lg n (.fin w) (.fin o) v = if (F64.lt v (.fin o) || v.isNaN) = true then .ok 0
      else if F64.le (F64.add (.fin o) (F64.mul (.ofInt n) (.fin w))) v = true then addI32 n 1 else _ := rfl
  have hnan : v.isNaN = false := by
    cases v with
    | nan => exact absurd rfl h1
    | _ => rfl
  rw [step, h0, hnan, h, if_neg (by decide), if_pos rfl]
  exact Dist.addI32_eq (by simp only [InI32, int32Min, int32Max]; omega)

/-- Plus infinity is not below any computed upper bound. -/
theorem upper_le_inf (hn0 : 0 < n) (hn : n ≤ 2 ^ 31 - 1) (hw0 : 0 < w) :
    F64.le (F64.add (.fin o) (F64.mul (.ofInt n) (.fin w))) (.inf false) = true := by
  rw [fl_mul_up hn0 hn]
  have r0 : 0 ≤ rnd (n * w) := rnd_nonneg (mul_nonneg (by exact_mod_cast hn0.le) hw0.le)
  have p0 := pow2_pos 1024
  have fl_le : ∀ q, F64.le (fl q) (.inf false) = true := by
    intro q
    by_cases h1 : pow2 1024 ≤ rnd q
    · have e : fl q = .inf false := by unfold fl; rw [if_pos h1]
      rw [e]; rfl
    · by_cases h2 : rnd q ≤ -pow2 1024
      · have e : fl q = .inf true := by unfold fl; rw [if_neg h1, if_pos h2]
        rw [e]; rfl
      · rw [not_le] at h1 h2
        rw [fl_fin h2 h1]; rfl
  by_cases h1 : pow2 1024 ≤ rnd (n * w)
  · have e : fl (n * w) = .inf false := by unfold fl; rw [if_pos h1]
    rw [e]; rfl
  · rw [not_le] at h1
    rw [fl_fin (by linarith) h1]
    exact fl_le _

/-- C100: with a finite width and offset, the bucket of any sample whose distance to the offset does not overflow is one of the
`n + 2` buckets, and computing it is defined. -/
theorem C100_linear_partial (lg : F64 → F64) (hn0 : 0 < n) (hn : n ≤ 2 ^ 31 - 3) (hw : IsDouble w) (hw0 : 0 < w) (ho : IsDouble o)
    {v : F64} (hv : v.Ok) (hov : F64.sub v (.fin o) = .inf false → v = .inf false) :
    ∃ i, linIdx lg n (.fin w) (.fin o) v = .ok i ∧ 0 ≤ i ∧ i < n + 2 := by
  cases v with
  | nan => exact ⟨0, rfl, by omega, by omega⟩
  | inf b =>
    cases b with
    | true => exact ⟨0, rfl, by omega, by omega⟩
    | false => exact ⟨n + 1, linear_high hn0 (by omega) _ rfl (by simp) (upper_le_inf hn0 (by omega) hw0), by omega, by omega⟩
  | fin x =>
    cases h0 : F64.lt (.fin x) (.fin o) with
    | true => exact ⟨0, linear_low _ h0, by omega, by omega⟩
    | false =>
      cases h1 : F64.le (F64.add (.fin o) (F64.mul (.ofInt n) (.fin w))) (.fin x) with
      | true => exact ⟨n + 1, linear_high hn0 (by omega) _ h0 (by simp) h1, by omega, by omega⟩
      | false =>
        have hlo : o ≤ x := not_lt.mp (of_decide_eq_false h0)
        have hb : rnd (x - o) < pow2 1024 := by
          by_contra hb
          rw [not_lt] at hb
          have e : F64.sub (.fin x) (.fin o) = .inf false := by
            show fl (x + -o) = _
            unfold fl
            rw [← sub_eq_add_neg, if_pos hb]
          cases hov e
        obtain ⟨g1, g2, g3⟩ := linear_mid (lg := lg) hn0 (by omega) hw hw0 ho hv hlo h1 hb
        exact ⟨_, g1, by omega, by omega⟩

/-- C100: the distance of the sample to the offset overflows, and so does the upper bound: infinity is converted to `int`. -/
theorem C100_false_overflow : ∃ v : F64, v.Ok ∧ linIdx lg 10 (fl (10 ^ 308)) (fl (-10 ^ 308)) v = .error .badCast :=
  ⟨fl (17 * 10 ^ 307), fl_ok _, by rw [linIdx_log]; decide +kernel⟩

/-- C100: a width that is not a number is accepted, and the quotient is converted to `int`. -/
theorem C100_false_nan_width :
    (∃ d, @Dist.initLinear F64 (ops lg) 10 .nan (.fin 0) (@Dist.empty F64 (ops lg)) = .ok (.ok, d)) ∧
      linIdx lg 10 .nan (.fin 0) (.fin 1) = .error .badCast :=
  ⟨⟨_, rfl⟩, by rw [linIdx_log]; decide +kernel⟩

/-- C100: `AddSample` on such a layout succeeds as long as no counter overflows. -/
theorem C100_add_sample_partial (lg : F64 → F64) (hn0 : 0 < n) (hn : n ≤ 2 ^ 31 - 3) (hw : IsDouble w) (hw0 : 0 < w) (ho : IsDouble o)
    {v : F64} (hv : v.Ok) (hov : F64.sub v (.fin o) = .inf false → v = .inf false) (d : Distribution F64)
    (hb : d.buckets = .linear n (.fin w) (.fin o)) (hl : (d.bucketCounts.length : Int) = n + 2)
    (hc : 0 ≤ d.count ∧ d.count < 2 ^ 63 - 1) (hcs : ∀ c ∈ d.bucketCounts, 0 ≤ c ∧ c < 2 ^ 63 - 1) :
    ∃ d', @Dist.addSample F64 (ops lg) v d = .ok (.ok, d') := by
  obtain ⟨i, hi, i0, i1⟩ := C100_linear_partial lg hn0 hn hw hw0 ho hv hov
  have hu : ∃ d1, @Dist.updateGeneral F64 (ops lg) v d = .ok d1 ∧ d1.bucketCounts = d.bucketCounts := by
    unfold Dist.updateGeneral
    by_cases h0 : d.count = 0
    · rw [if_pos h0]; exact ⟨_, rfl, rfl⟩
    · rw [if_neg h0, Dist.addI64_eq (show InI64 (d.count + 1) by simp only [InI64, int64Min, Verif.int64Max]; omega)]
      exact ⟨_, rfl, rfl⟩
  obtain ⟨d1, hd1, hb1⟩ := hu
  have hlt : i.toNat < d.bucketCounts.length := by omega
  have hm := hcs _ (List.getElem_mem hlt)
  have hbump : ∃ d2, Dist.bumpBucket i d1 = .ok d2 := by
    unfold Dist.bumpBucket
    rw [if_neg (by omega), hb1, List.getElem?_eq_getElem hlt]
    show ∃ d2, (addI64 (d.bucketCounts[i.toNat]) 1).bind _ = .ok d2
    rw [Dist.addI64_eq (show InI64 (d.bucketCounts[i.toNat] + 1) by simp only [InI64, int64Min, Verif.int64Max]; omega)]
    exact ⟨_, rfl⟩
  obtain ⟨d2, hd2⟩ := hbump
  refine ⟨d2, ?_⟩
  unfold Dist.addSample
  rw [hb]
  show (@Dist.updateGeneral F64 (ops lg) v d).bind _ = _
  rw [hd1]
  show (linIdx lg n (.fin w) (.fin o) v).bind _ = _
  rw [hi]
  show (Dist.bumpBucket i d1).bind _ = _
  rw [hd2]
  rfl

/-! ### C101 -/

/-- The bucket of `x`, computed without rounding. -/
def exactLinear (n : Int) (w o x : ℚ) : Int := if x < o then 0 else if o + n * w ≤ x then n + 1 else 1 + ⌊(x - o) / w⌋

theorem floor_near {a b : ℚ} (h : |a - b| < 1) : ⌊a⌋ ≤ ⌊b⌋ + 1 ∧ ⌊b⌋ ≤ ⌊a⌋ + 1 := by
  obtain ⟨h1, h2⟩ := abs_lt.mp h
  constructor
  · have : ⌊a⌋ < ⌊b⌋ + 2 := by
      rw [Int.floor_lt]; push_cast
      have := Int.lt_floor_add_one b
      linarith
    omega
  · have : ⌊b⌋ < ⌊a⌋ + 2 := by
      rw [Int.floor_lt]; push_cast
      have := Int.lt_floor_add_one a
      linarith
    omega

/-- The smallest positive double. -/
theorem isDouble_min (hw : IsDouble w) (hw0 : 0 < w) : pow2 (-1074) ≤ w := by
  obtain ⟨m, rfl⟩ := isDouble_grid hw
  have p := pow2_pos (-1074)
  have hm : (0 : ℚ) < m := by
    by_contra h
    have := mul_nonpos_of_nonpos_of_nonneg (not_lt.mp h) p.le
    linarith
  have : (1 : ℚ) ≤ m := by exact_mod_cast (show (0 : Int) < m by exact_mod_cast hm)
  nlinarith

/-- With an offset that is not large compared to the width, the upper bound is at most one width off. -/
theorem upper_near (hn0 : 0 < n) (hn : n ≤ 2 ^ 31 - 1) (hw : IsDouble w) (hw0 : 0 < w) (hw1 : w ≤ pow2 900) (hs : |o| ≤ 2 ^ 50 * w) :
    F64.add (.fin o) (F64.mul (.ofInt n) (.fin w)) = .fin (rnd (o + rnd (n * w))) ∧ |rnd (o + rnd (n * w)) - (o + n * w)| ≤ w := by
  have hnq : (0 : ℚ) < n := by exact_mod_cast hn0
  have hnq2 : (n : ℚ) ≤ 2147483647 := by exact_mod_cast hn
  have hu0 := pow2_pos (-53)
  have hu : pow2 (-53) ≤ 1 / 2 ^ 53 := by decide +kernel
  have pos : 0 < (n : ℚ) * w := mul_pos hnq hw0
  have r0 := rnd_nonneg pos.le
  have r1 : rnd (n * w) ≤ 2 ^ 32 * w := (width_le hn0 hn hw hw0).trans (mul_le_mul_of_nonneg_right (by linarith) hw0.le)
  have hb : (2 ^ 51 : ℚ) * pow2 900 ≤ pow2 1023 := by decide +kernel
  have hb2 : (2 ^ 51 : ℚ) * w ≤ pow2 1023 := (mul_le_mul_of_nonneg_left hw1 (by norm_num)).trans hb
  have hlt : pow2 1023 < pow2 1024 := pow2_lt (by omega)
  obtain ⟨s1, s2⟩ := abs_le.mp hs
  have hnw : (n : ℚ) * w ≤ 2147483647 * w := mul_le_mul_of_nonneg_right hnq2 hw0.le
  constructor
  · rw [fl_mul_up hn0 hn, fl_bound (by linarith) (by linarith)]
    show fl (o + _) = _
    exact fl_bound (by linarith) (by linarith)
  · have E1 := rnd_err ((n : ℚ) * w)
    have E2 := rnd_err (o + rnd (n * w))
    have ht : pow2 (-1075) ≤ w / 2 := by
      have h1 := isDouble_min hw hw0
      have h2 : pow2 (-1074) = 2 * pow2 (-1075) := by decide +kernel
      linarith
    have ht0 := pow2_pos (-1075)
    rw [abs_of_pos pos] at E1
    have m1 : (n : ℚ) * w * pow2 (-53) ≤ 2147483647 * w * (1 / 2 ^ 53) := mul_le_mul hnw hu hu0.le (by positivity)
    have a2 : |o + rnd (n * w)| ≤ 2 ^ 51 * w := abs_le.mpr ⟨by linarith, by linarith⟩
    have m2 : |o + rnd (n * w)| * pow2 (-53) ≤ 2 ^ 51 * w * (1 / 2 ^ 53) := mul_le_mul a2 hu hu0.le (by positivity)
    have ht8 : pow2 (-1075) ≤ w / 2 := ht
    -- the rounding of the product is exact for small numbers
    have E1' : |rnd ((n : ℚ) * w) - n * w| ≤ w / 8 := by
      by_cases hsm : pow2 (-1022) ≤ (n : ℚ) * w
      · have hr := rnd_rel (q := (n : ℚ) * w) (by rwa [abs_of_pos pos])
        rw [abs_of_pos pos] at hr
        linarith
      · obtain ⟨m, hm⟩ := isDouble_grid hw
        have p := pow2_pos (-1074)
        have e : (n : ℚ) * w = ((n * m : Int) : ℚ) * pow2 (-1074) := by rw [hm]; push_cast; ring
        have hk : (n * m).natAbs ≤ 2 ^ 53 := by
          by_contra hbig
          have h1 : (2 ^ 53 : Int) ≤ |n * m| := by rw [Int.abs_eq_natAbs]; omega
          have h2 : ((2 ^ 53 : Int) : ℚ) ≤ |((n * m : Int) : ℚ)| := by rw [← Int.cast_abs]; exact_mod_cast h1
          have h3 := mul_le_mul_of_nonneg_right h2 p.le
          have h5 : |((n * m : Int) : ℚ)| * pow2 (-1074) = n * w := by rw [← abs_of_pos p, ← abs_mul, ← e, abs_of_pos pos]
          have h4 : pow2 (-1022) < ((2 ^ 53 : Int) : ℚ) * pow2 (-1074) := by decide +kernel
          linarith
        rw [e, rnd_exact (by omega) hk, sub_self, abs_zero]
        linarith
    obtain ⟨e1, e2⟩ := abs_le.mp E1'
    obtain ⟨e3, e4⟩ := abs_le.mp E2
    exact abs_le.mpr ⟨by linarith, by linarith⟩

/-- C101: if the offset is not large compared to the width, the bucket of a sample is at most one away from the bucket that
contains it. -/
theorem C101_within_one_partial (lg : F64 → F64) (hn0 : 0 < n) (hn : n ≤ 2 ^ 31 - 3) (hw : IsDouble w) (hw0 : 0 < w)
    (hw1 : w ≤ pow2 900) (ho : IsDouble o) (hs : |o| ≤ 2 ^ 50 * w) (hx : IsDouble x) :
    ∃ i, linIdx lg n (.fin w) (.fin o) (.fin x) = .ok i ∧ |i - exactLinear n w o x| ≤ 1 := by
  obtain ⟨hU, hUn⟩ := upper_near hn0 (by omega) hw hw0 hw1 hs
  obtain ⟨u1, u2⟩ := abs_le.mp hUn
  have hnq : (0 : ℚ) < n := by exact_mod_cast hn0
  have hnq2 : (n : ℚ) ≤ 2147483647 := by
    have : (n : ℚ) ≤ ((2 ^ 31 - 3 : Int) : ℚ) := by exact_mod_cast hn
    push_cast at this; linarith
  by_cases hlo : x < o
  · refine ⟨0, linear_low _ (decide_eq_true hlo), ?_⟩
    rw [exactLinear, if_pos hlo]; decide
  · have hlt : F64.lt (.fin x) (.fin o) = false := decide_eq_false hlo
    have hlo' := not_lt.mp hlo
    rw [exactLinear, if_neg hlo]
    have fl_lt : ∀ {a : ℚ} {k : Int}, a < k + 1 → ⌊a⌋ ≤ k := by
      intro a k h
      have : ⌊a⌋ < k + 1 := by rw [Int.floor_lt]; push_cast; exact h
      omega
    cases h1 : F64.le (F64.add (.fin o) (F64.mul (.ofInt n) (.fin w))) (.fin x) with
    | true =>
      refine ⟨n + 1, linear_high hn0 (by omega) _ hlt (by simp) h1, ?_⟩
      rw [hU, le_fin] at h1
      by_cases hh : o + n * w ≤ x
      · rw [if_pos hh, sub_self]; decide
      · rw [if_neg hh]
        have a1 : ((n - 1 : Int) : ℚ) ≤ (x - o) / w := by
          rw [le_div_iff₀ hw0]; push_cast; linarith
        have a2 : (x - o) / w < n + 1 := by
          rw [div_lt_iff₀ hw0]; linarith
        have b1 := Int.le_floor.mpr a1
        have b2 := fl_lt a2
        rw [abs_le]; constructor <;> omega
    | false =>
      have hxu : x < rnd (o + rnd (n * w)) := by rwa [hU, le_fin_false] at h1
      have hd1 : x - o ≤ 2 ^ 32 * w := by
        have := mul_le_mul_of_nonneg_right hnq2 hw0.le
        linarith
      have hov : rnd (x - o) < pow2 1024 := by
        have e : rnd (pow2 1023) = pow2 1023 := by
          have := rnd_exact (m := 1) (k := 1023) (by omega) (by decide)
          rwa [Int.cast_one, one_mul] at this
        have hb : (2 ^ 32 : ℚ) * pow2 900 ≤ pow2 1023 := by decide +kernel
        have hb2 : x - o ≤ pow2 1023 := hd1.trans ((mul_le_mul_of_nonneg_left hw1 (by norm_num)).trans hb)
        have := rnd_mono hb2
        rw [e] at this
        exact lt_of_le_of_lt this (pow2_lt (by omega))
      obtain ⟨g1, g2, g3⟩ := linear_mid (lg := lg) hn0 (by omega) hw hw0 ho hx hlo' h1 hov
      refine ⟨_, g1, ?_⟩
      have hu0 := pow2_pos (-53)
      have hu : pow2 (-53) ≤ 1 / 2 ^ 53 := by decide +kernel
      have ht0 := pow2_pos (-1075)
      have ht : pow2 (-1075) ≤ 1 / 2 ^ 53 := by decide +kernel
      have x0 : 0 ≤ x - o := by linarith
      have S := rnd_sub_rel hx ho
      rw [abs_of_nonneg x0] at S
      have d0 := rnd_nonneg x0
      have Ee : (x - o) / w ≤ 2 ^ 32 := by rw [div_le_iff₀ hw0]; exact hd1
      have E0 : 0 ≤ (x - o) / w := div_nonneg x0 hw0.le
      have D : |rnd (x - o) / w - (x - o) / w| ≤ (x - o) / w * pow2 (-53) := by
        rw [← sub_div, abs_div, abs_of_pos hw0, div_mul_eq_mul_div]
        exact div_le_div_of_nonneg_right S hw0.le
      have Q := rnd_err (rnd (x - o) / w)
      rw [abs_of_nonneg (div_nonneg d0 hw0.le)] at Q
      have m1 : (x - o) / w * pow2 (-53) ≤ 2 ^ 32 * (1 / 2 ^ 53) := mul_le_mul Ee hu hu0.le (by norm_num)
      obtain ⟨D1, D2⟩ := abs_le.mp D
      have m2 : rnd (x - o) / w * pow2 (-53) ≤ 2 ^ 33 * (1 / 2 ^ 53) := mul_le_mul (by linarith) hu hu0.le (by norm_num)
      obtain ⟨Q1, Q2⟩ := abs_le.mp Q
      have near : |rnd (rnd (x - o) / w) - (x - o) / w| < 1 := abs_lt.mpr ⟨by linarith, by linarith⟩
      obtain ⟨f1, f2⟩ := floor_near near
      by_cases hh : o + n * w ≤ x
      · rw [if_pos hh]
        have a1 : (n : ℚ) ≤ (x - o) / w := by rw [le_div_iff₀ hw0]; linarith
        have b1 : n ≤ ⌊(x - o) / w⌋ := Int.le_floor.mpr a1
        rw [abs_le]; constructor <;> omega
      · rw [if_neg hh, abs_le]; constructor <;> omega

/-- C101: the bucket of a sample need not be the one that contains it: 0.5 is less than five times the double 0.1. -/
theorem C101_false_adjacent :
    linIdx lg 10 (fl (1 / 10)) (.fin 0) (.fin (1 / 2)) = .ok 6 ∧
      fl (1 / 10) = .fin (3602879701896397 * pow2 (-55)) ∧ exactLinear 10 (3602879701896397 * pow2 (-55)) 0 (1 / 2) = 5 := by
  refine ⟨by rw [linIdx_log]; decide +kernel, by decide +kernel, by decide +kernel⟩

/-- C101: with a large offset, a sample at the lower end of the layout is counted in the overflow bucket. -/
theorem C101_false_far :
    linIdx lg 100 (.fin 1) (.fin (2 ^ 60)) (.fin (2 ^ 60)) = .ok 101 ∧ exactLinear 100 1 (2 ^ 60) (2 ^ 60) = 1 ∧ IsDouble (2 ^ 60) := by
  refine ⟨by rw [linIdx_log]; decide +kernel, by decide +kernel, ⟨1, 60, by omega, by decide, by decide +kernel, by decide +kernel, by decide +kernel⟩⟩

/-- The hypotheses of `C101_within_one_partial` for ten buckets of width 0.1 and the sample 0.5. -/
example : IsDouble (3602879701896397 * pow2 (-55)) ∧ (3602879701896397 * pow2 (-55) : ℚ) ≤ pow2 900 ∧
    |(0 : ℚ)| ≤ 2 ^ 50 * (3602879701896397 * pow2 (-55)) ∧ IsDouble (1 / 2) :=
  ⟨⟨3602879701896397, -55, by omega, by decide, rfl, by decide +kernel, by decide +kernel⟩, by decide +kernel, by decide +kernel,
    ⟨1, -1, by omega, by decide, by decide +kernel, by decide +kernel, by decide +kernel⟩⟩

/-! ### C102 -/

/-- The three cases of `UpdateLinearBucketCount`. -/
theorem linear_cases (hn0 : 0 < n) (hn : n ≤ 2 ^ 31 - 3) (hw : IsDouble w) (hw0 : 0 < w) (ho : IsDouble o)
    {v : F64} (hv : v.Ok) (hnan : v ≠ .nan) {i : Int} (hi : linIdx lg n (.fin w) (.fin o) v = .ok i) :
    (F64.lt v (.fin o) = true ∧ i = 0) ∨
    (F64.lt v (.fin o) = false ∧ F64.le (F64.add (.fin o) (F64.mul (.ofInt n) (.fin w))) v = true ∧ i = n + 1) ∨
    ∃ x, v = .fin x ∧ o ≤ x ∧ F64.le (F64.add (.fin o) (F64.mul (.ofInt n) (.fin w))) v = false ∧
      i = 1 + ⌊rnd (rnd (x - o) / w)⌋ ∧ 0 ≤ ⌊rnd (rnd (x - o) / w)⌋ ∧ ⌊rnd (rnd (x - o) / w)⌋ ≤ n := by
  cases h0 : F64.lt v (.fin o) with
  | true =>
    rw [linear_low _ h0] at hi
    cases hi
    exact .inl ⟨rfl, rfl⟩
  | false =>
    cases h1 : F64.le (F64.add (.fin o) (F64.mul (.ofInt n) (.fin w))) v with
    | true =>
      rw [linear_high hn0 (by omega) _ h0 hnan h1] at hi
      cases hi
      exact .inr (.inl ⟨rfl, rfl, rfl⟩)
    | false =>
      refine .inr (.inr ?_)
      cases v with
      | nan => exact absurd rfl hnan
      | inf b =>
        cases b with
        | true => cases h0
        | false => rw [upper_le_inf hn0 (by omega) hw0] at h1; cases h1
      | fin x =>
        have hlo : o ≤ x := not_lt.mp (of_decide_eq_false h0)
        by_cases hb : rnd (x - o) < pow2 1024
        · obtain ⟨g1, g2, g3⟩ := linear_mid (lg := lg) hn0 (by omega) hw hw0 ho hv hlo h1 hb
          rw [g1] at hi
          cases hi
          exact ⟨x, rfl, hlo, rfl, rfl, g2, g3⟩
        · exfalso
          have e : F64.sub (.fin x) (.fin o) = .inf false := by
            show fl (x + -o) = _
            rw [← sub_eq_add_neg]
            exact fl_top (not_lt.mp hb)
          have step : linIdx lg n (.fin w) (.fin o) (.fin x) = if (F64.lt (.fin x) (.fin o) || false) = true then .ok 0
              else if F64.le (F64.add (.fin o) (F64.mul (.ofInt n) (.fin w))) (.fin x) = true then addI32 n 1
              else (@Dist.castInt F64 (ops lg) (F64.div (F64.sub (.fin x) (.fin o)) (.fin w))).bind fun q => addI32 1 q := rfl
          rw [step, h0, h1, e] at hi
          cases hi

theorem le_trans' {a b c : F64} (h : F64.le a b = true) (g : F64.le b c = true) : F64.le a c = true := by
  cases a with
  | nan => cases b <;> cases h
  | inf s =>
    cases b with
    | nan => cases s <;> cases h
    | inf t =>
      cases c with
      | nan => cases t <;> cases g
      | inf r => cases s <;> cases t <;> cases r <;> first | rfl | exact Bool.noConfusion h | exact Bool.noConfusion g
      | fin z => cases s <;> cases t <;> first | rfl | exact Bool.noConfusion h | exact Bool.noConfusion g
    | fin y =>
      cases c with
      | nan => cases g
      | inf r => cases s <;> cases r <;> first | rfl | exact Bool.noConfusion h
      | fin z => cases s <;> first | rfl | exact Bool.noConfusion h
  | fin x =>
    cases b with
    | nan => cases h
    | inf t =>
      cases c with
      | nan => cases t <;> cases g
      | inf r => cases t <;> cases r <;> first | rfl | exact Bool.noConfusion h | exact Bool.noConfusion g
      | fin z => cases t <;> first | exact Bool.noConfusion h | exact Bool.noConfusion g
    | fin y =>
      cases c with
      | nan => cases g
      | inf r => cases r <;> first | rfl | exact Bool.noConfusion g
      | fin z => rw [le_fin] at *; exact h.trans g

theorem lt_of_le' {a b c : F64} (h : F64.le a b = true) (g : F64.lt b c = true) : F64.lt a c = true := by
  cases a with
  | nan => cases b <;> cases h
  | inf s =>
    cases b with
    | nan => cases s <;> cases h
    | inf t =>
      cases c with
      | nan => cases t <;> cases g
      | inf r => cases s <;> cases t <;> cases r <;> first | rfl | exact Bool.noConfusion h | exact Bool.noConfusion g
      | fin z => cases s <;> cases t <;> first | rfl | exact Bool.noConfusion h | exact Bool.noConfusion g
    | fin y =>
      cases c with
      | nan => cases g
      | inf r => cases s <;> cases r <;> first | rfl | exact Bool.noConfusion h | exact Bool.noConfusion g
      | fin z => cases s <;> first | rfl | exact Bool.noConfusion h
  | fin x =>
    cases b with
    | nan => cases h
    | inf t =>
      cases c with
      | nan => cases t <;> cases g
      | inf r => cases t <;> cases r <;> first | rfl | exact Bool.noConfusion h | exact Bool.noConfusion g
      | fin z => cases t <;> first | exact Bool.noConfusion h | exact Bool.noConfusion g
    | fin y =>
      cases c with
      | nan => cases g
      | inf r => cases r <;> first | rfl | exact Bool.noConfusion g
      | fin z =>
        rw [le_fin] at h
        exact decide_eq_true (lt_of_le_of_lt h (of_decide_eq_true g))

/-- C102: with a linear layout, a larger sample never lands in a lower bucket. -/
theorem C102_linear (lg : F64 → F64) (hn0 : 0 < n) (hn : n ≤ 2 ^ 31 - 3) (hw : IsDouble w) (hw0 : 0 < w) (ho : IsDouble o)
    {v v' : F64} (hv : v.Ok) (hv' : v'.Ok) (hle : F64.le v v' = true) {i j : Int}
    (hi : linIdx lg n (.fin w) (.fin o) v = .ok i) (hj : linIdx lg n (.fin w) (.fin o) v' = .ok j) : i ≤ j := by
  have n1 : v ≠ .nan := by rintro rfl; cases v' <;> cases hle
  have n2 : v' ≠ .nan := by
    rintro rfl
    cases v with
    | inf s => cases s <;> cases hle
    | _ => cases hle
  rcases linear_cases hn0 hn hw hw0 ho hv n1 hi with ⟨a1, rfl⟩ | ⟨a1, a2, rfl⟩ | ⟨x, rfl, a1, a2, rfl, a3, a4⟩
  · rcases linear_cases hn0 hn hw hw0 ho hv' n2 hj with ⟨b1, rfl⟩ | ⟨b1, b2, rfl⟩ | ⟨y, rfl, b1, b2, rfl, b3, b4⟩ <;> omega
  · rcases linear_cases hn0 hn hw hw0 ho hv' n2 hj with ⟨b1, rfl⟩ | ⟨b1, b2, rfl⟩ | ⟨y, rfl, b1, b2, rfl, b3, b4⟩
    · rw [lt_of_le' hle b1] at a1; cases a1
    · exact le_refl _
    · rw [le_trans' a2 hle] at b2; cases b2
  · rcases linear_cases hn0 hn hw hw0 ho hv' n2 hj with ⟨b1, rfl⟩ | ⟨b1, b2, rfl⟩ | ⟨y, rfl, b1, b2, rfl, b3, b4⟩
    · have := lt_of_le' hle b1
      exact absurd (of_decide_eq_true this) (not_lt.mpr a1)
    · omega
    · have h1 : rnd (x - o) ≤ rnd (y - o) := rnd_mono (by linarith [le_fin.mp hle])
      have h2 := Int.floor_le_floor (rnd_mono (div_le_div_of_nonneg_right h1 hw0.le))
      omega

/-- C102: with an exponential layout, a larger sample never lands in a lower bucket if `log2` is monotone on positive numbers, is
zero at one, and positive at the growth factor. -/
theorem C102_exponential (lg : F64 → F64) (hlg : ∀ a b, F64.lt (.fin 0) a = true → F64.le a b = true → F64.le (lg a) (lg b) = true)
    (hlg1 : lg (.fin 1) = .fin 0) {g : F64} {s r : ℚ} (hs : 0 < s) (hg : lg g = .fin r) (hr : 0 < r) (hn0 : 0 < n)
    {v v' : F64} (hle : F64.le v v' = true)
    {i j : Int} (hi : @Dist.exponentialIndex F64 (ops lg) n g (.fin s) v = .ok i)
    (hj : @Dist.exponentialIndex F64 (ops lg) n g (.fin s) v' = .ok j) : i ≤ j := by
  have cases' : ∀ (u : F64) (k : Int), @Dist.exponentialIndex F64 (ops lg) n g (.fin s) u = .ok k →
      (F64.le (.fin s) u = false ∧ k = 0) ∨ (F64.le (.fin s) u = true ∧ ∃ q,
        F64.toInt (-(2 ^ 31)) (2 ^ 31 - 1) (F64.div (lg (F64.div u (.fin s))) (.fin r)) = some q ∧ k = if 1 + q > n + 1 then n + 1 else 1 + q) := by
    intro u k hk
    have step : @Dist.exponentialIndex F64 (ops lg) n g (.fin s) u = if F64.le (.fin s) u = true then
        (@Dist.castInt F64 (ops lg) (F64.div (lg (F64.div u (.fin s))) (lg g))).bind fun q => (addI32 1 q).bind fun i =>
          (addI32 n 1).bind fun last => .ok (if i > last then last else i) else .ok 0 := rfl
    rw [step, hg] at hk
    cases h0 : F64.le (.fin s) u with
    | false => rw [h0] at hk; cases hk; exact .inl ⟨rfl, rfl⟩
    | true =>
      rw [h0, if_pos rfl] at hk
      refine .inr ⟨rfl, ?_⟩
      have e : @Dist.castInt F64 (ops lg) (F64.div (lg (F64.div u (.fin s))) (.fin r)) =
        match F64.toInt (-(2 ^ 31)) (2 ^ 31 - 1) (F64.div (lg (F64.div u (.fin s))) (.fin r)) with
        | some i => .ok i
        | none => .error .badCast := rfl
      rw [e] at hk
      cases hq : F64.toInt (-(2 ^ 31)) (2 ^ 31 - 1) (F64.div (lg (F64.div u (.fin s))) (.fin r)) with
      | none => rw [hq] at hk; cases hk
      | some q =>
        rw [hq] at hk
        refine ⟨q, rfl, ?_⟩
        change (addI32 1 q).bind _ = _ at hk
        cases h1 : addI32 1 q with
        | error f => rw [h1] at hk; cases hk
        | ok c =>
          rw [h1] at hk
          change (addI32 n 1).bind _ = _ at hk
          cases h2 : addI32 n 1 with
          | error f => rw [h2] at hk; cases hk
          | ok l =>
            rw [h2] at hk
            cases hk
            rw [(Dist.addI32_ok h1).1, (Dist.addI32_ok h2).1]
  have e1 : F64.div (.fin s) (.fin s) = .fin 1 := by
    rw [div_fin hs.ne', div_self hs.ne']
    decide +kernel
  have e0 : F64.div (.fin 0) (.fin r) = .fin 0 := by
    rw [div_fin hr.ne', zero_div]
    decide +kernel
  have pos : ∀ u, F64.le (.fin s) u = true → F64.le (.fin 1) (F64.div u (.fin s)) = true := by
    intro u hu
    have := div_mono hs hu
    rwa [e1] at this
  have pos' : ∀ u, F64.le (.fin 1) u = true → F64.lt (.fin 0) u = true := by
    intro u hu
    cases u with
    | nan => cases hu
    | inf s => cases s <;> first | rfl | exact Bool.noConfusion hu
    | fin y => exact decide_eq_true (lt_of_lt_of_le one_pos (le_fin.mp hu))
  have nonneg : ∀ u q, F64.le (.fin s) u = true →
      F64.toInt (-(2 ^ 31)) (2 ^ 31 - 1) (F64.div (lg (F64.div u (.fin s))) (.fin r)) = some q → 0 ≤ q := by
    intro u q hu hq
    have h1 := hlg (.fin 1) _ (by decide +kernel) (pos u hu)
    rw [hlg1] at h1
    have h2 := div_mono hr h1
    rw [e0] at h2
    have h3 : F64.toInt (-(2 ^ 31)) (2 ^ 31 - 1) (.fin 0) = some 0 := by decide +kernel
    exact toInt_mono h2 h3 hq
  rcases cases' _ _ hi with ⟨a1, rfl⟩ | ⟨a1, q, hq, rfl⟩
  · rcases cases' _ _ hj with ⟨b1, rfl⟩ | ⟨b1, p, hp, rfl⟩
    · exact le_refl _
    · have := nonneg _ _ b1 hp
      split <;> omega
  · rcases cases' _ _ hj with ⟨b1, rfl⟩ | ⟨b1, p, hp, rfl⟩
    · rw [le_trans' a1 hle] at b1; cases b1
    · have h1 := hlg _ _ (pos' _ (pos v a1)) (div_mono hs hle)
      have := toInt_mono (div_mono hr h1) hq hp
      split <;> split <;> omega

/-- C100: with an exponential layout, the bucket of any sample whose quotient by the scale does not overflow is one of the `n + 2`
buckets, and computing it is defined, if the logarithm of the growth factor is at least 2^-20, and `log2` is monotone on positive
numbers, zero at one and at most 1024 on finite numbers. -/
theorem C100_exponential_partial (lg : F64 → F64) (hlg : ∀ a b, F64.lt (.fin 0) a = true → F64.le a b = true → F64.le (lg a) (lg b) = true)
    (hlg1 : lg (.fin 1) = .fin 0) (hlg2 : ∀ q, IsDouble q → 0 < q → F64.le (lg (.fin q)) (.fin 1024) = true)
    {g : F64} {s r : ℚ} (hs : 0 < s) (hg : lg g = .fin r) (hr : pow2 (-20) ≤ r) (hn0 : 0 < n) (hn : n ≤ 2 ^ 31 - 3)
    {v : F64} (hov : F64.div v (.fin s) ≠ .inf false) :
    ∃ i, @Dist.exponentialIndex F64 (ops lg) n g (.fin s) v = .ok i ∧ 0 ≤ i ∧ i < n + 2 := by
  have step : @Dist.exponentialIndex F64 (ops lg) n g (.fin s) v = if F64.le (.fin s) v = true then
      (@Dist.castInt F64 (ops lg) (F64.div (lg (F64.div v (.fin s))) (lg g))).bind fun q => (addI32 1 q).bind fun i =>
        (addI32 n 1).bind fun last => .ok (if i > last then last else i) else .ok 0 := rfl
  rw [step, hg]
  cases h0 : F64.le (.fin s) v with
  | false => exact ⟨0, rfl, by omega, by omega⟩
  | true =>
    rw [if_pos rfl]
    have hr0 : 0 < r := lt_of_lt_of_le (by decide +kernel) hr
    have e1 : F64.div (.fin s) (.fin s) = .fin 1 := by
      rw [div_fin hs.ne', div_self hs.ne']
      decide +kernel
    have h1 := div_mono hs h0
    rw [e1] at h1
    obtain ⟨x, hx, hxd, hx1⟩ : ∃ x, F64.div v (.fin s) = .fin x ∧ IsDouble x ∧ 1 ≤ x := by
      cases v with
      | nan => cases h0
      | inf b =>
        cases b with
        | true => cases h0
        | false => exact absurd (by show F64.inf (false != decide (s < 0)) = _; rw [decide_eq_false (not_lt.mpr hs.le)]; rfl) hov
      | fin y =>
        rw [div_fin hs.ne'] at hov h1 ⊢
        have hok := fl_ok (y / s)
        cases hf : fl (y / s) with
        | nan => rw [hf] at h1; cases h1
        | inf b =>
          cases b with
          | true => rw [hf] at h1; cases h1
          | false => exact absurd hf hov
        | fin x =>
          rw [hf] at h1 hok
          exact ⟨x, rfl, hok, le_fin.mp h1⟩
    rw [hx] at h1 ⊢
    have h2 := hlg (.fin 1) (.fin x) (by decide +kernel) h1
    rw [hlg1] at h2
    have h3 := hlg2 x hxd (by linarith)
    obtain ⟨y, hy, hy0, hy1⟩ : ∃ y, lg (.fin x) = .fin y ∧ 0 ≤ y ∧ y ≤ 1024 := by
      cases hf : lg (.fin x) with
      | nan => rw [hf] at h2; cases h2
      | inf b =>
        cases b with
        | true => rw [hf] at h2; cases h2
        | false => rw [hf] at h3; cases h3
      | fin y =>
        rw [hf] at h2 h3
        exact ⟨y, rfl, le_fin.mp h2, le_fin.mp h3⟩
    rw [hy, div_fin hr0.ne']
    have hq0 : 0 ≤ y / r := div_nonneg hy0 hr0.le
    have hq1 : y / r ≤ ((2 ^ 30 : Int) : ℚ) := by
      rw [div_le_iff₀ hr0]
      have h5 : ((2 ^ 30 : Int) : ℚ) * pow2 (-20) = 1024 := by decide +kernel
      exact (hy1.trans h5.ge).trans (mul_le_mul_of_nonneg_left hr (by decide +kernel))
    have hr1 : rnd (y / r) ≤ ((2 ^ 30 : Int) : ℚ) := by
      have := rnd_mono hq1
      rwa [rnd_int (by decide)] at this
    have hr2 := rnd_nonneg hq0
    have big : ((2 ^ 30 : Int) : ℚ) < pow2 1024 := by decide +kernel
    have neg : -pow2 1024 < 0 := by decide +kernel
    rw [fl_fin (lt_of_lt_of_le neg hr2) (lt_of_le_of_lt hr1 big)]
    have t0 : F64.trunc (rnd (y / r)) = ⌊rnd (y / r)⌋ := by unfold F64.trunc; rw [if_neg (not_lt.mpr hr2)]
    have t1 : 0 ≤ ⌊rnd (y / r)⌋ := Int.floor_nonneg.mpr hr2
    have t2 : ⌊rnd (y / r)⌋ ≤ 2 ^ 30 := by
      have := Int.floor_le_floor hr1
      rwa [Int.floor_intCast] at this
    have e : @Dist.castInt F64 (ops lg) (.fin (rnd (y / r))) = .ok ⌊rnd (y / r)⌋ := by
      show (match F64.toInt (-(2 ^ 31)) (2 ^ 31 - 1) (.fin (rnd (y / r))) with | some i => (Except.ok i : Res Int) | none => .error .badCast) = _
      have e2 : F64.toInt (-(2 ^ 31)) (2 ^ 31 - 1) (.fin (rnd (y / r))) = some ⌊rnd (y / r)⌋ := by
        show (if -(2 ^ 31) ≤ F64.trunc (rnd (y / r)) ∧ F64.trunc (rnd (y / r)) ≤ 2 ^ 31 - 1 then some (F64.trunc (rnd (y / r))) else none) = _
        rw [t0, if_pos ⟨by omega, by omega⟩]
      rw [e2]
    rw [e]
    generalize ⌊rnd (y / r)⌋ = q at t1 t2
    have a1 : addI32 1 q = .ok (1 + q) := by
      unfold addI32; rw [if_pos]
      simp only [InI32, int32Min, int32Max]; omega
    have a2 : addI32 n 1 = .ok (n + 1) := by
      unfold addI32; rw [if_pos]
      simp only [InI32, int32Min, int32Max]; omega
    show ∃ i, (addI32 1 q).bind _ = .ok i ∧ _
    rw [a1]
    show ∃ i, (addI32 n 1).bind _ = .ok i ∧ _
    rw [a2]
    refine ⟨_, rfl, ?_, ?_⟩ <;> split <;> omega

theorem accepts_exponential (lg : F64 → F64) {g s : F64} (h1 : F64.le g (.fin 1) = false) (h2 : F64.le s (.fin 0) = false) :
    ∃ d, @Dist.initExponential F64 (ops lg) 10 g s (@Dist.empty F64 (ops lg)) = .ok (.ok, d) := by
  have step : @Dist.initExponential F64 (ops lg) 10 g s (@Dist.empty F64 (ops lg)) =
    if F64.le g (.fin 1) = true then .ok (.invalidArgument, @Dist.empty F64 (ops lg))
    else if F64.le s (.fin 0) = true then .ok (.invalidArgument, @Dist.empty F64 (ops lg))
    else .ok (.ok, { @Dist.empty F64 (ops lg) with buckets := .exponential 10 g s, bucketCounts := Dist.resize (@Dist.empty F64 (ops lg)).bucketCounts 12 }) := rfl
  rw [step, h1, h2]
  exact ⟨_, rfl⟩

/-- C100: the quotient of a sample by a scale below one overflows and infinity is converted to `int`; so does the sample infinity. -/
theorem C100_false_exponential_overflow (lg : F64 → F64) (h1 : lg (.fin 2) = .fin 1) (h2 : lg (.inf false) = .inf false) :
    (∃ d, @Dist.initExponential F64 (ops lg) 10 (.fin 2) (.fin (1 / 2)) (@Dist.empty F64 (ops lg)) = .ok (.ok, d)) ∧
    @Dist.exponentialIndex F64 (ops lg) 10 (.fin 2) (.fin (1 / 2)) (fl (17 * 10 ^ 307)) = .error .badCast ∧
    @Dist.exponentialIndex F64 (ops lg) 10 (.fin 2) (.fin (1 / 2)) (.inf false) = .error .badCast := by
  have hi : ∀ v, F64.le (.fin (1 / 2)) v = true → F64.div v (.fin (1 / 2)) = .inf false →
      @Dist.exponentialIndex F64 (ops lg) 10 (.fin 2) (.fin (1 / 2)) v = .error .badCast := by
    intro v hv hd
    have step : @Dist.exponentialIndex F64 (ops lg) 10 (.fin 2) (.fin (1 / 2)) v = if F64.le (.fin (1 / 2)) v = true then
        (@Dist.castInt F64 (ops lg) (F64.div (lg (F64.div v (.fin (1 / 2)))) (lg (.fin 2)))).bind fun q => (addI32 1 q).bind fun i =>
          (addI32 10 1).bind fun last => .ok (if i > last then last else i) else .ok 0 := rfl
    rw [step, hd, h1, h2, if_pos hv]
    rfl
  exact ⟨accepts_exponential lg (by decide +kernel) (by decide +kernel), hi _ (by decide +kernel) (by decide +kernel), hi _ (by decide +kernel) (by decide +kernel)⟩

/-- C100: with a growth factor next to one, accepted by `InitExponential`, the sample 2 is converted to an `int` out of range. -/
theorem C100_false_exponential_growth (lg : F64 → F64) {r : ℚ} (h1 : lg (.fin 2) = .fin 1) (hr0 : 0 < r) (hr : r ≤ pow2 (-51))
    (h2 : lg (.fin (1 + pow2 (-52))) = .fin r) :
    (∃ d, @Dist.initExponential F64 (ops lg) 10 (.fin (1 + pow2 (-52))) (.fin 1) (@Dist.empty F64 (ops lg)) = .ok (.ok, d)) ∧
    @Dist.exponentialIndex F64 (ops lg) 10 (.fin (1 + pow2 (-52))) (.fin 1) (.fin 2) = .error .badCast := by
  refine ⟨accepts_exponential lg (by decide +kernel) (by decide +kernel), ?_⟩
  have step : @Dist.exponentialIndex F64 (ops lg) 10 (.fin (1 + pow2 (-52))) (.fin 1) (.fin 2) = if F64.le (.fin 1) (.fin 2) = true then
      (@Dist.castInt F64 (ops lg) (F64.div (lg (F64.div (.fin 2) (.fin 1))) (lg (.fin (1 + pow2 (-52)))))).bind fun q => (addI32 1 q).bind fun i =>
        (addI32 10 1).bind fun last => .ok (if i > last then last else i) else .ok 0 := rfl
  rw [step, if_pos (by decide +kernel), show F64.div (.fin 2) (.fin 1) = .fin 2 from by decide +kernel, h1, h2]
  have hle : F64.le (.fin ((2 ^ 51 : Int) : ℚ)) (F64.div (.fin 1) (.fin r)) = true := by
    rw [div_fin hr0.ne', ← fl_double (q := ((2 ^ 51 : Int) : ℚ)) ⟨2 ^ 51, 0, by decide, by decide, by decide +kernel, by decide +kernel, by decide +kernel⟩]
    refine fl_mono ?_
    rw [le_div_iff₀ hr0]
    have h5 : ((2 ^ 51 : Int) : ℚ) * pow2 (-51) = 1 := by decide +kernel
    exact (mul_le_mul_of_nonneg_left hr (by decide +kernel)).trans h5.le
  have hc : F64.toInt (-(2 ^ 31)) (2 ^ 31 - 1) (F64.div (.fin 1) (.fin r)) = none := by
    cases hf : F64.div (.fin 1) (.fin r) with
    | nan => rfl
    | inf b => rfl
    | fin y =>
      rw [hf] at hle
      have hy := le_fin.mp hle
      have hy0 : ¬ y < 0 := not_lt.mpr (le_trans (by decide +kernel) hy)
      have hfl := Int.floor_le_floor hy
      rw [Int.floor_intCast] at hfl
      have t0 : F64.trunc y = ⌊y⌋ := by unfold F64.trunc; rw [if_neg hy0]
      show (if -(2 ^ 31) ≤ F64.trunc y ∧ F64.trunc y ≤ 2 ^ 31 - 1 then some (F64.trunc y) else none) = none
      rw [t0, if_neg]
      omega
  have e : @Dist.castInt F64 (ops lg) (F64.div (.fin 1) (.fin r)) = .error .badCast := by
    show (match F64.toInt (-(2 ^ 31)) (2 ^ 31 - 1) (F64.div (.fin 1) (.fin r)) with | some i => (Except.ok i : Res Int) | none => .error .badCast) = _
    rw [hc]
  rw [e]
  rfl

/-! ### Explicit layouts -/

theorem lt_trans' {a b c : F64} (h : F64.lt a b = true) (g : F64.lt b c = true) : F64.lt a c = true :=
  lt_of_le' (by unfold F64.le; rw [h, Bool.true_or]) g

theorem le_of_not_lt {a b : F64} (ha : a ≠ .nan) (hb : b ≠ .nan) (h : F64.lt a b = false) : F64.le b a = true := by
  cases a with
  | nan => exact absurd rfl ha
  | inf s =>
    cases b with
    | nan => exact absurd rfl hb
    | inf t => cases s <;> cases t <;> first | rfl | exact Bool.noConfusion h
    | fin y => cases s <;> first | rfl | exact Bool.noConfusion h
  | fin x =>
    cases b with
    | nan => exact absurd rfl hb
    | inf t => cases t <;> first | rfl | exact Bool.noConfusion h
    | fin y => exact le_fin.mpr (not_lt.mp (of_decide_eq_false h))

/-- `std::upper_bound` on increasing bounds. -/
theorem upperBound_f64 (lg : F64 → F64) (bs : List F64) (v : F64) (hp : bs.Pairwise fun a b => F64.lt a b = true) (first len : Nat)
    (h : first + len ≤ bs.length)
    (hlo : ∀ i b, i < first → bs[i]? = some b → F64.lt v b = false)
    (hhi : ∀ i b, first + len ≤ i → bs[i]? = some b → F64.lt v b = true) :
    (∀ i b, i < @Dist.upperBound F64 (ops lg) bs v first len → bs[i]? = some b → F64.lt v b = false) ∧
    (∀ i b, @Dist.upperBound F64 (ops lg) bs v first len ≤ i → bs[i]? = some b → F64.lt v b = true) := by
  induction len using Nat.strongRecOn generalizing first with
  | _ len ih =>
    unfold Dist.upperBound
    split
    · rename_i h0; subst h0
      exact ⟨hlo, by simpa using hhi⟩
    · rename_i h0
      simp only
      have hm : first + len / 2 < bs.length := by omega
      rw [List.getElem?_eq_getElem hm]
      simp only
      have mono : ∀ (i j : Nat) (bi bj : F64), i < j → bs[i]? = some bi → bs[j]? = some bj → F64.lt bi bj = true := by
        intro i j bi bj hij hi hj
        obtain ⟨hi1, rfl⟩ := List.getElem?_eq_some_iff.mp hi
        obtain ⟨hj1, rfl⟩ := List.getElem?_eq_some_iff.mp hj
        exact List.pairwise_iff_getElem.mp hp i j hi1 hj1 hij
      have hme : bs[first + len / 2]? = some bs[first + len / 2] := List.getElem?_eq_getElem hm
      split
      · rename_i hlt
        change F64.lt v _ = true at hlt
        apply ih (len / 2) (by omega) first (by omega) hlo
        intro i b hi hb
        rcases Nat.eq_or_lt_of_le hi with rfl | hi
        · rw [hme] at hb; cases hb; exact hlt
        · exact lt_trans' hlt (mono _ _ _ _ hi hme hb)
      · rename_i hlt
        have hge : F64.lt v bs[first + len / 2] = false := Bool.not_eq_true _ ▸ hlt
        apply ih (len - len / 2 - 1) (by omega) (first + len / 2 + 1) (by omega)
        · intro i b hi hb
          rcases Nat.eq_or_lt_of_le (Nat.le_of_lt_succ hi) with rfl | hi
          · rw [hme] at hb; cases hb; exact hge
          · cases hv : F64.lt v b with
            | false => rfl
            | true => rw [lt_trans' hv (mono _ _ _ _ hi hb hme)] at hge; cases hge
        · intro i b hi hb
          exact hhi i b (by omega) hb

/-- Bounds that `InitExplicit` accepts are increasing if they are numbers. -/
theorem accepted_pairwise (lg : F64 → F64) (bs : List F64) (hs : @Dist.isSorted F64 (ops lg) bs = true)
    (ha : @Dist.hasAdjacentEqual F64 (ops lg) bs = false) (hnan : ∀ b ∈ bs, b ≠ .nan) : bs.Pairwise fun a b => F64.lt a b = true := by
  have tr : ∀ (a : F64) (l : List F64), (∀ b ∈ l.head?, F64.lt a b = true) → l.Pairwise (fun a b => F64.lt a b = true) →
      ∀ b ∈ l, F64.lt a b = true := by
    intro a l h hp b hb
    cases l with
    | nil => cases hb
    | cons c t =>
      rcases List.mem_cons.mp hb with rfl | hb
      · exact h _ rfl
      · exact lt_trans' (h c rfl) ((List.pairwise_cons.mp hp).1 b hb)
  induction bs with
  | nil => exact .nil
  | cons a t ih =>
    cases t with
    | nil => exact .cons (by intro b hb; cases hb) .nil
    | cons b t =>
      change (!F64.lt b a && @Dist.isSorted F64 (ops lg) (b :: t)) = true at hs
      change (F64.eq a b || @Dist.hasAdjacentEqual F64 (ops lg) (b :: t)) = false at ha
      rw [Bool.and_eq_true] at hs
      rw [Bool.or_eq_false_iff] at ha
      have hp := ih hs.2 ha.2 (fun c hc => hnan c (List.mem_cons_of_mem _ hc))
      refine .cons (tr a _ ?_ hp) hp
      intro c hc
      cases hc
      have h1 : F64.lt b a = false := by simpa using hs.1
      have h2 := le_of_not_lt (hnan b (by simp)) (hnan a (by simp)) h1
      unfold F64.le at h2
      rw [ha.1, Bool.or_false] at h2
      exact h2

/-- C100: with the explicit bounds that `InitExplicit` accepts, none of them NaN, a sample that is a number lands in the bucket that
contains it. -/
theorem C100_explicit (lg : F64 → F64) {bs : List F64} {d : Distribution F64}
    (hinit : @Dist.initExplicit F64 (ops lg) bs (@Dist.empty F64 (ops lg)) = .ok (.ok, d)) (hne : bs ≠ [])
    (hnan : ∀ b ∈ bs, b ≠ .nan) {v : F64} (hv : v ≠ .nan) :
    d.buckets = .explicit bs ∧ ∃ i : Nat, @Dist.explicitIndex F64 (ops lg) bs v = .ok i ∧ i < d.bucketCounts.length ∧
      (∀ j b, j < i → bs[j]? = some b → F64.le b v = true) ∧ (∀ j b, i ≤ j → bs[j]? = some b → F64.lt v b = true) := by
  unfold Dist.initExplicit at hinit
  cases hs : @Dist.isSorted F64 (ops lg) bs with
  | false => rw [hs] at hinit; cases hinit
  | true =>
    cases ha : @Dist.hasAdjacentEqual F64 (ops lg) bs with
    | true => rw [hs, ha] at hinit; cases hinit
    | false =>
      rw [hs, ha] at hinit
      cases hinit
      refine ⟨rfl, ?_⟩
      have hp := accepted_pairwise lg bs hs ha hnan
      have hlen : (Dist.resize (@Dist.empty F64 (ops lg)).bucketCounts (bs.length + 1)).length = bs.length + 1 := by
        show (Dist.resize [] _).length = _
        rw [Dist.resize_nil, List.length_replicate]; omega
      cases bs with
      | nil => exact absurd rfl hne
      | cons b0 t =>
        have hspec := upperBound_f64 lg (b0 :: t) v hp 0 (b0 :: t).length (by omega) (by intro i b hi; omega)
          (by intro i b hi hb; have := (List.getElem?_eq_some_iff.mp hb).1; omega)
        have hub := @Dist.upperBound_le F64 (ops lg) (b0 :: t) v 0 (b0 :: t).length (by omega)
        have step : @Dist.explicitIndex F64 (ops lg) (b0 :: t) v = .ok (if F64.le b0 v = true then
          ((@Dist.upperBound F64 (ops lg) (b0 :: t) v 0 (b0 :: t).length : Nat) : Int) else 0) := rfl
        cases h0 : F64.le b0 v with
        | true =>
          refine ⟨@Dist.upperBound F64 (ops lg) (b0 :: t) v 0 (b0 :: t).length, by rw [step, h0, if_pos rfl], ?_, ?_, hspec.2⟩
          · show _ < (Dist.resize _ _).length
            rw [hlen]; omega
          · intro j b hj hb
            exact le_of_not_lt hv (hnan b (List.mem_of_getElem? hb)) (hspec.1 j b hj hb)
        | false =>
          refine ⟨0, by rw [step, h0]; rfl, ?_, by intro j b hj; omega, ?_⟩
          · show _ < (Dist.resize _ _).length
            rw [hlen]; omega
          · have hlt : F64.lt v b0 = true := by
              cases h : F64.lt v b0 with
              | true => rfl
              | false => rw [le_of_not_lt hv (hnan b0 (by simp)) h] at h0; cases h0
            intro j b _ hb
            rcases List.mem_cons.mp (List.mem_of_getElem? hb) with rfl | hb
            · exact hlt
            · exact lt_trans' hlt ((List.pairwise_cons.mp hp).1 b hb)

/-- C102: with explicit bounds, a larger sample never lands in a lower bucket. -/
theorem C102_explicit (lg : F64 → F64) {bs : List F64} {d : Distribution F64}
    (hinit : @Dist.initExplicit F64 (ops lg) bs (@Dist.empty F64 (ops lg)) = .ok (.ok, d)) (hne : bs ≠ [])
    (hnan : ∀ b ∈ bs, b ≠ .nan) {v v' : F64} (hv : v ≠ .nan) (hv' : v' ≠ .nan) (hle : F64.le v v' = true) {i j : Int}
    (hi : @Dist.explicitIndex F64 (ops lg) bs v = .ok i) (hj : @Dist.explicitIndex F64 (ops lg) bs v' = .ok j) : i ≤ j := by
  obtain ⟨_, k, h1, _, h2, _⟩ := C100_explicit lg hinit hne hnan hv
  obtain ⟨hd, l, g1, gl, _, g2⟩ := C100_explicit lg hinit hne hnan hv'
  rw [h1] at hi
  rw [g1] at hj
  cases hi
  cases hj
  by_contra hlt
  have hlt : l < k := by omega
  have hk : k ≤ bs.length := by
    obtain ⟨_, k', e, kl, _⟩ := C100_explicit lg hinit hne hnan hv
    rw [h1] at e
    have e' : k = k' := by cases e; rfl
    subst e'
    have hlen : d.bucketCounts.length = bs.length + 1 := by
      have := hinit
      unfold Dist.initExplicit at this
      split at this
      · cases this
      · split at this
        · cases this
        · cases this
          show (Dist.resize [] _).length = _
          rw [Dist.resize_nil, List.length_replicate]; omega
    omega
  have hb := List.getElem?_eq_getElem (l := bs) (i := l) (by omega)
  have a1 := h2 l _ hlt hb
  have a2 := g2 l _ (le_refl _) hb
  have a3 := lt_of_le' (le_trans' a1 hle) a2
  have irr : ∀ c : F64, F64.lt c c = false := by
    intro c
    cases c with
    | nan => rfl
    | inf s => cases s <;> rfl
    | fin q => exact decide_eq_false (lt_irrefl q)
  rw [irr] at a3
  cases a3

/-! ### Examples -/

/-- Layouts and samples that meet the hypotheses of `C100_linear_partial` and `C102_linear`: ten buckets of width 0.1 and the samples
0.25 and 0.5. -/
example : linIdx id 10 (.fin (3602879701896397 * pow2 (-55))) (.fin 0) (.fin (1 / 4)) = .ok 3 ∧
    linIdx id 10 (.fin (3602879701896397 * pow2 (-55))) (.fin 0) (.fin (1 / 2)) = .ok 6 ∧
    F64.sub (.fin (1 / 4)) (.fin 0) ≠ .inf false ∧ F64.le (.fin (1 / 4)) (.fin (1 / 2)) = true := by decide +kernel

/-- Bounds that `InitExplicit` accepts. -/
example : ∃ d, @Dist.initExplicit F64 (ops id) [.fin (-1), fl (1 / 10), .inf false] (@Dist.empty F64 (ops id)) = .ok (.ok, d) := by
  have h1 : @Dist.isSorted F64 (ops id) [.fin (-1), fl (1 / 10), .inf false] = true := by decide +kernel
  have h2 : @Dist.hasAdjacentEqual F64 (ops id) [.fin (-1), fl (1 / 10), .inf false] = false := by decide +kernel
  unfold Dist.initExplicit
  rw [h1, h2]
  exact ⟨_, rfl⟩

/-- A function that meets the hypotheses of `C100_exponential_partial` and `C102_exponential`: zero up to one, one above. -/
def stepLog (v : F64) : F64 := if F64.lt (.fin 1) v then .fin 1 else .fin 0

example : (∀ a b, F64.lt (.fin 0) a = true → F64.le a b = true → F64.le (stepLog a) (stepLog b) = true) ∧ stepLog (.fin 1) = .fin 0 ∧
    stepLog (.fin 2) = .fin 1 ∧ @Dist.exponentialIndex F64 (ops stepLog) 5 (.fin 2) (.fin 1) (.fin 3) = .ok 2 := by
  refine ⟨?_, by decide +kernel, by decide +kernel, by decide +kernel⟩
  intro a b _ h
  unfold stepLog
  cases ha : F64.lt (.fin 1) a with
  | false =>
    rw [if_neg (by decide)]
    split <;> decide +kernel
  | true =>
    have hb : F64.lt (.fin 1) b = true := by
      cases a with
      | nan => cases ha
      | inf s =>
        cases s with
        | true => cases ha
        | false =>
          cases b with
          | inf t => cases t <;> first | rfl | exact Bool.noConfusion h
          | _ => cases h
      | fin x =>
        cases b with
        | nan => cases h
        | inf t => cases t <;> first | rfl | exact Bool.noConfusion h
        | fin y => exact decide_eq_true (lt_of_lt_of_le (of_decide_eq_true ha) (le_fin.mp h))
    rw [if_pos rfl, if_pos hb]
    decide +kernel

example : (∀ q, IsDouble q → 0 < q → F64.le (stepLog (.fin q)) (.fin 1024) = true) ∧ stepLog (.fin 2) = .fin 1 ∧ pow2 (-20) ≤ 1 ∧
    F64.div (.fin 3) (.fin 1) ≠ .inf false := by
  refine ⟨?_, by decide +kernel, by decide +kernel, by decide +kernel⟩
  intro q _ _
  unfold stepLog
  split <;> decide +kernel

/-- Functions that meet the hypotheses of the two counterexamples. -/
example : ∃ lg : F64 → F64, lg (.fin 2) = .fin 1 ∧ lg (.inf false) = .inf false ∧ lg (.fin (1 + pow2 (-52))) = .fin (pow2 (-52)) :=
  ⟨fun v => if v = .fin 2 then .fin 1 else if v = .inf false then .inf false else .fin (pow2 (-52)), by decide +kernel⟩

end Verif.Ieee
