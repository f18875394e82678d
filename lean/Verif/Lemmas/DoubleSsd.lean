import Verif.Lemmas.DoubleMerge
/-
The error of the sum of squared deviation.  `M` bounds the samples, and `T = 2 ^ -1074` is at most `M 2 ^ -53`.
-/
namespace Verif.Ieee

theorem mul_err {d e d' e' α β P R : ℚ} (h : |d - e| ≤ α) (h' : |d' - e'| ≤ β) (hP : |d| ≤ P) (hR : |e'| ≤ R) :
    |d * d' - e * e'| ≤ P * β + R * α := by
  have e0 : d * d' - e * e' = d * (d' - e') + e' * (d - e) := by ring
  rw [e0]
  refine (abs_add_le _ _).trans ?_
  rw [abs_mul, abs_mul]
  exact add_le_add (mul_le_mul hP h' (abs_nonneg _) ((abs_nonneg _).trans hP))
    (mul_le_mul hR h (abs_nonneg _) ((abs_nonneg _).trans hR))

theorem abs_mul_le {a b A B : ℚ} (ha : |a| ≤ A) (hb : |b| ≤ B) : |a * b| ≤ A * B := by
  rw [abs_mul]
  exact mul_le_mul ha hb (abs_nonneg _) ((abs_nonneg _).trans ha)

theorem rnd_near_of {q B : ℚ} (h : |q| ≤ B) : |rnd q - q| ≤ B * (1 / 2 ^ 53) + pow2 (-1074) / 2 := by
  have h1 := rnd_err q
  have u1 : pow2 (-53) = 1 / 2 ^ 53 := by decide +kernel
  have tT : pow2 (-1075) = pow2 (-1074) / 2 := by decide +kernel
  rw [u1, tT] at h1
  have := mul_le_mul_of_nonneg_right h (show (0 : ℚ) ≤ 1 / 2 ^ 53 by norm_num)
  linarith

theorem abs_of_near {a b A E : ℚ} (h : |a - b| ≤ E) (hb : |b| ≤ A) : |a| ≤ A + E := by
  have := abs_add_le (a - b) b
  rw [sub_add_cancel] at this
  linarith

/-- Two rounded differences, multiplied. -/
theorem dev_err {c m m' v μ μ' M : ℚ} (hc : 1 ≤ c) (hc2 : c ≤ 2 ^ 40) (hT : pow2 (-1074) ≤ M * (1 / 2 ^ 53))
    (h : |v - μ| ≤ 2 * M) (h' : |v - μ'| ≤ 2 * M) (hm : |m - μ| ≤ 8 * (c + 1) * (M * (1 / 2 ^ 53)))
    (hm' : |m' - μ'| ≤ 8 * (c + 2) * (M * (1 / 2 ^ 53))) :
    |rnd (rnd (v - m) * rnd (v - m')) - (v - μ) * (v - μ')| ≤ (40 * (c + 3) + 10) * (M ^ 2 * (1 / 2 ^ 53)) + pow2 (-1074) ∧
    |v - m| ≤ 3 * M ∧ |v - m'| ≤ 3 * M ∧ |rnd (v - m) * rnd (v - m')| ≤ 9 * M ^ 2 := by
  have t0 := pow2_pos (-1074)
  have hM0 : 0 ≤ M := by linarith
  have k1 : 8 * (c + 2) * (M * (1 / 2 ^ 53)) ≤ M / 256 := by
    have := mul_le_mul_of_nonneg_right (show c + 2 ≤ 2 ^ 41 by linarith) hM0
    linarith
  have k0 : 8 * (c + 1) * (M * (1 / 2 ^ 53)) ≤ M / 256 := by linarith
  have b1 : |v - m| ≤ 2 * M + M / 256 := by
    have := abs_add_le (v - μ) (-(m - μ))
    rw [show v - μ + -(m - μ) = v - m by ring, abs_neg] at this
    linarith
  have b2 : |v - m'| ≤ 2 * M + M / 256 := by
    have := abs_add_le (v - μ') (-(m' - μ'))
    rw [show v - μ' + -(m' - μ') = v - m' by ring, abs_neg] at this
    linarith
  have r1 := rnd_near_of b1
  have r2 := rnd_near_of b2
  have c1 := abs_of_near r1 b1
  have c2 := abs_of_near r2 b2
  generalize rnd (v - m) = d at *
  generalize rnd (v - m') = d' at *
  have p1 : |d| ≤ 3 * M := by linarith
  have p2 : |d'| ≤ 3 * M := by linarith
  have p3 := abs_mul_le p1 p2
  have q1 : |d - (v - μ)| ≤ 8 * (c + 3) * (M * (1 / 2 ^ 53)) := by
    have := abs_add_le (d - (v - m)) (-(m - μ))
    rw [show d - (v - m) + -(m - μ) = d - (v - μ) by ring, abs_neg] at this
    linarith
  have q2 : |d' - (v - μ')| ≤ 8 * (c + 3) * (M * (1 / 2 ^ 53)) := by
    have := abs_add_le (d' - (v - m')) (-(m' - μ'))
    rw [show d' - (v - m') + -(m' - μ') = d' - (v - μ') by ring, abs_neg] at this
    linarith
  have q3 := mul_err q1 q2 p1 h'
  have q4 := rnd_near_of p3
  have q5 := abs_add_le (rnd (d * d') - d * d') (d * d' - (v - μ) * (v - μ'))
  rw [sub_add_sub_cancel] at q5
  refine ⟨?_, by linarith, by linarith, by linarith⟩
  have : 0 ≤ M ^ 2 := by positivity
  linarith

/-- One sample more. -/
theorem ssd_add {c p s Q E M : ℚ} (hc : 1 ≤ c) (hc2 : c ≤ 2 ^ 40) (hQ0 : 0 ≤ Q) (hQ : Q ≤ c * M ^ 2)
    (hs : |s - Q| ≤ 128 * c ^ 2 * (M ^ 2 * (1 / 2 ^ 53) + pow2 (-1074)))
    (hE : |E| ≤ 4 * M ^ 2) (hp : |p - E| ≤ (40 * (c + 3) + 10) * (M ^ 2 * (1 / 2 ^ 53)) + pow2 (-1074)) :
    |rnd (s + p) - (Q + E)| ≤ 128 * (c + 1) ^ 2 * (M ^ 2 * (1 / 2 ^ 53) + pow2 (-1074)) ∧
    |s + p| ≤ (2 * c + 6) * (M ^ 2 + 1) := by
  have t0 := pow2_pos (-1074)
  have t1 : pow2 (-1074) ≤ 1 / 2 ^ 60 := by decide +kernel
  have hM2 : 0 ≤ M ^ 2 := by positivity
  have A : |s - Q| ≤ c * (M ^ 2 / 64) + 128 * c ^ 2 * pow2 (-1074) := by
    have h1 := mul_le_mul_of_nonneg_right hc2 (show 0 ≤ c * M ^ 2 by positivity)
    linarith
  have B : |s + p| ≤ (c + 4) * M ^ 2 + c * (M ^ 2 / 32) + M ^ 2 + 128 * c ^ 2 * pow2 (-1074) + pow2 (-1074) := by
    have h1 := abs_add_le (s - Q) (p - E)
    have h2 := abs_add_le (s - Q + (p - E)) (Q + E)
    rw [show s - Q + (p - E) + (Q + E) = s + p by ring] at h2
    have h3 := abs_add_le Q E
    rw [abs_of_nonneg hQ0] at h3
    have h4 := mul_le_mul_of_nonneg_right hc2 hM2
    have h5 := mul_nonneg (show 0 ≤ c by linarith) hM2
    linarith
  have C := rnd_near_of B
  have D := abs_add_le (rnd (s + p) - (s + p)) ((s - Q) + (p - E))
  rw [show rnd (s + p) - (s + p) + ((s - Q) + (p - E)) = rnd (s + p) - (Q + E) by ring] at D
  have D2 := abs_add_le (s - Q) (p - E)
  have F : 128 * c ^ 2 * pow2 (-1074) * (1 / 2 ^ 53) ≤ c * pow2 (-1074) := by
    have h0 : 0 ≤ c * pow2 (-1074) := by positivity
    have h1 := mul_le_mul_of_nonneg_right hc2 h0
    linarith
  have cM : M ^ 2 ≤ c * M ^ 2 := le_mul_of_one_le_left hM2 hc
  have cT : pow2 (-1074) ≤ c * pow2 (-1074) := le_mul_of_one_le_left t0.le hc
  constructor
  · linarith
  · have h1 : 128 * c ^ 2 * pow2 (-1074) ≤ c := by
      have h2 : 128 * c * pow2 (-1074) ≤ 1 := by
        have := mul_le_mul hc2 t1 t0.le (by norm_num)
        linarith
      have := mul_le_mul_of_nonneg_left h2 (show 0 ≤ c by linarith)
      linarith
    linarith

/-- The mean that `Merge` computes, compared with the exact mean of the two means. -/
theorem mean_local {a b m k M : ℚ} (ha : 1 ≤ a) (hb : 1 ≤ b) (hT : pow2 (-1074) ≤ M * (1 / 2 ^ 53))
    (hm : |m| ≤ M * (1 + 1 / 256)) (hk : |k| ≤ M * (1 + 1 / 256)) :
    |rnd (rnd (rnd (a * m) + rnd (b * k)) / (a + b)) - (a * m + b * k) / (a + b)| ≤ 6 * (M * (1 / 2 ^ 53)) := by
  have t0 := pow2_pos (-1074)
  have hM0 : 0 ≤ M := by linarith
  have hn : 0 < a + b := by linarith
  have h1 := rnd_near_of (abs_mul_le (abs_of_nonneg (show 0 ≤ a by linarith)).le hm)
  have h2 := rnd_near_of (abs_mul_le (abs_of_nonneg (show 0 ≤ b by linarith)).le hk)
  have g1 := abs_of_near h1 (abs_mul_le (abs_of_nonneg (show 0 ≤ a by linarith)).le hm)
  have g2 := abs_of_near h2 (abs_mul_le (abs_of_nonneg (show 0 ≤ b by linarith)).le hk)
  generalize rnd (a * m) = p at *
  generalize rnd (b * k) = q at *
  have aM : M ≤ a * M := le_mul_of_one_le_left hM0 ha
  have bM : M ≤ b * M := le_mul_of_one_le_left hM0 hb
  have h3 : |p + q| ≤ (a + b) * M * (1 + 1 / 128) := by
    have := abs_add_le p q
    linarith
  have h4 := rnd_near_of h3
  have g4 := abs_of_near h4 h3
  generalize rnd (p + q) = s at *
  have h5 : |s - (a * m + b * k)| ≤ (a + b) * (M * (1 / 2 ^ 53)) * (4 + 1 / 10) := by
    have e1 := abs_add_le (s - (p + q)) ((p - a * m) + (q - b * k))
    rw [show s - (p + q) + ((p - a * m) + (q - b * k)) = s - (a * m + b * k) by ring] at e1
    have e2 := abs_add_le (p - a * m) (q - b * k)
    have e3 : (pow2 (-1074) : ℚ) * 2 ≤ (a + b) * (M * (1 / 2 ^ 53)) := by linarith
    linarith
  have h6 : |s / (a + b)| ≤ M * (1 + 1 / 64) := by
    rw [abs_div, abs_of_pos hn, div_le_iff₀ hn]
    linarith
  have h7 := rnd_near_of h6
  have h8 : |s / (a + b) - (a * m + b * k) / (a + b)| ≤ (M * (1 / 2 ^ 53)) * (4 + 1 / 10) := by
    rw [← sub_div, abs_div, abs_of_pos hn, div_le_iff₀ hn]
    linarith
  have h9 := abs_add_le (rnd (s / (a + b)) - s / (a + b)) (s / (a + b) - (a * m + b * k) / (a + b))
  rw [sub_add_sub_cancel] at h9
  linarith

/-- One of the two correction terms of `Merge`. -/
theorem side_err {a g e D M : ℚ} (ha : 1 ≤ a) (ha2 : a ≤ 2 ^ 40) (hT : pow2 (-1074) ≤ M * (1 / 2 ^ 53))
    (hD : |D| ≤ M * (2 + 1 / 64)) (hg : a * |D| ≤ g * (M * (2 + 1 / 64))) (he : |e - D| ≤ 6 * (M * (1 / 2 ^ 53))) :
    |rnd (rnd (a * rnd e) * rnd e) - a * D ^ 2| ≤ (24 * a + 42 * g + 1) * (M ^ 2 * (1 / 2 ^ 53)) + pow2 (-1074) ∧
    |e| ≤ 3 * M ∧ |a * rnd e| ≤ 3 * a * M ∧ |rnd (a * rnd e) * rnd e| ≤ 12 * a * M ^ 2 := by
  have t0 := pow2_pos (-1074)
  have hM0 : 0 ≤ M := by linarith
  have a0 : 0 ≤ a := by linarith
  have h1 := abs_of_near he hD
  have h2 : |e| ≤ M * (2 + 1 / 32) := by linarith
  have h3 := rnd_near_of h2
  have h4 := abs_of_near h3 h2
  have h5 : |rnd e - D| ≤ 10 * (M * (1 / 2 ^ 53)) := by
    have := abs_add_le (rnd e - e) (e - D)
    rw [sub_add_sub_cancel] at this
    linarith
  generalize rnd e = d at *
  have h6 : |d| ≤ 3 * M := by linarith
  have h7 : |a * d| ≤ 3 * a * M := by
    have := abs_mul_le (abs_of_nonneg a0).le h6
    linarith
  have aM : M ≤ a * M := le_mul_of_one_le_left hM0 ha
  have h8 := rnd_near_of h7
  have h9 : |rnd (a * d) - a * d| ≤ 4 * a * (M * (1 / 2 ^ 53)) := by linarith
  have h10 := abs_of_near h9 h7
  generalize rnd (a * d) = w at *
  have h11 : |w| ≤ 4 * a * M := by linarith
  have h12 : |w * d| ≤ 12 * a * M ^ 2 := by
    have := abs_mul_le h11 h6
    linarith
  have h13 := rnd_near_of h12
  have h14 : |(w - a * d) * d| ≤ 12 * a * (M ^ 2 * (1 / 2 ^ 53)) := by
    have := abs_mul_le h9 h6
    linarith
  have h15 : |(d - D) * (a * (d + D))| ≤ (42 * g + 1) * (M ^ 2 * (1 / 2 ^ 53)) := by
    have k1 : |a * (d + D)| ≤ g * (M * (4 + 1 / 32)) + a * (10 * (M * (1 / 2 ^ 53))) := by
      have e1 : a * (d + D) = 2 * (a * D) + a * (d - D) := by ring
      rw [e1]
      have e2 := abs_add_le (2 * (a * D)) (a * (d - D))
      rw [abs_mul 2, abs_mul a D, abs_mul a (d - D), abs_of_nonneg a0, abs_of_pos (show (0 : ℚ) < 2 by norm_num)] at e2
      have e3 := mul_le_mul_of_nonneg_left h5 a0
      linarith
    have k2 := abs_mul_le h5 k1
    have k0 : 0 ≤ M ^ 2 := by positivity
    have k3 := mul_le_mul_of_nonneg_right ha2 k0
    have k4 : 0 ≤ g * M ^ 2 := by
      have : 0 ≤ g * (M * (2 + 1 / 64)) := (mul_nonneg a0 (abs_nonneg D)).trans hg
      have := mul_nonneg this hM0
      linarith
    linarith
  refine ⟨?_, by linarith, h7, h12⟩
  have e1 := abs_add_le (rnd (w * d) - w * d) ((w - a * d) * d + (d - D) * (a * (d + D)))
  rw [show rnd (w * d) - w * d + ((w - a * d) * d + (d - D) * (a * (d + D))) = rnd (w * d) - a * D ^ 2 by ring] at e1
  have e2 := abs_add_le ((w - a * d) * d) ((d - D) * (a * (d + D)))
  linarith

theorem scaled {n M : ℚ} (hn : 1 ≤ n) (hn2 : n ≤ 2 ^ 40) :
    128 * n ^ 2 * (M ^ 2 * (1 / 2 ^ 53) + pow2 (-1074)) ≤ n * (M ^ 2 / 64) + 128 * n ^ 2 * pow2 (-1074) := by
  have h1 := mul_le_mul_of_nonneg_right hn2 (show 0 ≤ n * M ^ 2 by positivity)
  linarith

/-- The sum of the four terms of `Merge`. -/
theorem ssd_merge {a b g s z Q R q1 q2 E1 E2 E M : ℚ} (ha : 1 ≤ a) (hb : 1 ≤ b) (hab : a + b ≤ 2 ^ 40) (hg : g ≤ a * b / 2)
    (hQ0 : 0 ≤ Q) (hQ : Q ≤ a * M ^ 2) (hR0 : 0 ≤ R) (hR : R ≤ b * M ^ 2)
    (hs : |s - Q| ≤ 128 * a ^ 2 * (M ^ 2 * (1 / 2 ^ 53) + pow2 (-1074)))
    (hz : |z - R| ≤ 128 * b ^ 2 * (M ^ 2 * (1 / 2 ^ 53) + pow2 (-1074)))
    (h1 : |q1 - E1| ≤ (24 * a + 42 * g + 1) * (M ^ 2 * (1 / 2 ^ 53)) + pow2 (-1074))
    (h2 : |q2 - E2| ≤ (24 * b + 42 * g + 1) * (M ^ 2 * (1 / 2 ^ 53)) + pow2 (-1074))
    (hE1 : |q1| ≤ 13 * a * M ^ 2 + pow2 (-1074)) (hE2 : |q2| ≤ 13 * b * M ^ 2 + pow2 (-1074))
    (hE : |E1 + E2 - E| ≤ 66 * (a * b) * (M ^ 2 * (1 / 2 ^ 53))) :
    |rnd (rnd (rnd (s + z) + q1) + q2) - (Q + R + E)| ≤ 128 * (a + b) ^ 2 * (M ^ 2 * (1 / 2 ^ 53) + pow2 (-1074)) ∧
    |s + z| ≤ (a + b) * 16 * (M ^ 2 + 1) ∧ |rnd (s + z) + q1| ≤ (a + b) * 16 * (M ^ 2 + 1) ∧
    |rnd (rnd (s + z) + q1) + q2| ≤ (a + b) * 16 * (M ^ 2 + 1) := by
  have t0 := pow2_pos (-1074)
  have t1 : pow2 (-1074) ≤ 1 / 2 ^ 60 := by decide +kernel
  have hM2 : 0 ≤ M ^ 2 := by positivity
  have hprod : a + b ≤ 2 * (a * b) := by
    have g1 := mul_le_mul_of_nonneg_left hb (show 0 ≤ a by linarith)
    have g2 := mul_le_mul_of_nonneg_right ha (show 0 ≤ b by linarith)
    linarith
  have hs' := hs.trans (scaled ha (by linarith))
  have hz' := hz.trans (scaled hb (by linarith))
  have aT : pow2 (-1074) ≤ a * pow2 (-1074) := le_mul_of_one_le_left t0.le ha
  have bT : pow2 (-1074) ≤ b * pow2 (-1074) := le_mul_of_one_le_left t0.le hb
  have aM : M ^ 2 ≤ a * M ^ 2 := le_mul_of_one_le_left hM2 ha
  have bM : M ^ 2 ≤ b * M ^ 2 := le_mul_of_one_le_left hM2 hb
  have hsq : 128 * a ^ 2 * pow2 (-1074) + 128 * b ^ 2 * pow2 (-1074) ≤ 128 * (a + b) ^ 2 * pow2 (-1074) := by
    have : 0 ≤ a * b * pow2 (-1074) := by positivity
    linarith
  have F : 128 * (a + b) ^ 2 * pow2 (-1074) * (1 / 2 ^ 53) ≤ (a + b) * pow2 (-1074) := by
    have h0 : 0 ≤ (a + b) * pow2 (-1074) := by positivity
    have h1 := mul_le_mul_of_nonneg_right hab h0
    linarith
  have G : 128 * (a + b) ^ 2 * pow2 (-1074) ≤ (a + b) := by
    have h2 : 128 * (a + b) * pow2 (-1074) ≤ 1 := by
      have := mul_le_mul hab t1 t0.le (by norm_num)
      linarith
    have := mul_le_mul_of_nonneg_left h2 (show 0 ≤ a + b by linarith)
    linarith
  generalize hW : 128 * (a + b) ^ 2 * pow2 (-1074) = W at *
  -- the three sums
  have b1 : |s + z| ≤ (a + b) * M ^ 2 * (1 + 1 / 64) + W := by
    have k1 := abs_add_le (s - Q) (z - R)
    have k2 := abs_add_le (s - Q + (z - R)) (Q + R)
    rw [show s - Q + (z - R) + (Q + R) = s + z by ring, abs_of_nonneg (show 0 ≤ Q + R by linarith)] at k2
    linarith
  have r1 := rnd_near_of b1
  have c1 := abs_of_near r1 b1
  have b2 : |rnd (s + z) + q1| ≤ ((a + b) * (1 + 1 / 32) + 13 * a) * M ^ 2 + W + 2 * (a + b) * pow2 (-1074) := by
    have k1 := abs_add_le (rnd (s + z)) q1
    linarith
  have r2 := rnd_near_of b2
  have c2 := abs_of_near r2 b2
  have b3 : |rnd (rnd (s + z) + q1) + q2| ≤ ((a + b) * (1 + 1 / 16) + 13 * (a + b)) * M ^ 2 + W + 4 * (a + b) * pow2 (-1074) := by
    have k1 := abs_add_le (rnd (rnd (s + z) + q1)) q2
    linarith
  have r3 := rnd_near_of b3
  have nT : (a + b) * pow2 (-1074) ≤ 1 := by
    have := mul_le_mul hab t1 t0.le (by norm_num)
    linarith
  generalize rnd (s + z) = s1 at *
  generalize rnd (s1 + q1) = s2 at *
  refine ⟨?_, by linarith, by linarith, by linarith⟩
  have k1 := abs_add_le (rnd (s2 + q2) - (s2 + q2)) ((s2 - (s1 + q1)) + ((s1 - (s + z)) + ((s - Q) + ((z - R) + ((q1 - E1) + ((q2 - E2) + (E1 + E2 - E)))))))
  rw [show rnd (s2 + q2) - (s2 + q2) + ((s2 - (s1 + q1)) + ((s1 - (s + z)) + ((s - Q) + ((z - R) + ((q1 - E1) + ((q2 - E2) + (E1 + E2 - E))))))) =
    rnd (s2 + q2) - (Q + R + E) by ring] at k1
  have k2 := abs_add_le (s2 - (s1 + q1)) ((s1 - (s + z)) + ((s - Q) + ((z - R) + ((q1 - E1) + ((q2 - E2) + (E1 + E2 - E))))))
  have k3 := abs_add_le (s1 - (s + z)) ((s - Q) + ((z - R) + ((q1 - E1) + ((q2 - E2) + (E1 + E2 - E)))))
  have k4 := abs_add_le (s - Q) ((z - R) + ((q1 - E1) + ((q2 - E2) + (E1 + E2 - E))))
  have k5 := abs_add_le (z - R) ((q1 - E1) + ((q2 - E2) + (E1 + E2 - E)))
  have k6 := abs_add_le (q1 - E1) ((q2 - E2) + (E1 + E2 - E))
  have k7 := abs_add_le (q2 - E2) (E1 + E2 - E)
  have l1 := mul_le_mul_of_nonneg_right hprod hM2
  have l2 := mul_le_mul_of_nonneg_right hprod t0.le
  have l3 := mul_le_mul_of_nonneg_right hg hM2
  rw [mul_add, hW]
  have tot : |rnd (s2 + q2) - (Q + R + E)| ≤ 128 * a ^ 2 * (M ^ 2 * (1 / 2 ^ 53) + pow2 (-1074)) + 128 * b ^ 2 * (M ^ 2 * (1 / 2 ^ 53) + pow2 (-1074))
      + 240 * (a * b) * (M ^ 2 * (1 / 2 ^ 53)) + 100 * (a * b) * pow2 (-1074) := by
    linarith
  refine tot.trans ?_
  rw [← hW]
  have : 0 ≤ a * b * pow2 (-1074) := by positivity
  have : 0 ≤ a * b * M ^ 2 := by positivity
  linarith

/-- The two correction terms together. -/
theorem cross_err {a b m k μ ν M : ℚ} (ha : 1 ≤ a) (hb : 1 ≤ b) (hM0 : 0 ≤ M) (hμ : |μ| ≤ M) (hν : |ν| ≤ M)
    (dkm : |k - m| ≤ M * (2 + 1 / 64))
    (hm : |m - μ| ≤ 8 * (a + 1) * (M * (1 / 2 ^ 53))) (hk : |k - ν| ≤ 8 * (b + 1) * (M * (1 / 2 ^ 53))) :
    |a * (b / (a + b) * (k - m)) ^ 2 + b * (-(a / (a + b) * (k - m))) ^ 2 - a * b / (a + b) * (ν - μ) ^ 2| ≤
      66 * (a * b) * (M ^ 2 * (1 / 2 ^ 53)) := by
  have hn : 0 < a + b := by linarith
  have e1 : a * (b / (a + b) * (k - m)) ^ 2 + b * (-(a / (a + b) * (k - m))) ^ 2 - a * b / (a + b) * (ν - μ) ^ 2 =
      a * b / (a + b) * (((k - ν) - (m - μ)) * ((k - m) + (ν - μ))) := by field_simp; ring
  rw [e1]
  have g1 : |(k - ν) - (m - μ)| ≤ 16 * (a + b) * (M * (1 / 2 ^ 53)) := by
    have := abs_sub (k - ν) (m - μ)
    have := mul_le_mul_of_nonneg_right (show 2 ≤ a + b by linarith) hM0
    linarith
  have g2 : |(k - m) + (ν - μ)| ≤ M * (4 + 1 / 64) := by
    have := abs_add_le (k - m) (ν - μ)
    have := abs_sub ν μ
    linarith
  have g3 := abs_mul_le g1 g2
  have g4 : 0 ≤ a * b := mul_nonneg (by linarith) (by linarith)
  rw [abs_mul, abs_of_nonneg (div_nonneg g4 hn.le)]
  refine (mul_le_mul_of_nonneg_left g3 (div_nonneg g4 hn.le)).trans ?_
  have e2 : a * b / (a + b) * (16 * (a + b) * (M * (1 / 2 ^ 53)) * (M * (4 + 1 / 64))) =
      a * b * M ^ 2 * (16 * (1 / 2 ^ 53) * (4 + 1 / 64)) := by field_simp
  rw [e2]
  have := mul_nonneg g4 (sq_nonneg M)
  linarith

/-- The sum of squared deviation that `Merge` computes. -/
theorem ssd_merge_all {a b m k μ ν s z Q R M r : ℚ} (ha : 1 ≤ a) (hb : 1 ≤ b) (hab : a + b ≤ 2 ^ 40)
    (hT : pow2 (-1074) ≤ M * (1 / 2 ^ 53)) (hμ : |μ| ≤ M) (hν : |ν| ≤ M)
    (hm : |m - μ| ≤ 8 * (a + 1) * (M * (1 / 2 ^ 53))) (hk : |k - ν| ≤ 8 * (b + 1) * (M * (1 / 2 ^ 53)))
    (hQ0 : 0 ≤ Q) (hQ : Q ≤ a * M ^ 2) (hR0 : 0 ≤ R) (hR : R ≤ b * M ^ 2)
    (hs : |s - Q| ≤ 128 * a ^ 2 * (M ^ 2 * (1 / 2 ^ 53) + pow2 (-1074)))
    (hz : |z - R| ≤ 128 * b ^ 2 * (M ^ 2 * (1 / 2 ^ 53) + pow2 (-1074)))
    (hr : r = rnd (rnd (rnd (a * m) + rnd (b * k)) / (a + b))) :
    |rnd (rnd (rnd (s + z) + rnd (rnd (a * rnd (r - m)) * rnd (r - m))) + rnd (rnd (b * rnd (r - k)) * rnd (r - k))) -
      (Q + R + a * b / (a + b) * (ν - μ) ^ 2)| ≤ 128 * (a + b) ^ 2 * (M ^ 2 * (1 / 2 ^ 53) + pow2 (-1074)) ∧
    |s + z| ≤ (a + b) * 16 * (M ^ 2 + 1) ∧
    |rnd (s + z) + rnd (rnd (a * rnd (r - m)) * rnd (r - m))| ≤ (a + b) * 16 * (M ^ 2 + 1) ∧
    |rnd (rnd (s + z) + rnd (rnd (a * rnd (r - m)) * rnd (r - m))) + rnd (rnd (b * rnd (r - k)) * rnd (r - k))| ≤
      (a + b) * 16 * (M ^ 2 + 1) ∧
    (|r - m| ≤ 3 * M ∧ |a * rnd (r - m)| ≤ 3 * a * M ∧ |rnd (a * rnd (r - m)) * rnd (r - m)| ≤ 12 * a * M ^ 2) ∧
    (|r - k| ≤ 3 * M ∧ |b * rnd (r - k)| ≤ 3 * b * M ∧ |rnd (b * rnd (r - k)) * rnd (r - k)| ≤ 12 * b * M ^ 2) := by
  have t0 := pow2_pos (-1074)
  have hM0 : 0 ≤ M := by linarith
  have hn : 0 < a + b := by linarith
  have km : 8 * (a + 1) * (M * (1 / 2 ^ 53)) ≤ M / 512 := by
    have := mul_le_mul_of_nonneg_right (show a + 1 ≤ 2 ^ 41 by linarith) hM0
    linarith
  have kk : 8 * (b + 1) * (M * (1 / 2 ^ 53)) ≤ M / 512 := by
    have := mul_le_mul_of_nonneg_right (show b + 1 ≤ 2 ^ 41 by linarith) hM0
    linarith
  have bm : |m| ≤ M * (1 + 1 / 256) := by have := abs_of_near hm hμ; linarith
  have bk : |k| ≤ M * (1 + 1 / 256) := by have := abs_of_near hk hν; linarith
  have loc := mean_local ha hb hT bm bk
  rw [← hr] at loc
  clear hr
  have dkm : |k - m| ≤ M * (2 + 1 / 64) := by have := abs_sub k m; linarith
  have fa : b / (a + b) ≤ 1 := by rw [div_le_one hn]; linarith
  have fb : a / (a + b) ≤ 1 := by rw [div_le_one hn]; linarith
  have fa0 : 0 ≤ b / (a + b) := div_nonneg (by linarith) hn.le
  have fb0 : 0 ≤ a / (a + b) := div_nonneg (by linarith) hn.le
  have ea : r - m - b / (a + b) * (k - m) = r - (a * m + b * k) / (a + b) := by field_simp; ring
  have eb : r - k - -(a / (a + b) * (k - m)) = r - (a * m + b * k) / (a + b) := by field_simp; ring
  have ab0 : 0 ≤ a * b := mul_nonneg (by linarith) (by linarith)
  have hg : a * b / (a + b) ≤ a * b / 2 := div_le_div_of_nonneg_left ab0 (by norm_num) (by linarith)
  have nD : 0 ≤ |k - m| := abs_nonneg _
  have sa := side_err (a := a) (g := a * b / (a + b)) (e := r - m) (D := b / (a + b) * (k - m)) (M := M) ha (by linarith) hT
    (by rw [abs_mul, abs_of_nonneg fa0]; exact (mul_le_of_le_one_left nD fa).trans dkm)
    (by
      rw [abs_mul, abs_of_nonneg fa0, show a * (b / (a + b) * |k - m|) = a * b / (a + b) * |k - m| by ring]
      exact mul_le_mul_of_nonneg_left dkm (div_nonneg ab0 hn.le))
    (by rw [ea]; exact loc)
  have sb := side_err (a := b) (g := a * b / (a + b)) (e := r - k) (D := -(a / (a + b) * (k - m))) (M := M) hb (by linarith) hT
    (by rw [abs_neg, abs_mul, abs_of_nonneg fb0]; exact (mul_le_of_le_one_left nD fb).trans dkm)
    (by
      rw [abs_neg, abs_mul, abs_of_nonneg fb0, show b * (a / (a + b) * |k - m|) = a * b / (a + b) * |k - m| by ring]
      exact mul_le_mul_of_nonneg_left dkm (div_nonneg ab0 hn.le))
    (by rw [eb]; exact loc)
  obtain ⟨sa1, sa2, sa3, sa4⟩ := sa
  obtain ⟨sb1, sb2, sb3, sb4⟩ := sb
  have hM2 : 0 ≤ M ^ 2 := by positivity
  have hE := cross_err ha hb hM0 hμ hν dkm hm hk
  have hbnd : ∀ {c x : ℚ}, 1 ≤ c → |x| ≤ 12 * c * M ^ 2 → |rnd x| ≤ 13 * c * M ^ 2 + pow2 (-1074) := by
    intro c x hc hx
    have := abs_of_near (rnd_near_of hx) hx
    have := mul_nonneg (show 0 ≤ c by linarith) hM2
    linarith
  obtain ⟨f1, f2, f3, f4⟩ := ssd_merge ha hb hab hg hQ0 hQ hR0 hR hs hz sa1 sb1 (hbnd ha sa4) (hbnd hb sb4) hE
  exact ⟨f1, f2, f3, f4, ⟨sa2, sa3, sa4⟩, ⟨sb2, sb3, sb4⟩⟩

end Verif.Ieee
