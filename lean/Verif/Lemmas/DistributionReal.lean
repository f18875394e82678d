import Verif.Spec.Distribution
import Mathlib.Tactic.FieldSimp
import Mathlib.Tactic.Ring
import Mathlib.Tactic.Linarith
import Mathlib.Tactic.Positivity
/-
Exact arithmetic: bucket selection and the update formulas.
-/
namespace Verif.Dist
open DoubleOps

theorem lt_iff (a b : ℝ) : DoubleOps.lt a b = true ↔ a < b := by simp [DoubleOps.lt]
theorem le_iff (a b : ℝ) : DoubleOps.le a b = true ↔ a ≤ b := by simp [DoubleOps.le]

/-! ### Bucket selection -/

theorem filter_range_le (m k : Nat) :
    ((List.range m).filter fun i => decide (i ≤ k)).length = min m (k + 1) := by
  induction m with
  | zero => simp
  | succ m ih =>
    rw [List.range_succ, List.filter_append, List.length_append, ih]
    by_cases h : m ≤ k
    · simp [h]; omega
    · simp [h]; omega

theorem castInt_floor (x : ℝ) (h0 : 0 ≤ x) (h1 : x < 2147483648) :
    castInt x = .ok ((⌊x⌋₊ : Nat) : Int) ∧ (⌊x⌋₊ : Int) ≤ 2147483647 := by
  have hf : ⌊x⌋ = ((⌊x⌋₊ : Nat) : Int) := (Int.natCast_floor_eq_floor h0).symm
  have h2 : (⌊x⌋₊ : Int) ≤ 2147483647 := by
    have : ⌊x⌋₊ < 2147483648 := (Nat.floor_lt h0).mpr (by exact_mod_cast h1)
    omega
  refine ⟨?_, h2⟩
  unfold castInt
  simp only [toInt32, h0, if_true, hf]
  rw [if_pos (by constructor <;> simp only [int32Min, int32Max] <;> omega)]

theorem bucketIndex_linear (n : Int) (w o x : ℝ) (h : ValidLayout (.linear n w o)) :
    bucketIndex (.linear n w o) x = .ok ((bucketOf (.linear n w o) x : Nat) : Int) := by
  obtain ⟨hn, hn2, hw⟩ := h
  have hlen : (bucketOf (.linear n w o) x) =
      ((List.range (n.toNat + 1)).filter fun i : Nat => decide (o + i * w ≤ x)).length := by
    unfold bucketOf bounds
    rw [List.filter_map, List.length_map]
    rfl
  rw [hlen]
  simp only [bucketIndex, linearIndex]
  by_cases hx : x < o
  · have : DoubleOps.lt x o = true := (lt_iff _ _).mpr hx
    simp only [this, Bool.true_or, if_true]
    rw [List.filter_eq_nil_iff.mpr]
    · rfl
    · intro i _
      have : 0 ≤ (i : ℝ) * w := by positivity
      simp; linarith
  · have h1 : DoubleOps.lt x o = false := by
      cases h : DoubleOps.lt x o with
      | false => rfl
      | true => exact absurd ((lt_iff _ _).mp h) hx
    simp only [h1, DoubleOps.isNaN, Bool.or_false, Bool.false_eq_true, if_false]
    have hn' : ((n.toNat : Nat) : ℝ) = (n : ℝ) := by
      have : ((n.toNat : Nat) : Int) = n := Int.toNat_of_nonneg (by omega)
      exact_mod_cast this
    have hx0 : 0 ≤ (x - o) / w := div_nonneg (by linarith) hw.le
    have hiff : ∀ i : Nat, o + i * w ≤ x ↔ i ≤ ⌊(x - o) / w⌋₊ := by
      intro i
      rw [Nat.le_floor_iff hx0, le_div_iff₀ hw]
      constructor <;> intro h <;> linarith
    have hcount : ((List.range (n.toNat + 1)).filter fun i : Nat => decide (o + i * w ≤ x)).length =
        min (n.toNat + 1) (⌊(x - o) / w⌋₊ + 1) := by
      rw [← filter_range_le]
      congr 1
      apply List.filter_congr
      intro i _
      simp [hiff]
    rw [hcount]
    by_cases hu : o + (n : ℝ) * w ≤ x
    · have : DoubleOps.le (DoubleOps.add o (DoubleOps.mul (DoubleOps.ofInt n) w)) x = true := (le_iff _ _).mpr hu
      simp only [this, if_true]
      rw [addI32_eq (by constructor <;> simp only [int32Min, int32Max] <;> omega)]
      have hle : n.toNat ≤ ⌊(x - o) / w⌋₊ := (hiff _).mp (by rw [hn']; exact hu)
      congr 1
      omega
    · have : DoubleOps.le (DoubleOps.add o (DoubleOps.mul (DoubleOps.ofInt n) w)) x = false := by
        cases h : DoubleOps.le (DoubleOps.add o (DoubleOps.mul (DoubleOps.ofInt n) w)) x with
        | false => rfl
        | true => exact absurd ((le_iff _ _).mp h) hu
      simp only [this, Bool.false_eq_true, if_false]
      have hlt : ⌊(x - o) / w⌋₊ < n.toNat := by
        by_contra hge
        exact hu (by have := (hiff n.toNat).mpr (by omega); rwa [hn'] at this)
      have hlt' : (x - o) / w < 2147483648 := by
        have := Nat.lt_of_floor_lt hlt
        have h3 : ((n.toNat : Nat) : ℝ) ≤ 2147483645 := by
          have : n.toNat ≤ 2147483645 := by omega
          exact_mod_cast this
        linarith
      have hc := (castInt_floor _ hx0 hlt').1
      have e : castInt (DoubleOps.div (DoubleOps.sub x o) w) = .ok ((⌊(x - o) / w⌋₊ : Nat) : Int) := hc
      rw [e]
      simp only [bind, Except.bind]
      rw [addI32_eq (by constructor <;> simp only [int32Min, int32Max] <;> omega)]
      congr 1
      omega

/-- The exponential index computation stays inside `int`. -/
def CastSafe (b : BucketOption ℝ) (x : ℝ) : Prop :=
  match b with
  | .exponential _ g s => s ≤ x → Real.logb 2 (x / s) / Real.logb 2 g < 2147483647
  | _ => True

theorem bucketIndex_exponential (n : Int) (g s x : ℝ) (h : ValidLayout (.exponential n g s))
    (hc : CastSafe (.exponential n g s) x) :
    bucketIndex (.exponential n g s) x = .ok ((bucketOf (.exponential n g s) x : Nat) : Int) := by
  obtain ⟨hn, hn2, hg, hs⟩ := h
  have hlen : (bucketOf (.exponential n g s) x) =
      ((List.range (n.toNat + 1)).filter fun i : Nat => decide (s * g ^ i ≤ x)).length := by
    unfold bucketOf bounds
    rw [List.filter_map, List.length_map]
    rfl
  rw [hlen]
  simp only [bucketIndex, exponentialIndex]
  by_cases hx : s ≤ x
  · have h1 : DoubleOps.le s x = true := (le_iff _ _).mpr hx
    simp only [h1, if_true]
    have hlg : 0 < Real.log g := Real.log_pos hg
    have hl2 : 0 < Real.log 2 := Real.log_pos (by norm_num)
    have hxs : 1 ≤ x / s := (one_le_div hs).mpr hx
    have hratio : Real.logb 2 (x / s) / Real.logb 2 g = Real.log (x / s) / Real.log g := by
      unfold Real.logb; field_simp
    have hr0 : 0 ≤ Real.log (x / s) / Real.log g := div_nonneg (Real.log_nonneg hxs) hlg.le
    have hiff : ∀ i : Nat, s * g ^ i ≤ x ↔ i ≤ ⌊Real.log (x / s) / Real.log g⌋₊ := by
      intro i
      rw [Nat.le_floor_iff hr0, le_div_iff₀ hlg, ← Real.log_pow,
        Real.log_le_log_iff (by positivity) (by positivity), le_div_iff₀ hs, mul_comm]
    have hcount : ((List.range (n.toNat + 1)).filter fun i : Nat => decide (s * g ^ i ≤ x)).length =
        min (n.toNat + 1) (⌊Real.log (x / s) / Real.log g⌋₊ + 1) := by
      rw [← filter_range_le]
      congr 1
      apply List.filter_congr
      intro i _
      simp [hiff]
    rw [hcount]
    have hb : Real.log (x / s) / Real.log g < 2147483647 := by rw [← hratio]; exact hc hx
    have hcast := castInt_floor _ hr0 (by linarith)
    have hflo : ⌊Real.log (x / s) / Real.log g⌋₊ < 2147483647 := (Nat.floor_lt hr0).mpr (by exact_mod_cast hb)
    have e : castInt (DoubleOps.div (DoubleOps.log2 (DoubleOps.div x s)) (DoubleOps.log2 g)) =
        .ok ((⌊Real.log (x / s) / Real.log g⌋₊ : Nat) : Int) := by
      have : DoubleOps.div (DoubleOps.log2 (DoubleOps.div x s)) (DoubleOps.log2 g) =
        Real.log (x / s) / Real.log g := hratio
      rw [this]; exact hcast.1
    rw [e]
    simp only [bind, Except.bind]
    rw [addI32_eq (by constructor <;> simp only [int32Min, int32Max] <;> omega)]
    simp only
    rw [addI32_eq (by constructor <;> simp only [int32Min, int32Max] <;> omega)]
    simp only
    congr 1
    split <;> omega
  · have h1 : DoubleOps.le s x = false := by
      cases h : DoubleOps.le s x with
      | false => rfl
      | true => exact absurd ((le_iff _ _).mp h) hx
    simp only [h1, Bool.false_eq_true, if_false]
    rw [List.filter_eq_nil_iff.mpr]
    · rfl
    · intro i _
      have : s ≤ s * g ^ i := le_mul_of_one_le_right hs.le (one_le_pow₀ hg.le)
      simp; linarith

theorem upperBound_spec (bs : List ℝ) (v : ℝ) (hp : bs.Pairwise (· < ·)) (first len : Nat)
    (h : first + len ≤ bs.length)
    (hlo : ∀ i b, i < first → bs[i]? = some b → b ≤ v)
    (hhi : ∀ i b, first + len ≤ i → bs[i]? = some b → v < b) :
    (∀ i b, i < upperBound bs v first len → bs[i]? = some b → b ≤ v) ∧
    (∀ i b, upperBound bs v first len ≤ i → bs[i]? = some b → v < b) := by
  induction len using Nat.strongRecOn generalizing first with
  | _ len ih =>
    unfold upperBound
    split
    · rename_i h0; subst h0
      exact ⟨hlo, by simpa using hhi⟩
    · rename_i h0
      simp only
      have hm : first + len / 2 < bs.length := by omega
      rw [List.getElem?_eq_getElem hm]
      simp only
      have mono : ∀ (i j : Nat) (bi bj : ℝ), i < j → bs[i]? = some bi → bs[j]? = some bj → bi < bj := by
        intro i j bi bj hij hi hj
        obtain ⟨hi1, rfl⟩ := List.getElem?_eq_some_iff.mp hi
        obtain ⟨hj1, rfl⟩ := List.getElem?_eq_some_iff.mp hj
        exact List.pairwise_iff_getElem.mp hp i j hi1 hj1 hij
      have hme : bs[first + len / 2]? = some bs[first + len / 2] := List.getElem?_eq_getElem hm
      split
      · rename_i hlt
        have hlt := (lt_iff _ _).mp hlt
        apply ih (len / 2) (by omega) first (by omega) hlo
        intro i b hi hb
        rcases Nat.eq_or_lt_of_le hi with rfl | hi
        · rw [hme] at hb; cases hb; exact hlt
        · exact lt_trans hlt (mono _ _ _ _ hi hme hb)
      · rename_i hlt
        have hge : bs[first + len / 2] ≤ v := by
          by_contra hc
          exact hlt ((lt_iff _ _).mpr (lt_of_not_ge hc))
        apply ih (len - len / 2 - 1) (by omega) (first + len / 2 + 1) (by omega)
        · intro i b hi hb
          rcases Nat.eq_or_lt_of_le (Nat.le_of_lt_succ hi) with rfl | hi
          · rw [hme] at hb; cases hb; exact hge
          · exact le_trans (mono _ _ _ _ hi hb hme).le hge
        · intro i b hi hb
          exact hhi i b (by omega) hb

theorem filter_split_length (bs : List ℝ) (v : ℝ) (r : Nat) (hr : r ≤ bs.length)
    (hlo : ∀ i b, i < r → bs[i]? = some b → b ≤ v) (hhi : ∀ i b, r ≤ i → bs[i]? = some b → v < b) :
    (by classical exact (bs.filter fun t => decide (t ≤ v)).length) = r := by
  induction bs generalizing r with
  | nil => simp at hr; simp [hr]
  | cons b t ih =>
    cases r with
    | zero =>
      rw [List.filter_eq_nil_iff.mpr]
      · rfl
      · intro x hx
        obtain ⟨i, hi, rfl⟩ := List.mem_iff_getElem.mp hx
        have := hhi i _ (by omega) (List.getElem?_eq_getElem hi)
        simpa using this
    | succ r =>
      have hb : b ≤ v := hlo 0 b (by omega) rfl
      simp only [List.filter_cons, hb, decide_true, if_true, List.length_cons]
      congr 1
      exact ih r (by simpa using hr) (fun i x hi hx => hlo (i+1) x (by omega) (by simpa using hx))
        (fun i x hi hx => hhi (i+1) x (by omega) (by simpa using hx))

theorem bucketIndex_explicit (bs : List ℝ) (x : ℝ) (h : ValidLayout (.explicit bs)) :
    bucketIndex (.explicit bs) x = .ok ((bucketOf (.explicit bs) x : Nat) : Int) := by
  obtain ⟨hne, hp⟩ := h
  simp only [bucketIndex, bucketOf, bounds]
  cases bs with
  | nil => exact absurd rfl hne
  | cons b0 t =>
    simp only [explicitIndex]
    by_cases hx : b0 ≤ x
    · have h1 : DoubleOps.le b0 x = true := (le_iff _ _).mpr hx
      simp only [h1, if_true]
      have hs := upperBound_spec (b0 :: t) x hp 0 (b0 :: t).length (by omega) (by intro i b hi; omega)
        (by intro i b hi hb; have := (List.getElem?_eq_some_iff.mp hb).1; omega)
      have hl := upperBound_le (b0 :: t) x 0 (b0 :: t).length (by omega)
      rw [filter_split_length (b0 :: t) x _ (by omega) hs.1 hs.2]
    · have h1 : DoubleOps.le b0 x = false := by
        cases h : DoubleOps.le b0 x with
        | false => rfl
        | true => exact absurd ((le_iff _ _).mp h) hx
      simp only [h1, Bool.false_eq_true, if_false]
      rw [List.filter_eq_nil_iff.mpr]
      · rfl
      · intro y hy
        rcases List.mem_cons.mp hy with rfl | hy
        · simpa using hx
        · have := (List.pairwise_cons.mp hp).1 y hy
          simp; linarith

theorem bucketIndex_eq (b : BucketOption ℝ) (x : ℝ) (h : ValidLayout b) (hc : CastSafe b x) :
    bucketIndex b x = .ok ((bucketOf b x : Nat) : Int) := by
  cases b with
  | unset => exact h.elim
  | linear n w o => exact bucketIndex_linear n w o x h
  | exponential n g s => exact bucketIndex_exponential n g s x h hc
  | explicit bs => exact bucketIndex_explicit bs x h

theorem bucketOf_le (b : BucketOption ℝ) (x : ℝ) : bucketOf b x ≤ (bounds b).length := by
  classical
  unfold bucketOf
  exact List.length_filter_le _ _

/-! ### Statistics -/

theorem sum_sq_dev (xs : List ℝ) (c : ℝ) :
    (xs.map fun x => (x - c) ^ 2).sum =
      (xs.map fun x => x ^ 2).sum - 2 * c * xs.sum + xs.length * c ^ 2 := by
  induction xs with
  | nil => simp
  | cons x xs ih =>
    simp only [List.map_cons, List.sum_cons, ih, List.length_cons]
    push_cast
    ring

theorem ssd_shift (xs : List ℝ) (h : xs ≠ []) (c : ℝ) :
    (xs.map fun x => (x - c) ^ 2).sum = ssdOf xs + xs.length * (meanOf xs - c) ^ 2 := by
  have hn : (xs.length : ℝ) ≠ 0 := by
    have : 0 < xs.length := List.length_pos_iff.mpr h
    positivity
  unfold ssdOf
  rw [sum_sq_dev, sum_sq_dev]
  unfold meanOf
  field_simp
  ring

theorem meanOf_append (xs ys : List ℝ) (hx : xs ≠ []) (hy : ys ≠ []) :
    meanOf (xs ++ ys) = (xs.length * meanOf xs + ys.length * meanOf ys) / (xs.length + ys.length) := by
  have h1 : (xs.length : ℝ) ≠ 0 := by
    have : 0 < xs.length := List.length_pos_iff.mpr hx
    positivity
  have h2 : (ys.length : ℝ) ≠ 0 := by
    have : 0 < ys.length := List.length_pos_iff.mpr hy
    positivity
  unfold meanOf
  simp only [List.sum_append, List.length_append]
  push_cast
  field_simp

theorem ssdOf_append (xs ys : List ℝ) (hx : xs ≠ []) (hy : ys ≠ []) :
    ssdOf (xs ++ ys) = ssdOf xs + ssdOf ys +
      xs.length * (meanOf (xs ++ ys) - meanOf xs) ^ 2 +
      ys.length * (meanOf (xs ++ ys) - meanOf ys) ^ 2 := by
  unfold ssdOf
  simp only [List.map_append, List.sum_append]
  have e1 := ssd_shift xs hx (meanOf (xs ++ ys))
  have e2 := ssd_shift ys hy (meanOf (xs ++ ys))
  rw [e1, e2]
  unfold ssdOf
  ring

theorem meanOf_single (x : ℝ) : meanOf [x] = x := by simp [meanOf]
theorem ssdOf_single (x : ℝ) : ssdOf [x] = 0 := by simp [ssdOf, meanOf]

/-- The one-sample update formula of `UpdateGeneralStatictics`. -/
theorem ssdOf_snoc (xs : List ℝ) (hx : xs ≠ []) (v : ℝ) :
    ssdOf (xs ++ [v]) = ssdOf xs + (v - meanOf xs) * (v - meanOf (xs ++ [v])) := by
  rw [ssdOf_append xs [v] hx (by simp), meanOf_append xs [v] hx (by simp), ssdOf_single, meanOf_single]
  have h1 : ((xs.length : ℝ) + 1) ≠ 0 := by positivity
  simp only [List.length_cons, List.length_nil]
  push_cast
  field_simp
  ring

end Verif.Dist
