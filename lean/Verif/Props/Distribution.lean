import Verif.Lemmas.DistributionReal
import Mathlib.Analysis.SpecialFunctions.Pow.Real
import Mathlib.Tactic.NormNum
import Mathlib.Tactic.Positivity
/-
C05-C10: distributions (utils/distribution_helper.cc).
-/
namespace Verif.Dist
open DoubleOps

/-! ### C05 -/

section structural
variable {D : Type} [DoubleOps D]

/-- C05 for every double arithmetic (IEEE included): if the bucket counts added up before, any
sequence of successful `AddSample` calls keeps them adding up; count grows by the number of samples,
the number of buckets never changes, every sample selects a bucket in range, and every bucket grows by the
number of samples that selected it. -/
theorem C05_samples_counted (d d' : Distribution D) (xs : List D) (hb : d.buckets ≠ .unset)
    (hsum : d.bucketCounts.sum = d.count) (h : addSamples d xs = .ok d') :
    d'.count = d.count + xs.length ∧ d'.bucketCounts.sum = d'.count ∧
    d'.bucketCounts.length = d.bucketCounts.length ∧ d'.buckets = d.buckets ∧
    (∀ x ∈ xs, ∃ i : Nat, bucketIndex d.buckets x = .ok (i : Int) ∧ i < d.bucketCounts.length) ∧
    ∀ (i : Nat) (c : Int), d.bucketCounts[i]? = some c →
      d'.bucketCounts[i]? = some (c + hits d.buckets xs i) := by
  obtain ⟨h1, h2, h3, h4, h5, h6⟩ := addSamples_ok h hb
  exact ⟨h1, by omega, h3, h2, h5, h6⟩

/-- C05: with explicit bounds no value whatsoever (NaN and infinities included) selects a bucket that
does not exist; the call succeeds while the counters have room. -/
theorem C05_explicit_total (bs : List D) (hne : bs ≠ []) (d : Distribution D)
    (hb : d.buckets = .explicit bs) (hl : d.bucketCounts.length = bs.length + 1)
    (hroom : 0 ≤ d.count ∧ d.count < int64Max)
    (hroomb : ∀ c ∈ d.bucketCounts, 0 ≤ c ∧ c < int64Max) (v : D) :
    ∃ d', addSample v d = .ok (.ok, d') := by
  obtain ⟨i, hi, hil⟩ := explicitIndex_range bs v hne
  have hg : ∃ d1, updateGeneral v d = .ok d1 := by
    unfold updateGeneral
    split
    · exact ⟨_, rfl⟩
    · rw [addI64_eq (by constructor <;> simp only [int64Min, int64Max] at * <;> omega)]
      exact ⟨_, rfl⟩
  obtain ⟨d1, hd1⟩ := hg
  obtain ⟨e1, e2, e3⟩ := updateGeneral_ok hd1
  have hlt : i < d.bucketCounts.length := by omega
  have hc := hroomb d.bucketCounts[i] (List.getElem_mem hlt)
  have hbump : ∃ d2, bumpBucket (i : Int) d1 = .ok d2 := by
    unfold bumpBucket
    rw [if_neg (by omega)]
    simp only [Int.toNat_natCast, e2, List.getElem?_eq_getElem hlt]
    rw [addI64_eq (by constructor <;> simp only [int64Min, int64Max] at * <;> omega)]
    exact ⟨_, rfl⟩
  obtain ⟨d2, hd2⟩ := hbump
  refine ⟨d2, ?_⟩
  unfold addSample
  simp only [hb, bucketIndex, hd1, hi, hd2, bind, Except.bind]

/-! ### C09 -/

/-- The target of a merge keeps its layout unless it was empty. -/
theorem merge_ok_cases (f t r : Distribution D) (s : Status) (h : merge f t = .ok (s, r)) :
    (s = .invalidArgument ∧ r = t ∧
      (bucketsApproxEqual f.buckets t.buckets = false ∨ f.bucketCounts.length ≠ t.bucketCounts.length)) ∨
    (s = .ok ∧ bucketsApproxEqual f.buckets t.buckets = true ∧
      f.bucketCounts.length = t.bucketCounts.length ∧
      ((f.count ≤ 0 ∧ r = t) ∨ (0 < f.count ∧ t.count ≤ 0 ∧ r = f) ∨
       (0 < f.count ∧ 0 < t.count ∧ r.count = t.count + f.count ∧ r.buckets = t.buckets ∧
        addCounts t.bucketCounts f.bucketCounts = .ok r.bucketCounts))) := by
  unfold merge at h
  split at h
  · rename_i hb
    cases h
    left
    exact ⟨rfl, rfl, Or.inl (by simpa using hb)⟩
  · rename_i hb
    split at h
    · rename_i hl
      cases h
      left
      exact ⟨rfl, rfl, Or.inr hl⟩
    · rename_i hl
      have hb' : bucketsApproxEqual f.buckets t.buckets = true := by simpa using hb
      have hl' : f.bucketCounts.length = t.bucketCounts.length := by simpa using hl
      right
      split at h
      · cases h; exact ⟨rfl, hb', hl', Or.inl ⟨by assumption, rfl⟩⟩
      · split at h
        · cases h; exact ⟨rfl, hb', hl', Or.inr (Or.inl ⟨by omega, by assumption, rfl⟩)⟩
        · simp only [bind, Except.bind] at h
          split at h
          · cases h
          · rename_i c hc
            split at h
            · cases h
            · rename_i cs hcs
              cases h
              exact ⟨rfl, hb', hl', Or.inr (Or.inr ⟨by omega, by omega, (addI64_ok hc).1, rfl, hcs⟩)⟩

/-- `IsCloseEnough`: the difference is at most `epsilon` times the first number. -/
def Near (x y : D) : Prop := le (abs (sub x y)) (mul epsilon (abs x)) = true

theorem sameLayout_iff (a b : BucketOption D) : bucketsApproxEqual a b = true ↔ SameLayout Near a b := by
  cases a <;> cases b <;>
    simp only [bucketsApproxEqual, SameLayout, Near, isCloseEnough, Bool.and_eq_true, beq_iff_eq, and_assoc,
      Bool.false_eq_true]
  rename_i bs bs'
  rw [List.forall₂_iff_zip, List.all_eq_true]
  constructor
  · rintro ⟨h1, h2⟩; exact ⟨h1, fun hm => h2 _ hm⟩
  · rintro ⟨h1, h2⟩; exact ⟨h1, fun p hm => h2 hm⟩

/-- C09, rejection: `Merge` returns INVALID_ARGUMENT exactly when the layouts differ in kind, number of
buckets or, by more than the tolerance, in a parameter, or the numbers of counters differ; and
then the target is untouched. -/
theorem C09_merge_rejects (f t : Distribution D) :
    ¬ (SameLayout Near f.buckets t.buckets ∧ f.bucketCounts.length = t.bucketCounts.length) ↔
      merge f t = .ok (.invalidArgument, t) := by
  rw [← sameLayout_iff, not_and_or, Bool.not_eq_true]
  constructor
  · intro h
    unfold merge
    rcases h with h | h
    · simp [h]
    · by_cases hb : bucketsApproxEqual f.buckets t.buckets = true
      · simp [hb, h]
      · simp [hb]
  · intro h
    rcases merge_ok_cases f t _ _ h with ⟨_, _, h⟩ | ⟨h, _⟩
    · exact h
    · cases h

/-- C09 with exact arithmetic: the tolerance is one part in a hundred thousand of the source's parameter, and
distributions of equal layout and shape are never rejected. -/
theorem C09_tolerance (f t : Distribution ℝ) :
    (merge f t = .ok (.invalidArgument, t) ↔
      ¬ (SameLayout (fun x y : ℝ => |x - y| ≤ |x| / 100000) f.buckets t.buckets ∧
        f.bucketCounts.length = t.bucketCounts.length)) ∧
    (f.buckets = t.buckets → f.buckets ≠ .unset → f.bucketCounts.length = t.bucketCounts.length →
      merge f t ≠ .ok (.invalidArgument, t)) := by
  have hn : (Near : ℝ → ℝ → Prop) = fun x y : ℝ => |x - y| ≤ |x| / 100000 := by
    funext x y
    simp only [Near, DoubleOps.le, DoubleOps.abs, DoubleOps.sub, DoubleOps.mul, DoubleOps.epsilon, decide_eq_true_eq]
    rw [show 1 / 100000 * |x| = |x| / 100000 by ring]
  have h1 := C09_merge_rejects f t
  rw [hn] at h1
  refine ⟨h1.symm, fun he hu hl hm => (h1.mpr hm) ⟨?_, hl⟩⟩
  rw [he] at hu ⊢
  have hr : ∀ x : ℝ, |x - x| ≤ |x| / 100000 := fun x => by simp; positivity
  cases hb : t.buckets with
  | unset => exact absurd hb hu
  | linear n w o => exact ⟨rfl, hr _, hr _⟩
  | exponential n g s => exact ⟨rfl, hr _, hr _⟩
  | explicit bs => exact List.forall₂_same.mpr (fun x _ => hr x)

/-- C09, acceptance: an accepted merge of two non-empty distributions adds the totals and every
bucket, and keeps the target's layout; an empty source changes nothing; an empty target becomes the
source. -/
theorem C09_merge_adds (f t r : Distribution D) (h : merge f t = .ok (.ok, r)) :
    (f.count ≤ 0 → r = t) ∧ (0 < f.count → t.count ≤ 0 → r = f) ∧
    (0 < f.count → 0 < t.count →
      r.count = t.count + f.count ∧ r.buckets = t.buckets ∧
      r.bucketCounts.length = t.bucketCounts.length ∧
      r.bucketCounts.sum = t.bucketCounts.sum + f.bucketCounts.sum ∧
      ∀ (i : Nat) (a b : Int), t.bucketCounts[i]? = some a → f.bucketCounts[i]? = some b →
        r.bucketCounts[i]? = some (a + b)) := by
  rcases merge_ok_cases f t r .ok h with ⟨h, _⟩ | ⟨_, _, hl, ⟨h1, h2⟩ | ⟨h1, h2, h3⟩ | ⟨h1, h2, h3, h4, h5⟩⟩
  · cases h
  · exact ⟨fun _ => h2, fun hh => by omega, fun hh => by omega⟩
  · exact ⟨fun hh => by omega, fun _ _ => h3, fun _ hh => by omega⟩
  · refine ⟨fun hh => by omega, fun _ hh => by omega, fun _ _ => ?_⟩
    obtain ⟨a1, a2, a3⟩ := addCounts_ok hl h5
    exact ⟨h3, h4, a1, a2, a3⟩

/-- C09: a merge never leaves the defined behaviour unless a counter overflows `int64`. -/
theorem C09_merge_defined (f t : Distribution D)
    (hc : InI64 (t.count + f.count))
    (hb : ∀ (i : Nat) (a b : Int), t.bucketCounts[i]? = some a → f.bucketCounts[i]? = some b → InI64 (a + b)) :
    ∃ s r, merge f t = .ok (s, r) := by
  unfold merge
  split
  · exact ⟨_, _, rfl⟩
  · split
    · exact ⟨_, _, rfl⟩
    · rename_i hl
      split
      · exact ⟨_, _, rfl⟩
      · split
        · exact ⟨_, _, rfl⟩
        · obtain ⟨r, hr⟩ := addCounts_defined (by simpa using hl) hb
          rw [addI64_eq hc]
          simp only [bind, Except.bind, hr]
          exact ⟨_, _, rfl⟩

/-! ### C10 -/

/-- C10, linear: the exact decision, for any double arithmetic. -/
theorem C10_initLinear (n : Int) (w o : D) (d : Distribution D) :
    (n ≤ 0 ∨ le w zero = true → initLinear n w o d = .ok (.invalidArgument, d)) ∧
    (0 < n → le w zero = false → n ≤ int32Max - 2 →
      ∃ d', initLinear n w o d = .ok (.ok, d') ∧ d'.buckets = .linear n w o ∧ d'.count = d.count ∧
        (d.bucketCounts = [] → d'.bucketCounts = List.replicate (n.toNat + 2) 0)) := by
  constructor
  · intro h
    unfold initLinear
    by_cases h0 : n ≤ 0
    · simp [h0]
    · rcases h with h | h
      · exact absurd h h0
      · simp [h0, h]
  · intro h0 hw hmax
    unfold initLinear
    simp only [show ¬ n ≤ 0 by omega, hw, if_false, Bool.false_eq_true]
    rw [addI32_eq (by constructor <;> simp only [int32Min, int32Max] at * <;> omega)]
    simp only [bind, Except.bind]
    refine ⟨_, rfl, rfl, rfl, fun he => ?_⟩
    simp only [he, resize_nil]
    congr 1; omega

/-- C10, exponential: the exact decision, for any double arithmetic. -/
theorem C10_initExponential (n : Int) (g s : D) (d : Distribution D) :
    (n ≤ 0 ∨ le g one = true ∨ le s zero = true → initExponential n g s d = .ok (.invalidArgument, d)) ∧
    (0 < n → le g one = false → le s zero = false → n ≤ int32Max - 2 →
      ∃ d', initExponential n g s d = .ok (.ok, d') ∧ d'.buckets = .exponential n g s ∧
        d'.count = d.count ∧
        (d.bucketCounts = [] → d'.bucketCounts = List.replicate (n.toNat + 2) 0)) := by
  constructor
  · intro h
    unfold initExponential
    by_cases h0 : n ≤ 0
    · simp [h0]
    · rcases h with h | h | h
      · exact absurd h h0
      · simp [h0, h]
      · by_cases hg : le g one = true <;> simp [h0, hg, h]
  · intro h0 hg hs hmax
    unfold initExponential
    simp only [show ¬ n ≤ 0 by omega, hg, hs, if_false, Bool.false_eq_true]
    rw [addI32_eq (by constructor <;> simp only [int32Min, int32Max] at * <;> omega)]
    simp only [bind, Except.bind]
    refine ⟨_, rfl, rfl, rfl, fun he => ?_⟩
    simp only [he, resize_nil]
    congr 1; omega

/-- C10: for the two largest admissible-looking sizes `num_finite_buckets + 2` overflows `int`. -/
theorem C10_false_size_overflow (n : Int) (hn : n ≤ int32Max) (hbig : int32Max - 2 < n) (w o : D)
    (hw : le w zero = false) (d : Distribution D) :
    initLinear n w o d = .error .signedOverflow := by
  unfold initLinear addI32
  simp only [int32Max] at *
  simp only [show ¬ n ≤ 0 by omega, hw, if_false, Bool.false_eq_true]
  rw [if_neg (by simp only [InI32, int32Max, int32Min]; omega)]
  rfl

/-- C10: an empty list of bounds is accepted, and then every `AddSample` reads `bounds(0)` of an
empty array. -/
theorem C10_false_empty_explicit (v : D) :
    ∃ d, initExplicit ([] : List D) empty = .ok (.ok, d) ∧ addSample v d = .error .outOfBounds := by
  refine ⟨_, rfl, ?_⟩
  simp [addSample, updateGeneral, empty, bucketIndex, explicitIndex, bind, Except.bind]

/-- C10, explicit bounds: rejected exactly when some later bound compares below its predecessor or two
neighbours are equal. -/
theorem C10_initExplicit (bs : List D) (d : Distribution D) (hfresh : d.buckets = .unset) :
    ((∃ (i : Nat) (a b : D), bs[i]? = some a ∧ bs[i + 1]? = some b ∧ (lt b a = true ∨ eq a b = true)) →
      initExplicit bs d = .ok (.invalidArgument, d)) ∧
    ((∀ (i : Nat) (a b : D), bs[i]? = some a → bs[i + 1]? = some b → lt b a = false ∧ eq a b = false) →
      ∃ d', initExplicit bs d = .ok (.ok, d') ∧ d'.buckets = .explicit bs ∧ d'.count = d.count ∧
        (d.bucketCounts = [] → d'.bucketCounts = List.replicate (bs.length + 1) 0)) := by
  have sorted_iff : ∀ l : List D, isSorted l = true ↔
      ∀ (i : Nat) (a b : D), l[i]? = some a → l[i + 1]? = some b → lt b a = false := by
    intro l
    induction l with
    | nil => simp [isSorted]
    | cons x t ih =>
      cases t with
      | nil => simp [isSorted]
      | cons y t =>
        simp only [isSorted, Bool.and_eq_true, ih, Bool.not_eq_true']
        constructor
        · rintro ⟨h0, h1⟩ i a b ha hb
          cases i with
          | zero => simp at ha hb; subst ha hb; exact h0
          | succ i => exact h1 i a b (by simpa using ha) (by simpa using hb)
        · intro h
          exact ⟨h 0 x y rfl rfl, fun i a b ha hb => h (i + 1) a b (by simpa using ha) (by simpa using hb)⟩
  have adj_iff : ∀ l : List D, hasAdjacentEqual l = false ↔
      ∀ (i : Nat) (a b : D), l[i]? = some a → l[i + 1]? = some b → eq a b = false := by
    intro l
    induction l with
    | nil => simp [hasAdjacentEqual]
    | cons x t ih =>
      cases t with
      | nil => simp [hasAdjacentEqual]
      | cons y t =>
        simp only [hasAdjacentEqual, Bool.or_eq_false_iff, ih]
        constructor
        · rintro ⟨h0, h1⟩ i a b ha hb
          cases i with
          | zero => simp at ha hb; subst ha hb; exact h0
          | succ i => exact h1 i a b (by simpa using ha) (by simpa using hb)
        · intro h
          exact ⟨h 0 x y rfl rfl, fun i a b ha hb => h (i + 1) a b (by simpa using ha) (by simpa using hb)⟩
  constructor
  · rintro ⟨i, a, b, ha, hb, h⟩
    unfold initExplicit
    by_cases hs : isSorted bs = true
    · by_cases hadj : hasAdjacentEqual bs = true
      · simp [hs, hadj]
      · have hadj' : hasAdjacentEqual bs = false := by simpa using hadj
        have e1 := (sorted_iff bs).mp hs i a b ha hb
        have e2 := (adj_iff bs).mp hadj' i a b ha hb
        rcases h with h | h
        · rw [e1] at h; cases h
        · rw [e2] at h; cases h
    · simp [hs]
  · intro h
    have hs := (sorted_iff bs).mpr fun i a b ha hb => (h i a b ha hb).1
    have hadj := (adj_iff bs).mpr fun i a b ha hb => (h i a b ha hb).2
    unfold initExplicit
    simp only [hs, hadj, hfresh, Bool.not_true, Bool.false_eq_true, if_false, List.nil_append]
    refine ⟨_, rfl, rfl, rfl, fun he => ?_⟩
    simp only [he, resize_nil]
    congr 1

end structural

/-! ### Exact arithmetic -/

theorem bounds_pairwise (b : BucketOption ℝ) (h : ValidLayout b) : (bounds b).Pairwise (· < ·) := by
  cases b with
  | unset => exact h.elim
  | linear n w o =>
    simp only [bounds, List.pairwise_map]
    refine List.Pairwise.imp ?_ List.pairwise_lt_range
    intro i j hij
    have : (i : ℝ) < j := by exact_mod_cast hij
    nlinarith [h.2.2]
  | exponential n g s =>
    simp only [bounds, List.pairwise_map]
    refine List.Pairwise.imp ?_ List.pairwise_lt_range
    intro i j hij
    exact mul_lt_mul_of_pos_left (pow_lt_pow_right₀ h.2.2.1 hij) h.2.2.2
  | explicit bs => exact h.2

/-- The specification's `bucketOf` is the bucket whose half-open range contains the value: exactly
the bounds before it are `≤ x`. -/
theorem bucketOf_iff (b : BucketOption ℝ) (h : ValidLayout b) (x : ℝ) (i : Nat) (t : ℝ)
    (ht : (bounds b)[i]? = some t) : t ≤ x ↔ i < bucketOf b x := by
  classical
  have hp := bounds_pairwise b h
  unfold bucketOf
  revert ht hp
  generalize bounds b = l
  intro ht hp
  induction l generalizing i with
  | nil => simp at ht
  | cons a l ih =>
    rw [List.pairwise_cons] at hp
    by_cases ha : a ≤ x
    · simp only [List.filter_cons, ha, decide_true, if_true, List.length_cons]
      cases i with
      | zero => simp at ht; subst ht; simp [ha]
      | succ i =>
        have := ih i (by simpa using ht) hp.2
        exact this.trans (by omega)
    · have hall : ∀ y ∈ l, ¬ y ≤ x := fun y hy hyx => ha (le_trans (hp.1 y hy).le hyx)
      have hnil : (a :: l).filter (fun t => decide (t ≤ x)) = [] := by
        rw [List.filter_eq_nil_iff]
        intro y hy
        rcases List.mem_cons.mp hy with rfl | hy
        · simpa using ha
        · simpa using hall y hy
      rw [hnil]
      constructor
      · intro htx
        exfalso
        rcases List.mem_cons.mp (List.mem_of_getElem? ht) with rfl | hy
        · exact ha htx
        · exact hall t hy htx
      · intro h; simp at h

/-- One `AddSample` on a distribution that describes `xs`. -/
theorem addSample_describes (d : Distribution ℝ) (b : BucketOption ℝ) (xs : List ℝ) (x : ℝ)
    (hv : ValidLayout b) (hc : CastSafe b x) (hd : Describes d b xs)
    (hroom : (xs.length : Int) < int64Max) :
    ∃ d', addSample x d = .ok (.ok, d') ∧ Describes d' b (xs ++ [x]) ∧
      ∃ c, d.bucketCounts[bucketOf b x]? = some c ∧
        d'.bucketCounts = d.bucketCounts.set (bucketOf b x) (c + 1) := by
  classical
  obtain ⟨hb, hcnt, hlen, hbk, hst⟩ := hd
  have hidx := bucketIndex_eq b x hv hc
  have hle := bucketOf_le b x
  have hlt : bucketOf b x < d.bucketCounts.length := by omega
  have hget := hbk _ hlt
  set k := bucketOf b x with hk
  have hflen : ∀ i, (xs.filter fun x => decide (bucketOf b x = i)).length ≤ xs.length :=
    fun i => List.length_filter_le _ _
  have hbne : b ≠ .unset := by rintro rfl; exact hv
  have hbump : ∀ d1 : Distribution ℝ, d1.bucketCounts = d.bucketCounts →
      bumpBucket (k : Int) d1 = .ok { d1 with bucketCounts := d.bucketCounts.set k (((xs.filter fun x => decide (bucketOf b x = k)).length : Int) + 1) } := by
    intro d1 hd1
    unfold bumpBucket
    rw [if_neg (by omega)]
    simp only [Int.toNat_natCast, hd1, hget]
    rw [addI64_eq (by
      have := hflen k
      constructor <;> simp only [int64Min, int64Max] at * <;> omega)]
    rfl
  -- the general part
  have hgen : ∃ d1, updateGeneral x d = .ok d1 ∧ d1.buckets = b ∧ d1.bucketCounts = d.bucketCounts ∧
      d1.count = (xs ++ [x]).length ∧ d1.mean = meanOf (xs ++ [x]) ∧ d1.ssd = ssdOf (xs ++ [x]) ∧
      (d1.minimum ∈ xs ++ [x] ∧ ∀ y ∈ xs ++ [x], d1.minimum ≤ y) ∧
      (d1.maximum ∈ xs ++ [x] ∧ ∀ y ∈ xs ++ [x], y ≤ d1.maximum) := by
    unfold updateGeneral
    by_cases h0 : xs = []
    · subst h0
      have : d.count = 0 := by simpa using hcnt
      rw [if_pos this]
      refine ⟨_, rfl, hb, rfl, by simp, ?_, ?_, ?_, ?_⟩
      · simp [meanOf_single]
      · simp [ssdOf_single, DoubleOps.zero]
      · simp
      · simp
    · have hpos : 0 < xs.length := List.length_pos_iff.mpr h0
      obtain ⟨hm, hs, hmin, hmax⟩ := hst h0
      rw [if_neg (by omega), addI64_eq (by constructor <;> simp only [int64Min, int64Max] at * <;> omega)]
      simp only [bind, Except.bind]
      have hmean : DoubleOps.div (DoubleOps.add (DoubleOps.mul (DoubleOps.ofInt d.count) d.mean) x)
          (DoubleOps.ofInt (d.count + 1)) = meanOf (xs ++ [x]) := by
        rw [meanOf_append xs [x] h0 (by simp), meanOf_single]
        simp only [DoubleOps.div, DoubleOps.add, DoubleOps.mul, DoubleOps.ofInt, hm, hcnt]
        simp
      refine ⟨_, rfl, hb, rfl, by simp [hcnt], hmean, ?_, ?_, ?_⟩
      · simp only [hmean]
        rw [ssdOf_snoc xs h0, ← hm, ← hs]
        rfl
      · simp only [stdMin]
        split
        · rename_i hlt
          have hlt := (lt_iff _ _).mp hlt
          refine ⟨List.mem_append_left _ hmin.1, ?_⟩
          intro y hy
          rcases List.mem_append.mp hy with hy | hy
          · exact hmin.2 y hy
          · simp at hy; subst hy; exact hlt.le
        · rename_i hlt
          have hge : x ≤ d.minimum := by
            by_contra hc; exact hlt ((lt_iff _ _).mpr (lt_of_not_ge hc))
          refine ⟨by simp, ?_⟩
          intro y hy
          rcases List.mem_append.mp hy with hy | hy
          · exact le_trans hge (hmin.2 y hy)
          · simp at hy; subst hy; exact le_rfl
      · simp only [stdMax]
        split
        · rename_i hlt
          have hlt := (lt_iff _ _).mp hlt
          refine ⟨List.mem_append_left _ hmax.1, ?_⟩
          intro y hy
          rcases List.mem_append.mp hy with hy | hy
          · exact hmax.2 y hy
          · simp at hy; subst hy; exact hlt.le
        · rename_i hlt
          have hge : d.maximum ≤ x := by
            by_contra hc; exact hlt ((lt_iff _ _).mpr (lt_of_not_ge hc))
          refine ⟨by simp, ?_⟩
          intro y hy
          rcases List.mem_append.mp hy with hy | hy
          · exact le_trans (hmax.2 y hy) hge
          · simp at hy; subst hy; exact le_rfl
  obtain ⟨d1, hd1, hb1, hbc1, hc1, hm1, hs1, hmin1, hmax1⟩ := hgen
  refine ⟨{ d1 with bucketCounts := d.bucketCounts.set k (((xs.filter fun x => decide (bucketOf b x = k)).length : Int) + 1) }, ?_, ?_, _, hget, rfl⟩
  · unfold addSample
    cases b with
    | unset => exact absurd rfl hbne
    | _ => simp only [hb, hd1, hidx, hbump d1 hbc1, bind, Except.bind]
  · refine ⟨hb1, hc1, by simpa using hlen, ?_, fun _ => ⟨hm1, hs1, hmin1, hmax1⟩⟩
    intro i hi
    simp only [List.length_set] at hi
    simp only [List.filter_append, List.length_append]
    by_cases hik : k = i
    · subst hik
      simp [hlt, ← hk]
    · rw [List.getElem?_set_ne hik, hbk i hi]
      have : ¬ bucketOf b x = i := by rw [← hk]; exact hik
      simp [this]

/-- C06: `AddSample` on a distribution with any valid layout increments exactly the bucket that contains
the sample (`bucketOf`, characterised by `bucketOf_iff`), and no other. -/
theorem C06_bucket_contains_sample_partial (d : Distribution ℝ) (b : BucketOption ℝ) (xs : List ℝ) (x : ℝ)
    (hv : ValidLayout b) (hc : CastSafe b x) (hd : Describes d b xs)
    (hroom : (xs.length : Int) < int64Max) :
    ∃ d' k c, addSample x d = .ok (.ok, d') ∧ d.bucketCounts[k]? = some c ∧
      d'.bucketCounts = d.bucketCounts.set k (c + 1) ∧
      ∀ (i : Nat) (t : ℝ), (bounds b)[i]? = some t → (t ≤ x ↔ i < k) := by
  obtain ⟨d', h1, _, c, h3, h4⟩ := addSample_describes d b xs x hv hc hd hroom
  exact ⟨d', bucketOf b x, c, h1, h3, h4, fun i t ht => bucketOf_iff b hv x i t ht⟩

/-- C06 fails without `CastSafe`: an exponential layout accepted by `InitExponential` (one finite
bucket, scale 1, growth factor slightly above 1) and the sample 2 make `static_cast<int>` overflow, because the
clamp to the overflow bucket comes after the cast. -/
theorem C06_false_exponential_cast :
    ∃ (g : ℝ) (d : Distribution ℝ), 1 < g ∧ initExponential 1 g 1 empty = .ok (.ok, d) ∧
      addSample 2 d = .error .badCast := by
  refine ⟨(2 : ℝ) ^ ((1 : ℝ) / 2 ^ 40), ⟨0, 0, 0, 0, 0, [0, 0, 0], .exponential 1 ((2 : ℝ) ^ ((1 : ℝ) / 2 ^ 40)) 1⟩, ?_, ?_, ?_⟩
  · exact Real.one_lt_rpow (by norm_num) (by positivity)
  · have h1 : (DoubleOps.le ((2 : ℝ) ^ ((1 : ℝ) / 2 ^ 40)) (DoubleOps.one : ℝ)) = false := by
      cases h : DoubleOps.le ((2 : ℝ) ^ ((1 : ℝ) / 2 ^ 40)) (DoubleOps.one : ℝ) with
      | false => rfl
      | true =>
        have h := (le_iff _ _).mp h
        have : 1 < (2 : ℝ) ^ ((1 : ℝ) / 2 ^ 40) := Real.one_lt_rpow (by norm_num) (by positivity)
        exact absurd h (not_le.mpr this)
    have h2 : (DoubleOps.le (1 : ℝ) (DoubleOps.zero : ℝ)) = false := by
      cases h : DoubleOps.le (1 : ℝ) (DoubleOps.zero : ℝ) with
      | false => rfl
      | true =>
        have h : (1 : ℝ) ≤ 0 := (le_iff _ _).mp h
        norm_num at h
    unfold initExponential
    rw [if_neg (by decide)]
    simp only [h1, h2, Bool.false_eq_true, if_false]
    rw [addI32_eq (by decide)]
    rfl
  · have hcast : castInt (DoubleOps.div (DoubleOps.log2 (DoubleOps.div (2 : ℝ) 1))
        (DoubleOps.log2 ((2 : ℝ) ^ ((1 : ℝ) / 2 ^ 40)))) = .error .badCast := by
      have e : DoubleOps.div (DoubleOps.log2 (DoubleOps.div (2 : ℝ) 1))
        (DoubleOps.log2 ((2 : ℝ) ^ ((1 : ℝ) / 2 ^ 40))) = ((2 ^ 40 : Int) : ℝ) := by
        simp only [DoubleOps.div, DoubleOps.log2]
        rw [Real.logb_rpow (by norm_num) (by norm_num), div_one, Real.logb_self_eq_one (by norm_num)]
        norm_num
      rw [e]
      simp only [castInt, DoubleOps.toInt32]
      have h0 : (0 : ℝ) ≤ ((2 ^ 40 : Int) : ℝ) := by norm_num
      simp only [h0, if_true, Int.floor_intCast]
      rw [if_neg (by decide)]
    have hle : DoubleOps.le (1 : ℝ) (2 : ℝ) = true := (le_iff _ _).mpr (by norm_num)
    simp only [addSample, updateGeneral, if_true, bucketIndex, exponentialIndex, hle, hcast, bind, Except.bind]

/-- C07: adding any list of samples (short enough for the `int64` counters) to a distribution that
describes `ys` gives one that describes `ys ++ xs`; with `ys = []` (a fresh distribution, C10) this
says count, mean, minimum, maximum, squared deviation and all buckets are those of the list. -/
theorem C07_samples_described (b : BucketOption ℝ) (hv : ValidLayout b) (xs ys : List ℝ)
    (hc : ∀ x ∈ xs, CastSafe b x) (d : Distribution ℝ) (hd : Describes d b ys)
    (hroom : ((ys.length + xs.length : Nat) : Int) ≤ int64Max) :
    ∃ d', addSamples d xs = .ok d' ∧ Describes d' b (ys ++ xs) := by
  induction xs generalizing d ys with
  | nil => exact ⟨d, rfl, by simpa using hd⟩
  | cons x xs ih =>
    simp only [List.length_cons] at hroom
    obtain ⟨d1, h1, h2, _⟩ := addSample_describes d b ys x hv (hc x (by simp)) hd (by omega)
    obtain ⟨d2, h3, h4⟩ := ih (ys ++ [x]) (fun y hy => hc y (by simp [hy])) d1 h2
      (by simp only [List.length_append, List.length_cons, List.length_nil]; omega)
    refine ⟨d2, ?_, by simpa using h4⟩
    simp only [addSamples, List.foldlM_cons, h1, bind, Except.bind]
    exact h3

theorem approxEqual_refl (b : BucketOption ℝ) (h : b ≠ .unset) : bucketsApproxEqual b b = true := by
  have hcl : ∀ x : ℝ, isCloseEnough x x = true := by
    intro x
    unfold isCloseEnough
    apply (le_iff _ _).mpr
    show |x - x| ≤ (1 / 100000 : ℝ) * |x|
    rw [sub_self, abs_zero]; positivity
  cases b with
  | unset => exact absurd rfl h
  | linear n w o => simp [bucketsApproxEqual, hcl]
  | exponential n g s => simp [bucketsApproxEqual, hcl]
  | explicit bs =>
    simp only [bucketsApproxEqual, beq_self_eq_true, Bool.true_and, List.all_eq_true]
    intro p hp
    have : p.1 = p.2 := by
      obtain ⟨i, hi⟩ := List.mem_iff_getElem?.mp hp
      obtain ⟨h1, h2⟩ := List.getElem?_zip_eq_some.mp hi
      rw [h1] at h2; exact Option.some.inj h2
    rw [this]; exact hcl _

/-- C08: merging the distribution of `xs` into the distribution of `ys` (same layout) gives the
distribution of `ys ++ xs`. -/
theorem C08_merge_describes (b : BucketOption ℝ) (hv : ValidLayout b) (f t : Distribution ℝ)
    (xs ys : List ℝ) (hf : Describes f b xs) (ht : Describes t b ys)
    (hroom : ((ys.length + xs.length : Nat) : Int) ≤ int64Max) :
    ∃ r, merge f t = .ok (.ok, r) ∧ Describes r b (ys ++ xs) := by
  classical
  obtain ⟨fb, fc, fl, fk, fs⟩ := hf
  obtain ⟨tb, tc, tl, tk, ts⟩ := ht
  have hbne : b ≠ .unset := by rintro rfl; exact hv
  have hae : bucketsApproxEqual f.buckets t.buckets = true := by
    rw [fb, tb]; exact approxEqual_refl b hbne
  have hll : f.bucketCounts.length = t.bucketCounts.length := by omega
  unfold merge
  simp only [hae, Bool.not_true, Bool.false_eq_true, if_false, hll, ne_eq, not_true]
  by_cases hx : xs = []
  · subst hx
    have : f.count ≤ 0 := by simp at fc; omega
    rw [if_pos this]
    exact ⟨t, rfl, by simpa using ⟨tb, tc, tl, tk, ts⟩⟩
  have hxp : 0 < xs.length := List.length_pos_iff.mpr hx
  rw [if_neg (by omega)]
  by_cases hy : ys = []
  · subst hy
    have : t.count ≤ 0 := by simp at tc; omega
    rw [if_pos this]
    exact ⟨f, rfl, by simpa using ⟨fb, fc, fl, fk, fs⟩⟩
  have hyp : 0 < ys.length := List.length_pos_iff.mpr hy
  rw [if_neg (by omega), addI64_eq (by constructor <;> simp only [int64Min, int64Max] at * <;> omega)]
  have hflen : ∀ (zs : List ℝ) (i : Nat), (zs.filter fun x => decide (bucketOf b x = i)).length ≤ zs.length :=
    fun zs i => List.length_filter_le _ _
  obtain ⟨r, hr⟩ := addCounts_defined hll (by
    intro i a c ha hc
    have hi1 := (List.getElem?_eq_some_iff.mp ha).1
    have hi2 := (List.getElem?_eq_some_iff.mp hc).1
    rw [tk i hi1] at ha
    rw [fk i hi2] at hc
    cases ha; cases hc
    have := hflen xs i
    have := hflen ys i
    constructor <;> simp only [int64Min, int64Max] at * <;> omega)
  obtain ⟨r1, r2, r3⟩ := addCounts_ok hll hr
  simp only [bind, Except.bind, hr]
  obtain ⟨fm, fss, fmin, fmax⟩ := fs hx
  obtain ⟨tm, tss, tmin, tmax⟩ := ts hy
  have hmean : DoubleOps.div (DoubleOps.add (DoubleOps.mul (DoubleOps.ofInt t.count) t.mean)
      (DoubleOps.mul (DoubleOps.ofInt f.count) f.mean)) (DoubleOps.ofInt (t.count + f.count)) =
      meanOf (ys ++ xs) := by
    rw [meanOf_append ys xs hy hx]
    simp only [DoubleOps.div, DoubleOps.add, DoubleOps.mul, DoubleOps.ofInt, tm, fm, tc, fc]
    push_cast
    rfl
  refine ⟨_, rfl, tb, by simp [tc, fc], by simp only [r1, tl], ?_, fun _ => ⟨hmean, ?_, ?_, ?_⟩⟩
  · intro i hi
    simp only at hi
    rw [r1] at hi
    rw [r3 i _ _ (tk i hi) (fk i (by omega))]
    simp [List.filter_append]
  · simp only [hmean]
    rw [ssdOf_append ys xs hy hx]
    simp only [DoubleOps.add, DoubleOps.mul, DoubleOps.sub, DoubleOps.ofInt, tm, fm, tss, fss, tc, fc]
    push_cast
    ring
  · simp only [stdMin]
    split
    · rename_i hlt
      have hlt := (lt_iff _ _).mp hlt
      refine ⟨List.mem_append_left _ tmin.1, fun y hy => ?_⟩
      rcases List.mem_append.mp hy with hy | hy
      · exact tmin.2 y hy
      · exact le_trans hlt.le (fmin.2 y hy)
    · rename_i hlt
      have hge : f.minimum ≤ t.minimum := by
        by_contra hc; exact hlt ((lt_iff _ _).mpr (lt_of_not_ge hc))
      refine ⟨List.mem_append_right _ fmin.1, fun y hy => ?_⟩
      rcases List.mem_append.mp hy with hy | hy
      · exact le_trans hge (tmin.2 y hy)
      · exact fmin.2 y hy
  · simp only [stdMax]
    split
    · rename_i hlt
      have hlt := (lt_iff _ _).mp hlt
      refine ⟨List.mem_append_left _ tmax.1, fun y hy => ?_⟩
      rcases List.mem_append.mp hy with hy | hy
      · exact tmax.2 y hy
      · exact le_trans (fmax.2 y hy) hlt.le
    · rename_i hlt
      have hge : t.maximum ≤ f.maximum := by
        by_contra hc; exact hlt ((lt_iff _ _).mpr (lt_of_not_ge hc))
      refine ⟨List.mem_append_right _ fmax.1, fun y hy => ?_⟩
      rcases List.mem_append.mp hy with hy | hy
      · exact le_trans (tmax.2 y hy) hge
      · exact fmax.2 y hy

/-- C10 in exact arithmetic: on a fresh message `Init*` succeeds exactly for the layouts of `ValidLayout`
(apart from the empty list of bounds and the sizes of `C10_false_size_overflow`) and the result describes
no samples. -/
theorem C10_init_describes_partial (n : Int) (hn : 0 < n) (hn2 : n ≤ int32Max - 2) (w o g s : ℝ) (bs : List ℝ) :
    (0 < w → ∃ d, initLinear n w o empty = .ok (.ok, d) ∧ Describes d (.linear n w o) []) ∧
    (1 < g → 0 < s → ∃ d, initExponential n g s empty = .ok (.ok, d) ∧ Describes d (.exponential n g s) []) ∧
    (bs.Pairwise (· < ·) → ∃ d, initExplicit bs empty = .ok (.ok, d) ∧ Describes d (.explicit bs) []) := by
  have lef : ∀ a b : ℝ, b < a → DoubleOps.le a b = false := by
    intro a b h
    cases hh : DoubleOps.le a b with
    | false => rfl
    | true => exact absurd ((le_iff _ _).mp hh) (not_le.mpr h)
  have fin : ∀ (d : Distribution ℝ) (b : BucketOption ℝ) (m : Nat), d.buckets = b → d.count = 0 →
      d.bucketCounts = List.replicate m 0 → m = (bounds b).length + 1 → Describes d b [] := by
    intro d b m h1 h2 h3 h4
    refine ⟨h1, by simpa using h2, by rw [h3]; simpa using h4, ?_, fun h => absurd rfl h⟩
    intro i hi
    rw [h3] at hi ⊢
    simp only [List.length_replicate] at hi
    simp [hi]
  refine ⟨fun hw => ?_, fun hg hs => ?_, fun hb => ?_⟩
  · obtain ⟨d, h1, h2, h3, h4⟩ := (C10_initLinear n w o empty).2 hn (lef _ _ hw) hn2
    exact ⟨d, h1, fin d _ _ h2 h3 (h4 rfl) (by simp [bounds])⟩
  · obtain ⟨d, h1, h2, h3, h4⟩ := (C10_initExponential n g s empty).2 hn (lef _ _ hg) (lef _ _ hs) hn2
    exact ⟨d, h1, fin d _ _ h2 h3 (h4 rfl) (by simp [bounds])⟩
  · obtain ⟨d, h1, h2, h3, h4⟩ := (C10_initExplicit bs (empty : Distribution ℝ) rfl).2 (by
      intro i a b ha hb'
      obtain ⟨hi1, rfl⟩ := List.getElem?_eq_some_iff.mp ha
      obtain ⟨hi2, rfl⟩ := List.getElem?_eq_some_iff.mp hb'
      have := List.pairwise_iff_getElem.mp hb i (i + 1) hi1 hi2 (by omega)
      constructor
      · cases hh : DoubleOps.lt bs[i + 1] bs[i] with
        | false => rfl
        | true => exact absurd ((lt_iff _ _).mp hh) (not_lt.mpr this.le)
      · simp [DoubleOps.eq, this.ne])
    exact ⟨d, h1, fin d _ _ h2 h3 (h4 rfl) (by simp [bounds])⟩

/-- C10: initialising an explicit layout twice appends the bounds but sizes the buckets for one copy,
so a later sample writes out of bounds. -/
theorem C10_false_explicit_twice :
    ∃ d1 d2 : Distribution ℝ, initExplicit [1] empty = .ok (.ok, d1) ∧
      initExplicit [1] d1 = .ok (.ok, d2) ∧ addSample 5 d2 = .error .outOfBounds := by
  refine ⟨_, _, rfl, rfl, ?_⟩
  have h1 : DoubleOps.le (1 : ℝ) 5 = true := (le_iff _ _).mpr (by norm_num)
  have h2 : DoubleOps.lt (5 : ℝ) 1 = false := by simp [DoubleOps.lt]
  have hub : upperBound [(1 : ℝ), 1] 5 0 2 = 2 := by
    rw [upperBound]; simp [h2]
    try (rw [upperBound]; simp)
  simp [addSample, updateGeneral, empty, bucketIndex, explicitIndex, h1, hub, bumpBucket, resize, bind, Except.bind]

/-! ### The hypotheses are met -/

/-- Three samples in a linear layout with two finite buckets. -/
example : ∃ d', addSamples (D := ℝ) ⟨0, 0, 0, 0, 0, [0, 0, 0, 0], .linear 2 1 0⟩ [-1, 1 / 2, 7] = .ok d' ∧
    Describes d' (.linear 2 1 0) [-1, 1 / 2, 7] := by
  have hv : ValidLayout (.linear 2 1 0) := ⟨by omega, by omega, by norm_num⟩
  have hd : Describes (⟨0, 0, 0, 0, 0, [0, 0, 0, 0], .linear 2 1 0⟩ : Distribution ℝ) (.linear 2 1 0) [] := by
    refine ⟨rfl, rfl, by simp [bounds], ?_, fun h => absurd rfl h⟩
    intro i hi
    simp only [List.length_cons, List.length_nil] at hi
    have : i = 0 ∨ i = 1 ∨ i = 2 ∨ i = 3 := by omega
    rcases this with rfl | rfl | rfl | rfl <;> rfl
  exact C07_samples_described _ hv _ [] (fun _ _ => trivial) _ hd (by decide)

/-- An exponential layout whose index computation is safe for the sample 5. -/
example : ValidLayout (.exponential 3 2 1) ∧ CastSafe (.exponential 3 2 1) 4 := by
  refine ⟨⟨by omega, by omega, by norm_num, by norm_num⟩, fun _ => ?_⟩
  rw [Real.logb_self_eq_one (by norm_num), div_one, div_one]
  have : Real.logb 2 4 = 2 := by
    rw [show (4 : ℝ) = 2 ^ (2 : ℕ) by norm_num, Real.logb_pow, Real.logb_self_eq_one (by norm_num)]; norm_num
  rw [this]; norm_num

/-- Layouts the merge tells apart and layouts it takes for equal.  The tolerance is relative to the source. -/
example : ¬ SameLayout (fun x y : ℝ => |x - y| ≤ |x| / 100000) (.linear 2 1 0) (.linear 2 1 1) ∧
    ¬ SameLayout (fun x y : ℝ => |x - y| ≤ |x| / 100000) (.linear 2 1 0) (.explicit [1, 2]) ∧
    SameLayout (fun x y : ℝ => |x - y| ≤ |x| / 100000) (.explicit [1, 2]) (.explicit [1, 2 + 1 / 100000]) := by
  refine ⟨?_, ?_, ?_⟩
  · rintro ⟨_, _, h⟩
    norm_num at h
  · exact fun h => h
  · refine .cons ?_ (.cons ?_ .nil)
    · simp
    · rw [abs_le]; norm_num [abs_of_pos]

end Verif.Dist
