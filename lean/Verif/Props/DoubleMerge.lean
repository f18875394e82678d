import Verif.Props.DoubleMean
/-
C111: which distributions can be merged, with IEEE-754 doubles.
-/
namespace Verif.Ieee
open Dist DoubleOps

/-- The distributions that `AddSample` and `Merge` make of copies of `d0`, whether they succeed or not. -/
inductive Gathered (lg : F64 → F64) (d0 : Distribution F64) : Distribution F64 → Prop
  | copy : Gathered lg d0 d0
  | add {d d' v st} (b : Gathered lg d0 d) (h : @addSample F64 (ops lg) v d = .ok (st, d')) : Gathered lg d0 d'
  | merge {f t r st} (bf : Gathered lg d0 f) (bt : Gathered lg d0 t) (h : @Dist.merge F64 (ops lg) f t = .ok (st, r)) :
      Gathered lg d0 r

/-- A layout without infinities and NaN. -/
def FiniteLayout : BucketOption F64 → Prop
  | .linear _ w o => (∃ q, w = .fin q) ∧ ∃ q, o = .fin q
  | .exponential _ g s => (∃ q, g = .fin q) ∧ ∃ q, s = .fin q
  | .explicit bs => ∀ b ∈ bs, ∃ q, b = .fin q
  | .unset => False

theorem Gathered.shape {lg : F64 → F64} {d0 d : Distribution F64} (b : Gathered lg d0 d) :
    d.buckets = d0.buckets ∧ d.bucketCounts.length = d0.bucketCounts.length := by
  induction b with
  | copy => exact ⟨rfl, rfl⟩
  | @add d d' v st b h ih =>
    rcases @addSample_status F64 (ops lg) _ _ _ _ h with ⟨rfl, _⟩ | ⟨rfl, _, rfl⟩
    · obtain ⟨i, c, h1, h2, _, h4, h5⟩ := @addSample_ok F64 (ops lg) _ _ _ h
      refine ⟨h4.trans ih.1, ?_⟩
      rw [← ih.2, h5, List.length_set]
    · exact ih
  | @merge f t r st bf bt h ihf iht =>
    rcases @merge_ok_cases F64 (ops lg) _ _ _ _ h with ⟨_, rfl, _⟩ | ⟨_, _, hl, ⟨_, rfl⟩ | ⟨_, _, rfl⟩ | ⟨_, _, _, h4, h5⟩⟩
    · exact iht
    · exact iht
    · exact ihf
    · exact ⟨h4.trans iht.1, (addCounts_ok hl h5).1.trans iht.2⟩

theorem zero_le_fl {q : ℚ} (h : 0 ≤ q) : F64.le (.fin 0) (fl q) = true := by
  have h0 := rnd_nonneg h
  have p := pow2_pos 1024
  by_cases h1 : pow2 1024 ≤ rnd q
  · rw [fl_top h1]; rfl
  · rw [fl_fin (by linarith) (not_le.mp h1)]
    show (decide (0 < rnd q) || decide (0 = rnd q)) = true
    rw [Bool.or_eq_true, decide_eq_true_eq, decide_eq_true_eq]
    exact lt_or_eq_of_le h0

theorem close_self {lg : F64 → F64} {x : F64} (h : ∃ q, x = .fin q) : @isCloseEnough F64 (ops lg) x x = true := by
  obtain ⟨q, rfl⟩ := h
  have e : F64.abs (F64.sub (.fin q) (.fin q)) = .fin 0 := by
    show F64.abs (fl (q + -q)) = _
    rw [add_neg_cancel]
    decide +kernel
  show F64.le (F64.abs (F64.sub (.fin q) (.fin q))) (F64.mul (fl (1 / 100000)) (F64.abs (.fin q))) = true
  have e2 : fl (1 / 100000) = .fin (rnd (1 / 100000)) := by decide +kernel
  rw [e, e2]
  refine zero_le_fl (mul_nonneg (rnd_nonneg (by norm_num)) ?_)
  split <;> linarith

/-- C111: distributions gathered from copies of one message with a finite layout can be merged, in both directions, unless a counter
overflows. -/
theorem C111_same_layout_partial {lg : F64 → F64} {d0 f t : Distribution F64} (h0 : FiniteLayout d0.buckets)
    (bf : Gathered lg d0 f) (bt : Gathered lg d0 t) (hc : InI64 (t.count + f.count))
    (hb : ∀ (i : Nat) (a b : Int), t.bucketCounts[i]? = some a → f.bucketCounts[i]? = some b → InI64 (a + b)) :
    ∃ r, @Dist.merge F64 (ops lg) f t = .ok (.ok, r) := by
  obtain ⟨s, r, h⟩ := @C09_merge_defined F64 (ops lg) f t hc hb
  rcases @merge_ok_cases F64 (ops lg) _ _ _ _ h with ⟨_, _, h1 | h1⟩ | ⟨rfl, _⟩
  · exfalso
    rw [bf.shape.1, bt.shape.1] at h1
    have : @bucketsApproxEqual F64 (ops lg) d0.buckets d0.buckets = true := by
      revert h0
      cases d0.buckets with
      | linear n w o =>
        rintro ⟨hw, ho⟩
        simp only [bucketsApproxEqual, beq_self_eq_true, Bool.true_and, Bool.and_eq_true]
        exact ⟨close_self hw, close_self ho⟩
      | exponential n w o =>
        rintro ⟨hw, ho⟩
        simp only [bucketsApproxEqual, beq_self_eq_true, Bool.true_and, Bool.and_eq_true]
        exact ⟨close_self hw, close_self ho⟩
      | explicit bs =>
        intro hbs
        simp only [bucketsApproxEqual, beq_self_eq_true, Bool.true_and, List.all_eq_true]
        rintro ⟨a, b⟩ hab
        have this := List.of_mem_zip hab
        have e : a = b := by
          clear h1 hbs this
          induction bs with
          | nil => cases hab
          | cons x l ih =>
            rw [List.zip_cons_cons] at hab
            rcases List.mem_cons.mp hab with h | h
            · cases h; rfl
            · exact ih h
        subst e
        exact close_self (hbs _ this.1)
      | unset => exact False.elim
    rw [this] at h1
    cases h1
  · exact absurd (bf.shape.2.trans bt.shape.2.symm) h1
  · exact ⟨r, h⟩

/-- C111: a linear layout, initialised twice with the same arguments, with a sample in each. -/
example : ∃ d0 f t, @initLinear F64 (ops id) 2 (.fin 1) (.fin 0) (@Dist.empty F64 (ops id)) = .ok (.ok, d0) ∧ FiniteLayout d0.buckets ∧
    @addSample F64 (ops id) (.fin 1) d0 = .ok (.ok, f) ∧ @addSample F64 (ops id) .nan d0 = .ok (.ok, t) ∧
    InI64 (t.count + f.count) := by
  obtain ⟨⟨s0, d0⟩, h0, h0'⟩ := of_okWith (r := @initLinear F64 (ops id) 2 (.fin 1) (.fin 0) (@Dist.empty F64 (ops id)))
    (p := fun r => r.1 == .ok && r.2.buckets == .linear 2 (.fin 1) (.fin 0) &&
      okWith (@addSample F64 (ops id) (.fin 1) r.2) fun f => f.1 == .ok && f.2.count == 1 &&
        okWith (@addSample F64 (ops id) .nan r.2) fun t => t.1 == .ok && t.2.count == 1) (by decide +kernel)
  simp only [Bool.and_eq_true, beq_iff_eq] at h0'
  obtain ⟨⟨rfl, hb⟩, h0'⟩ := h0'
  obtain ⟨⟨s1, f⟩, h1, h1'⟩ := of_okWith h0'
  simp only [Bool.and_eq_true, beq_iff_eq] at h1'
  obtain ⟨⟨rfl, hf⟩, h1'⟩ := h1'
  obtain ⟨⟨s2, t⟩, h2, h2'⟩ := of_okWith h1'
  simp only [Bool.and_eq_true, beq_iff_eq] at h2'
  obtain ⟨rfl, ht⟩ := h2'
  refine ⟨d0, f, t, h0, ?_, h1, h2, ?_⟩
  · rw [hb]; exact ⟨⟨_, rfl⟩, ⟨_, rfl⟩⟩
  · rw [hf, ht]; decide

/-- C111: `InitExplicit` accepts an infinite bound, but two messages with that layout cannot be merged. -/
theorem C111_false_infinite : ∃ d0 d, @initExplicit F64 (ops id) [.fin 0, .inf false] (@Dist.empty F64 (ops id)) = .ok (.ok, d0) ∧
    @addSample F64 (ops id) (.fin 1) d0 = .ok (.ok, d) ∧ @Dist.merge F64 (ops id) d d = .ok (.invalidArgument, d) := by
  obtain ⟨⟨s0, d0⟩, h0, h0'⟩ := of_okWith (r := @initExplicit F64 (ops id) [.fin 0, .inf false] (@Dist.empty F64 (ops id)))
    (p := fun r => r.1 == .ok && okWith (@addSample F64 (ops id) (.fin 1) r.2) fun d => d.1 == .ok &&
      okWith (@Dist.merge F64 (ops id) d.2 d.2) fun m => m.1 == .invalidArgument && m.2 == d.2) (by decide +kernel)
  simp only [Bool.and_eq_true, beq_iff_eq] at h0'
  obtain ⟨rfl, h0'⟩ := h0'
  obtain ⟨⟨s1, d⟩, h1, h1'⟩ := of_okWith h0'
  simp only [Bool.and_eq_true, beq_iff_eq] at h1'
  obtain ⟨rfl, h1'⟩ := h1'
  obtain ⟨⟨s2, r⟩, h2, h2'⟩ := of_okWith h1'
  simp only [Bool.and_eq_true, beq_iff_eq] at h2'
  obtain ⟨rfl, (hm : r = d)⟩ := h2'
  rw [hm] at h2
  exact ⟨d0, d, h0, h1, h2⟩

/-- C111: whether layouts that are nearly equal can be merged depends on the direction. -/
theorem C111_false_direction : ∃ f t r, @initLinear F64 (ops id) 1 (.fin 100000) (.fin 0) (@Dist.empty F64 (ops id)) = .ok (.ok, f) ∧
    @initLinear F64 (ops id) 1 (.fin 99999) (.fin 0) (@Dist.empty F64 (ops id)) = .ok (.ok, t) ∧
    @Dist.merge F64 (ops id) f t = .ok (.ok, r) ∧ @Dist.merge F64 (ops id) t f = .ok (.invalidArgument, f) := by
  obtain ⟨⟨s0, f⟩, h0, h0'⟩ := of_okWith (r := @initLinear F64 (ops id) 1 (.fin 100000) (.fin 0) (@Dist.empty F64 (ops id)))
    (p := fun f => f.1 == .ok && okWith (@initLinear F64 (ops id) 1 (.fin 99999) (.fin 0) (@Dist.empty F64 (ops id))) fun t =>
      t.1 == .ok && okWith (@Dist.merge F64 (ops id) f.2 t.2) fun r => r.1 == .ok &&
      okWith (@Dist.merge F64 (ops id) t.2 f.2) fun m => m.1 == .invalidArgument && m.2 == f.2) (by decide +kernel)
  simp only [Bool.and_eq_true, beq_iff_eq] at h0'
  obtain ⟨rfl, h0'⟩ := h0'
  obtain ⟨⟨s1, t⟩, h1, h1'⟩ := of_okWith h0'
  simp only [Bool.and_eq_true, beq_iff_eq] at h1'
  obtain ⟨rfl, h1'⟩ := h1'
  obtain ⟨⟨s2, r⟩, h2, h2'⟩ := of_okWith h1'
  simp only [Bool.and_eq_true, beq_iff_eq] at h2'
  obtain ⟨rfl, h2'⟩ := h2'
  obtain ⟨⟨s3, r3⟩, h3, h3'⟩ := of_okWith h2'
  simp only [Bool.and_eq_true, beq_iff_eq] at h3'
  obtain ⟨rfl, (hm : r3 = f)⟩ := h3'
  rw [hm] at h3
  exact ⟨f, t, r, h0, h1, h2, h3⟩

end Verif.Ieee
