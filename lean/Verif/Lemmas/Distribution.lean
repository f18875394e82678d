import Verif.Model.Distribution
/-
Structure of distributions under `addSample` and `merge`, for any double arithmetic.
-/
set_option linter.unusedSectionVars false
namespace Verif.Dist
open DoubleOps
variable {D : Type} [DoubleOps D]

theorem addI64_ok {a b c : Int} (h : addI64 a b = .ok c) : c = a + b ∧ InI64 (a + b) := by
  unfold addI64 at h
  split at h
  · cases h; exact ⟨rfl, by assumption⟩
  · cases h

theorem addI64_eq {a b : Int} (h : InI64 (a + b)) : addI64 a b = .ok (a + b) := if_pos h
theorem addI32_eq {a b : Int} (h : InI32 (a + b)) : addI32 a b = .ok (a + b) := if_pos h

theorem addI32_ok {a b c : Int} (h : addI32 a b = .ok c) : c = a + b ∧ InI32 (a + b) := by
  unfold addI32 at h
  split at h
  · cases h; exact ⟨rfl, by assumption⟩
  · cases h

theorem updateGeneral_ok {v : D} {d d' : Distribution D} (h : updateGeneral v d = .ok d') :
    d'.count = d.count + 1 ∧ d'.bucketCounts = d.bucketCounts ∧ d'.buckets = d.buckets := by
  unfold updateGeneral at h
  split at h
  · cases h; simp_all
  · simp only [bind, Except.bind] at h
    split at h
    · cases h
    · rename_i c hc
      cases h
      exact ⟨(addI64_ok hc).1, rfl, rfl⟩

theorem bumpBucket_ok {i : Int} {d d' : Distribution D} (h : bumpBucket i d = .ok d') :
    0 ≤ i ∧ ∃ c, d.bucketCounts[i.toNat]? = some c ∧
      d' = { d with bucketCounts := d.bucketCounts.set i.toNat (c + 1) } := by
  unfold bumpBucket at h
  split at h
  · cases h
  · rename_i hi
    split at h
    · cases h
    · rename_i c hc
      simp only [bind, Except.bind] at h
      split at h
      · cases h
      · rename_i c' hc'
        cases h
        refine ⟨by omega, c, hc, ?_⟩
        rw [(addI64_ok hc').1]

/-- What one successful `AddSample` does to the structure. -/
theorem addSample_ok {v : D} {d d' : Distribution D} (h : addSample v d = .ok (.ok, d')) :
    ∃ i : Nat, ∃ c, bucketIndex d.buckets v = .ok (i : Int) ∧ d.bucketCounts[i]? = some c ∧
      d'.count = d.count + 1 ∧ d'.buckets = d.buckets ∧
      d'.bucketCounts = d.bucketCounts.set i (c + 1) := by
  unfold addSample at h
  split at h
  · cases h
  · simp only [bind, Except.bind] at h
    split at h
    · cases h
    · rename_i d1 h1
      split at h
      · cases h
      · rename_i i hi
        split at h
        · cases h
        · rename_i d2 h2
          cases h
          obtain ⟨e1, e2, e3⟩ := updateGeneral_ok h1
          obtain ⟨hi0, c, hc, hd⟩ := bumpBucket_ok h2
          refine ⟨i.toNat, c, ?_, ?_, ?_, ?_, ?_⟩
          · rw [hi]; congr 1; omega
          · rw [← e2]; exact hc
          · rw [hd]; exact e1
          · rw [hd]; exact e3
          · rw [hd, e2]

theorem addSample_status {v : D} {d d' : Distribution D} {s : Status}
    (h : addSample v d = .ok (s, d')) :
    (s = .ok ∧ d.buckets ≠ .unset) ∨ (s = .invalidArgument ∧ d.buckets = .unset ∧ d' = d) := by
  unfold addSample at h
  split at h
  · rename_i hb; cases h; exact Or.inr ⟨rfl, hb, rfl⟩
  · rename_i hb
    left
    simp only [bind, Except.bind] at h
    split at h
    · cases h
    · split at h
      · cases h
      · split at h
        · cases h
        · cases h; exact ⟨rfl, hb⟩

theorem sum_set (l : List Int) (i : Nat) (c v : Int) (h : l[i]? = some c) :
    (l.set i v).sum = l.sum - c + v := by
  induction l generalizing i with
  | nil => simp at h
  | cons x xs ih =>
    cases i with
    | zero => simp at h; subst h; simp; omega
    | succ i =>
      simp only [List.getElem?_cons_succ] at h
      simp only [List.set_cons_succ, List.sum_cons, ih i h]; omega

/-- Number of samples whose bucket index is `i`. -/
def hits (b : BucketOption D) (xs : List D) (i : Nat) : Nat :=
  (xs.filter fun x => decide (bucketIndex b x = .ok (i : Int))).length

theorem addSamples_ok {xs : List D} {d d' : Distribution D} (h : addSamples d xs = .ok d')
    (hb : d.buckets ≠ .unset) :
    d'.count = d.count + xs.length ∧ d'.buckets = d.buckets ∧
    d'.bucketCounts.length = d.bucketCounts.length ∧
    d'.bucketCounts.sum = d.bucketCounts.sum + xs.length ∧
    (∀ x ∈ xs, ∃ i : Nat, bucketIndex d.buckets x = .ok (i : Int) ∧ i < d.bucketCounts.length) ∧
    ∀ (i : Nat) (c : Int), d.bucketCounts[i]? = some c → d'.bucketCounts[i]? = some (c + hits d.buckets xs i) := by
  induction xs generalizing d with
  | nil =>
    simp only [addSamples, List.foldlM_nil, pure, Except.pure] at h
    cases h
    simp [hits]
  | cons x xs ih =>
    simp only [addSamples, List.foldlM_cons, bind, Except.bind] at h
    cases hx : addSample x d with
    | error e => rw [hx] at h; cases h
    | ok r =>
      obtain ⟨s, d1⟩ := r
      rw [hx] at h
      simp only at h
      have hs := addSample_status hx
      rcases hs with ⟨rfl, _⟩ | ⟨_, hb', _⟩
      · obtain ⟨i, c, hi, hc, hcnt, hbk, hbc⟩ := addSample_ok hx
        obtain ⟨r1, r2, r3, r4, r5, r6⟩ := ih (d := d1) h (by rw [hbk]; exact hb)
        have hlen : d1.bucketCounts.length = d.bucketCounts.length := by rw [hbc]; simp
        have hil : i < d.bucketCounts.length := by
          have := List.getElem?_eq_some_iff.mp hc; exact this.1
        refine ⟨?_, ?_, ?_, ?_, ?_, ?_⟩
        · rw [r1, hcnt]; simp; omega
        · rw [r2, hbk]
        · rw [r3, hlen]
        · rw [r4, hbc, sum_set _ _ _ _ hc]; simp; omega
        · intro y hy
          rcases List.mem_cons.mp hy with rfl | hy
          · exact ⟨i, hi, hil⟩
          · obtain ⟨j, hj, hjl⟩ := r5 y hy
            rw [hbk] at hj; rw [hlen] at hjl
            exact ⟨j, hj, hjl⟩
        · intro j cj hj
          by_cases hij : i = j
          · subst hij
            have e : cj = c := by rw [hc] at hj; exact (Option.some.inj hj).symm
            subst e
            have := r6 i (cj + 1) (by rw [hbc]; simp [hil])
            rw [this, hbk]
            simp only [hits, List.filter_cons, hi, decide_true, if_true, List.length_cons]
            congr 1; push_cast; omega
          · have := r6 j cj (by rw [hbc, List.getElem?_set_ne hij]; exact hj)
            rw [this, hbk]
            have hne : ¬ (bucketIndex d.buckets x = .ok (j : Int)) := by
              rw [hi]; intro e; injection e with e; exact hij (by omega)
            simp [hits, hne]
      · exact absurd hb' hb

theorem addCounts_ok {ts fs r : List Int} (hl : fs.length = ts.length)
    (h : addCounts ts fs = .ok r) :
    r.length = ts.length ∧ r.sum = ts.sum + fs.sum ∧
    ∀ (i : Nat) (t f : Int), ts[i]? = some t → fs[i]? = some f → r[i]? = some (t + f) := by
  induction ts generalizing fs r with
  | nil =>
    cases fs with
    | nil => simp only [addCounts] at h; cases h; simp
    | cons _ _ => simp at hl
  | cons t ts ih =>
    cases fs with
    | nil => simp at hl
    | cons f fs =>
      simp only [addCounts, bind, Except.bind] at h
      split at h
      · cases h
      · rename_i c hc
        split at h
        · cases h
        · rename_i r' hr
          cases h
          obtain ⟨h1, h2, h3⟩ := ih (by simpa using hl) hr
          have hc' := (addI64_ok hc).1
          refine ⟨by simp [h1], by simp only [List.sum_cons, h2, hc']; omega, ?_⟩
          intro i a b ha hb
          cases i with
          | zero => simp at ha hb ⊢; omega
          | succ i => simp at ha hb ⊢; exact h3 i a b ha hb

theorem addCounts_defined {ts fs : List Int} (hl : fs.length = ts.length)
    (hr : ∀ (i : Nat) (t f : Int), ts[i]? = some t → fs[i]? = some f → InI64 (t + f)) :
    ∃ r, addCounts ts fs = .ok r := by
  induction ts generalizing fs with
  | nil => exact ⟨[], by simp [addCounts]⟩
  | cons t ts ih =>
    cases fs with
    | nil => simp at hl
    | cons f fs =>
      have h0 := hr 0 t f rfl rfl
      obtain ⟨r, hrr⟩ := ih (fs := fs) (by simpa using hl) (fun i a b ha hb => hr (i+1) a b (by simpa using ha) (by simpa using hb))
      exact ⟨(t + f) :: r, by simp [addCounts, addI64_eq h0, hrr, bind, Except.bind]⟩

theorem upperBound_le (bs : List D) (v : D) (first len : Nat) (h : first + len ≤ bs.length) :
    first ≤ upperBound bs v first len ∧ upperBound bs v first len ≤ first + len := by
  induction len using Nat.strongRecOn generalizing first with
  | _ len ih =>
    unfold upperBound
    split
    · omega
    · simp only
      split
      · omega
      · split
        · have := ih (len / 2) (by omega) first (by omega); omega
        · have := ih (len - len / 2 - 1) (by omega) (first + len / 2 + 1) (by omega); omega

theorem explicitIndex_range (bs : List D) (v : D) (h : bs ≠ []) :
    ∃ i : Nat, explicitIndex bs v = .ok (i : Int) ∧ i ≤ bs.length := by
  cases bs with
  | nil => exact absurd rfl h
  | cons b t =>
    simp only [explicitIndex]
    split
    · exact ⟨_, rfl, by have := upperBound_le (b :: t) v 0 (b :: t).length (by omega); omega⟩
    · exact ⟨0, rfl, by omega⟩

theorem resize_nil (n : Int) : resize [] n = List.replicate n.toNat 0 := by simp [resize]

end Verif.Dist
