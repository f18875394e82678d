import Verif.Model.QuotaOperationAggregator
import Verif.Props.OperationAggregator
/-
C23: aggregation of quota operations (src/quota_operation_aggregator.cc).
-/
namespace Verif
variable {D : Type}

/-- The amounts requested under a metric name, in order: the first value of every set of that name. -/
def quotaReported (ops : List (QuotaOperation D)) (n : Bytes) : List (MetricValue D) :=
  (ops.flatMap fun o => o.quotaMetrics.filter fun s => decide (s.name = n)).flatMap fun s => s.values.head?.toList

/-- All metric names mentioned. -/
def quotaNames (ops : List (QuotaOperation D)) : List Bytes := ops.flatMap fun o => o.quotaMetrics.map (·.name)

/-- One step for one metric name. -/
def quotaStep : Option (MetricValue D) → MetricValue D → Res (Option (MetricValue D))
  | none, v => .ok (some v)
  | some w, v => (quotaMergeDelta v w).map some

theorem quotaFirstValue_ok {dbg : Bool} {s : MetricValueSet D} {v : MetricValue D}
    (h : quotaFirstValue dbg s = .ok v) : s.values.head? = some v := by
  unfold quotaFirstValue at h
  split at h
  · cases h
  · split at h
    · cases h
    · rename_i hv; cases h; rw [hv]; rfl

theorem quotaMergeSets_find (dbg : Bool) (ss : List (MetricValueSet D)) (m m' : List (Bytes × MetricValue D))
    (h : quotaMergeSets dbg ss m = .ok m') (n : Bytes) :
    ((ss.filter fun s => decide (s.name = n)).flatMap fun s => s.values.head?.toList).foldlM quotaStep (umFind n m) =
      .ok (umFind n m') := by
  induction ss generalizing m with
  | nil => simp only [quotaMergeSets] at h; cases h; rfl
  | cons s ss ih =>
    simp only [quotaMergeSets, bind, Except.bind] at h
    split at h
    · cases h
    · rename_i v hv
      have hv' := quotaFirstValue_ok hv
      by_cases hn : s.name = n
      · subst hn
        simp only [List.filter_cons, decide_true, if_true, List.flatMap_cons, hv', Option.toList_some,
          List.cons_append, List.nil_append, List.foldlM_cons]
        split at h
        · rename_i hf
          rw [hf]
          have := ih _ h
          rw [umFind_set, if_pos rfl] at this
          exact this
        · rename_i old hf
          rw [hf]
          split at h
          · cases h
          · rename_i w hw
            have := ih _ h
            rw [umFind_set, if_pos rfl] at this
            simp only [quotaStep, hw, Except.map, bind, Except.bind]
            exact this
      · simp only [List.filter_cons, hn, decide_false, Bool.false_eq_true, if_false]
        split at h
        · have := ih _ h
          rwa [umFind_set, if_neg hn] at this
        · split at h
          · cases h
          · have := ih _ h
            rwa [umFind_set, if_neg hn] at this

theorem quotaMergeSets_isMap (dbg : Bool) (ss : List (MetricValueSet D)) (m m' : List (Bytes × MetricValue D))
    (h : quotaMergeSets dbg ss m = .ok m') (hm : IsMap m) :
    IsMap m' ∧ ∀ n, n ∈ m'.map Prod.fst ↔ n ∈ m.map Prod.fst ∨ n ∈ ss.map (·.name) := by
  induction ss generalizing m with
  | nil => simp only [quotaMergeSets] at h; cases h; exact ⟨hm, by simp⟩
  | cons s ss ih =>
    simp only [quotaMergeSets, bind, Except.bind] at h
    have push : ∀ w, quotaMergeSets dbg ss (umSet s.name w m) = .ok m' →
        IsMap m' ∧ ∀ n, n ∈ m'.map Prod.fst ↔ n ∈ m.map Prod.fst ∨ n ∈ (s :: ss).map (·.name) := by
      intro w hw
      obtain ⟨h1, h2⟩ := ih _ hw (umSet_isMap _ _ _ hm)
      refine ⟨h1, fun n => ?_⟩
      rw [h2, umSet_keys]
      by_cases hk : s.name ∈ m.map Prod.fst
      · rw [if_pos hk]
        simp only [List.map_cons, List.mem_cons]
        constructor
        · rintro (h | h) <;> simp [h]
        · rintro (h | rfl | h)
          · exact Or.inl h
          · exact Or.inl hk
          · exact Or.inr h
      · rw [if_neg hk]
        simp only [List.mem_append, List.map_cons, List.mem_cons, List.not_mem_nil, or_false]
        rw [or_assoc]
    split at h
    · cases h
    · split at h
      · exact push _ h
      · split at h
        · cases h
        · exact push _ h

theorem quotaAggregate_snoc (dbg : Bool) (o : QuotaOperation D) (os : List (QuotaOperation D)) (p : QuotaOperation D) :
    QuotaAgg.aggregate dbg o (os ++ [p]) = (QuotaAgg.aggregate dbg o os).bind fun a => a.mergeOperation dbg p := by
  unfold QuotaAgg.aggregate
  cases h : QuotaAgg.new dbg o with
  | error e => rfl
  | ok a =>
    simp only [bind, Except.bind, List.foldlM_append, List.foldlM_cons, List.foldlM_nil]
    cases h2 : os.foldlM (QuotaAgg.mergeOperation dbg) a with
    | error e => rfl
    | ok b =>
      simp only
      cases b.mergeOperation dbg p <;> rfl

theorem quotaMerge_ok {dbg : Bool} {o : QuotaOperation D} {a a' : QuotaAgg D} (h : a.mergeOperation dbg o = .ok a') :
    quotaMergeSets dbg o.quotaMetrics a.sets = .ok a'.sets ∧ a'.op = a.op := by
  unfold QuotaAgg.mergeOperation at h
  simp only [bind, Except.bind] at h
  split at h
  · cases h
  · rename_i s hs; cases h; exact ⟨hs, rfl⟩

theorem quotaReported_append (xs ys : List (QuotaOperation D)) (n : Bytes) :
    quotaReported (xs ++ ys) n = quotaReported xs n ++ quotaReported ys n := by simp [quotaReported]

/-- The invariant of a sequence of merges. -/
theorem quotaAggregate_inv (dbg : Bool) (o : QuotaOperation D) (os : List (QuotaOperation D)) (a : QuotaAgg D)
    (h : QuotaAgg.aggregate dbg o os = .ok a) :
    a.op = o ∧ IsMap a.sets ∧ (∀ n, n ∈ a.sets.map Prod.fst ↔ n ∈ quotaNames (o :: os)) ∧
    ∀ n, (quotaReported (o :: os) n).foldlM quotaStep none = .ok (umFind n a.sets) := by
  induction os using List.reverseRecOn generalizing a with
  | nil =>
    unfold QuotaAgg.aggregate at h
    cases hn : QuotaAgg.new dbg o with
    | error e => rw [hn] at h; cases h
    | ok b =>
      rw [hn] at h
      cases h
      obtain ⟨h1, h2⟩ := quotaMerge_ok hn
      obtain ⟨h3, h4⟩ := quotaMergeSets_isMap _ _ _ _ h1 (by simp [IsMap])
      refine ⟨h2, h3, fun n => ?_, fun n => ?_⟩
      · rw [h4]; simp [quotaNames]
      · have := quotaMergeSets_find _ _ _ _ h1 n
        simpa [quotaReported, umFind] using this
  | append_singleton os p ih =>
    rw [quotaAggregate_snoc] at h
    cases hn : QuotaAgg.aggregate dbg o os with
    | error e => rw [hn] at h; cases h
    | ok b =>
      rw [hn] at h
      obtain ⟨i1, i2, i3, i4⟩ := ih b hn
      obtain ⟨h1, h2⟩ := quotaMerge_ok h
      obtain ⟨h3, h4⟩ := quotaMergeSets_isMap _ _ _ _ h1 i2
      refine ⟨by rw [h2, i1], h3, fun n => ?_, fun n => ?_⟩
      · rw [h4, i3]; simp [quotaNames, or_assoc]
      · have hr : quotaReported (o :: (os ++ [p])) n = quotaReported (o :: os) n ++ quotaReported [p] n := by
          rw [← quotaReported_append]; rfl
        rw [hr, List.foldlM_append, i4]
        have := quotaMergeSets_find _ _ _ _ h1 n
        simpa [quotaReported, bind, Except.bind] using this

theorem quotaFold_int (w : MetricValue D) (ws : List (MetricValue D)) (o : Option (MetricValue D))
    (hint : ∀ v ∈ w :: ws, IsInt v) (h : ws.foldlM quotaStep (some w) = .ok o) :
    ∃ r, o = some r ∧ r.value = .int64 ((w :: ws).map intOf).sum ∧ r.labels = w.labels := by
  induction ws generalizing w with
  | nil =>
    cases h
    obtain ⟨i, hi⟩ := hint w (by simp)
    exact ⟨w, rfl, by simp [intOf, hi], rfl⟩
  | cons v ws ih =>
    obtain ⟨i, hi⟩ := hint w (by simp)
    obtain ⟨j, hj⟩ := hint v (by simp)
    simp only [List.foldlM_cons, quotaStep, quotaMergeDelta, hi, hj, valueCase, ne_eq, not_true, if_false, bind,
      Except.bind, Except.map] at h
    cases ha : addI64 i j with
    | error e => rw [ha] at h; cases h
    | ok c =>
      rw [ha] at h
      obtain ⟨rfl, _⟩ := Dist.addI64_ok ha
      obtain ⟨r, r1, r2, r3⟩ := ih _ (by
        intro u hu
        rcases List.mem_cons.mp hu with rfl | hu
        · exact ⟨_, rfl⟩
        · exact hint u (by simp [hu])) h
      refine ⟨r, r1, ?_, r3⟩
      rw [r2]
      simp only [List.map_cons, List.sum_cons, intOf, hi, hj]
      congr 1; omega

/-- C23: aggregating any non-empty sequence of quota operations whose amounts are `int64`: the
resulting operation lists every metric name mentioned exactly once, each with a single value that
is exactly the sum of all requested amounts, and all other fields are those of the first operation. -/
theorem C23_quota_sum (dbg : Bool) (U : UMapOrder) (o : QuotaOperation D) (os : List (QuotaOperation D))
    (a : QuotaAgg D) (h : QuotaAgg.aggregate dbg o os = .ok a)
    (hint : ∀ n, ∀ v ∈ quotaReported (o :: os) n, IsInt v) :
    (∃ ms, a.toProto U = { o with quotaMetrics := ms }) ∧
    ((a.toProto U).quotaMetrics.map (·.name)).Nodup ∧
    (∀ n, n ∈ (a.toProto U).quotaMetrics.map (·.name) ↔ n ∈ quotaNames (o :: os)) ∧
    ∀ s ∈ (a.toProto U).quotaMetrics, ∃ v, s.values = [v] ∧
      v.value = .int64 ((quotaReported (o :: os) s.name).map intOf).sum := by
  obtain ⟨h1, h2, h3, h4⟩ := quotaAggregate_inv dbg o os a h
  have hnames : (a.toProto U).quotaMetrics.map (·.name) = (U.ord _ a.sets).map Prod.fst := by
    simp [QuotaAgg.toProto, Function.comp_def]
  refine ⟨⟨_, by simp only [QuotaAgg.toProto, h1]; rfl⟩, ?_, ?_, ?_⟩
  · rw [hnames]; exact ord_isMap U _ h2
  · intro n; rw [hnames, ((U.perm _ a.sets).map Prod.fst).mem_iff]; exact h3 n
  · intro s hs
    simp only [QuotaAgg.toProto, List.mem_map] at hs
    obtain ⟨p, hp, rfl⟩ := hs
    have hp' : p ∈ a.sets := (U.perm _ a.sets).mem_iff.mp hp
    have hf : umFind p.1 a.sets = some p.2 := (umFind_some_iff _ _ _ h2).mpr hp'
    have hfold := h4 p.1
    rw [hf] at hfold
    have hi := hint p.1
    revert hfold hi
    simp only
    generalize quotaReported (o :: os) p.1 = l
    intro hfold hi
    refine ⟨p.2, rfl, ?_⟩
    cases l with
    | nil => cases hfold
    | cons w ws =>
      simp only [List.foldlM_cons, quotaStep, bind, Except.bind] at hfold
      obtain ⟨r, r1, r2, _⟩ := quotaFold_int w ws _ hi hfold
      cases r1
      exact r2

/-- C23: a metric without any value makes the merge read element 0 of an empty field (or fail the
debug assertion). -/
theorem C23_false_empty_metric (dbg : Bool) (o : QuotaOperation D) (n : Bytes) (ss : List (MetricValueSet D))
    (hq : o.quotaMetrics = ⟨n, []⟩ :: ss) :
    QuotaAgg.new dbg o = .error (if dbg then .assertFail else .outOfBounds) := by
  unfold QuotaAgg.new QuotaAgg.mergeOperation
  rw [hq]
  cases dbg <;> simp [quotaMergeSets, quotaFirstValue, bind, Except.bind]

theorem extra_values_sets (ss : List (MetricValueSet D)) (m : List (Bytes × MetricValue D)) :
    quotaMergeSets false ss m = quotaMergeSets false (ss.map fun s => ⟨s.name, s.values.take 1⟩) m := by
  induction ss generalizing m with
  | nil => rfl
  | cons s ss ih =>
    have hf : quotaFirstValue false (⟨s.name, s.values.take 1⟩ : MetricValueSet D) = quotaFirstValue false s := by
      unfold quotaFirstValue
      cases s.values <;> simp
    simp only [List.map_cons, quotaMergeSets, hf, ih]

/-- The operation with only the first value of every metric. -/
def firstValues (o : QuotaOperation D) : QuotaOperation D :=
  { o with quotaMetrics := o.quotaMetrics.map fun s => ⟨s.name, s.values.take 1⟩ }

/-- C23: without debug assertions, every value of a metric after its first is dropped: the
outcome is the one for the operations with those values removed. -/
theorem C23_extra_values_dropped (U : UMapOrder) (o : QuotaOperation D) (os : List (QuotaOperation D)) :
    (QuotaAgg.aggregate false o os).map (·.toProto U) =
      (QuotaAgg.aggregate false (firstValues o) (os.map firstValues)).map (·.toProto U) := by
  have hm : ∀ (a : QuotaAgg D) (p : QuotaOperation D),
      QuotaAgg.mergeOperation false a p = QuotaAgg.mergeOperation false a (firstValues p) := by
    intro a p
    unfold QuotaAgg.mergeOperation firstValues
    rw [extra_values_sets]
  have key : ∀ (os : List (QuotaOperation D)) (ms : List (MetricValueSet D)) (b : QuotaOperation D) (sets : List (Bytes × MetricValue D)),
      (os.foldlM (QuotaAgg.mergeOperation false) ⟨b, sets⟩).map (·.toProto U) =
        ((os.map firstValues).foldlM (QuotaAgg.mergeOperation false)
          ⟨{ b with quotaMetrics := ms }, sets⟩).map (·.toProto U) := by
    intro os ms b
    induction os with
    | nil => intro sets; rfl
    | cons p os ih =>
      intro sets
      simp only [List.map_cons, List.foldlM_cons, bind, Except.bind]
      have h1 := hm ⟨b, sets⟩ p
      unfold QuotaAgg.mergeOperation at h1 ⊢
      simp only [bind, Except.bind] at h1 ⊢
      cases hq : quotaMergeSets false p.quotaMetrics sets with
      | error e =>
        rw [hq] at h1
        cases hq' : quotaMergeSets false (firstValues p).quotaMetrics sets with
        | error e' => rw [hq'] at h1; cases h1; rfl
        | ok y => rw [hq'] at h1; cases h1
      | ok y =>
        rw [hq] at h1
        cases hq' : quotaMergeSets false (firstValues p).quotaMetrics sets with
        | error e' => rw [hq'] at h1; cases h1
        | ok y' => rw [hq'] at h1; cases h1; exact ih y
  unfold QuotaAgg.aggregate QuotaAgg.new
  rw [hm ⟨o, []⟩ o]
  unfold QuotaAgg.mergeOperation
  simp only [bind, Except.bind]
  cases hq : quotaMergeSets false (firstValues o).quotaMetrics [] with
  | error e => rfl
  | ok y => exact key os _ o y

/-- Two requests for 3 and 4 tokens of one metric, one for 5 of another. -/
example : ∃ a, QuotaAgg.aggregate (D := Int) true ⟨[], [1], [2], [], [⟨[9], [exVal 3 0 0]⟩], 2, []⟩
    [⟨[], [1], [2], [], [⟨[9], [exVal 4 0 0]⟩, ⟨[8], [exVal 5 0 0]⟩], 2, []⟩] = .ok a ∧
    ((a.toProto .insertion).quotaMetrics.map fun s => (s.name, s.values.map (·.value))) =
      [([9], [.int64 7]), ([8], [.int64 5])] := by
  refine ⟨_, rfl, ?_⟩; decide

/-- A second value is lost: 3 + 4 is reported although 3 + 4 + 5 was asked for. -/
example : ∃ a, QuotaAgg.aggregate (D := Int) false ⟨[], [1], [2], [], [⟨[9], [exVal 3 0 0]⟩], 2, []⟩
    [⟨[], [1], [2], [], [⟨[9], [exVal 4 0 0, exVal 5 0 0]⟩], 2, []⟩] = .ok a ∧
    ((a.toProto .insertion).quotaMetrics.map fun s => (s.name, s.values.map (·.value))) = [([9], [.int64 7])] := by
  refine ⟨_, rfl, ?_⟩; decide

end Verif
