import Verif.Lemmas.OperationAggregator
import Verif.Props.Distribution
/-
C16-C22, C62, C63: aggregation of operations (src/operation_aggregator.cc).  All statements are about the message
`ToOperationProto` returns, for any hash `H` and any iteration order `U` of the hash maps.
-/
set_option linter.unusedSectionVars false
namespace Verif
variable {D : Type} [DoubleOps D]

/-! ### Bridging to the specification -/

theorem lookup_umFind {α : Type} (k : Bytes) (m : List (Bytes × α)) : m.lookup k = umFind k m := by
  induction m with
  | nil => rfl
  | cons p t ih =>
    obtain ⟨q, v⟩ := p
    unfold umFind
    by_cases h : q = k
    · subst h; simp
    · rw [if_neg h, List.lookup_cons, ← ih]
      have : (k == q) = false := by simpa using fun e => h e.symm
      rw [this]

theorem isDelta_iff (kinds : MetricKinds) (n : Bytes) : IsDelta kinds n ↔ metricKindOf kinds n = .delta := by
  unfold IsDelta metricKindOf
  cases kinds with
  | none => simp
  | some m =>
    simp only [Option.some.injEq, forall_eq', lookup_umFind]
    cases umFind n m <;> simp

theorem earlier_iff (a b : Option Timestamp) : Earlier a b ↔ timestampBefore (tsGet a) (tsGet b) = true := by
  rw [before_iff]
  cases a <;> cases b <;> simp [Earlier, tsGet]

/-! ### Reading the resulting message -/

theorem filter_fst {α : Type} (m : List (Bytes × α)) (h : IsMap m) (k : Bytes) :
    m.filter (fun p => decide (p.1 = k)) = (umFind k m).toList.map fun v => (k, v) := by
  induction m with
  | nil => simp [umFind]
  | cons p t ih =>
    obtain ⟨q, w⟩ := p
    unfold IsMap at h
    simp only [List.map_cons, List.nodup_cons] at h
    by_cases hq : q = k
    · subst hq
      have hnil : t.filter (fun p => decide (p.1 = q)) = [] := by
        rw [List.filter_eq_nil_iff]
        intro p hp
        have : p.1 ∈ t.map Prod.fst := List.mem_map_of_mem hp
        simp only [decide_eq_true_eq]
        intro e; rw [e] at this; exact h.1 this
      simp [umFind, hnil]
    · simp only [List.filter_cons, hq, decide_false, Bool.false_eq_true, if_false, umFind]
      exact ih h.2

theorem ord_isMap (U : UMapOrder) {α : Type} (m : List (Bytes × α)) (h : IsMap m) : IsMap (U.ord α m) :=
  ((U.perm α m).map Prod.fst).nodup_iff.mpr h

/-- The values the message lists for a metric name and label signature: at most one, the stored one. -/
theorem listed_sig (H : Bytes → Bytes) (U : UMapOrder) (a : OpAgg D) (hs : SetsOk H a.sets)
    (h0 : a.op.metricValueSets = []) (n s : Bytes) :
    (listed (a.toProto U) n).filter (fun v => decide (metricValueSig H v = s)) =
      (find2 a.sets n s).toList := by
  unfold listed OpAgg.toProto find2
  simp only [h0, List.nil_append, List.filter_map, List.flatMap_map]
  have e1 : (U.ord _ a.sets).filter ((fun s : MetricValueSet D => decide (s.name = n)) ∘ fun s => ⟨s.1, (U.ord _ s.2).map Prod.snd⟩) =
      (umFind n a.sets).toList.map fun v => (n, v) := by
    have := filter_fst (U.ord _ a.sets) (ord_isMap U _ hs.1) n
    rw [umFind_perm n a.sets _ (U.perm _ a.sets) hs.1] at this
    exact this
  rw [e1]
  cases hf : umFind n a.sets with
  | none => simp [umFind]
  | some inner =>
    have hin := hs.2 _ (umFind_mem _ _ _ hf)
    simp only [Option.toList_some, List.map_cons, List.map_nil, List.flatMap_cons, List.flatMap_nil, List.append_nil,
      Option.getD_some, List.filter_map]
    have e2 : (U.ord _ inner).filter ((fun v => decide (metricValueSig H v = s)) ∘ Prod.snd) =
        (U.ord _ inner).filter (fun p => decide (p.1 = s)) := by
      apply List.filter_congr
      intro p hp
      have : metricValueSig H p.2 = p.1 := hin.2 p ((U.perm _ inner).mem_iff.mp hp)
      simp [this]
    rw [e2, filter_fst _ (ord_isMap U _ hin.1), umFind_perm s inner _ (U.perm _ inner) hin.1]
    cases umFind s inner <;> simp

theorem aggregate_op_sets (H : Bytes → Bytes) (kinds : MetricKinds) (o : Operation D) (os : List (Operation D))
    (a : OpAgg D) (h : OpAgg.aggregate H kinds o os = .ok a) : a.op.metricValueSets = [] := by
  refine aggregate_induction H kinds o (fun _ a => a.op.metricValueSets = []) ?_ ?_ os a h
  · intro a ha; rw [(new_ok ha).2]
  · intro ops a p a' hP hm; rw [(mergeOperation_ok hm).2]; exact hP

/-- What the message says about one metric and signature is the fold of what was reported. -/
theorem listed_fold (H : Bytes → Bytes) (U : UMapOrder) (kinds : MetricKinds) (o : Operation D)
    (os : List (Operation D)) (a : OpAgg D) (h : OpAgg.aggregate H kinds o os = .ok a) (n s : Bytes) :
    (reported H (o :: os) n s = [] ∧
      (listed (a.toProto U) n).filter (fun v => decide (metricValueSig H v = s)) = []) ∨
    ∃ w ws r, reported H (o :: os) n s = w :: ws ∧ foldValues (metricKindOf kinds n) w ws = .ok r ∧
      (listed (a.toProto U) n).filter (fun v => decide (metricValueSig H v = s)) = [r] := by
  rw [listed_sig H U a (aggregate_setsOk H kinds o os a h) (aggregate_op_sets H kinds o os a h)]
  rcases foldOpt_none_ok _ _ _ (aggregate_find H kinds o os a h n s) with ⟨h1, h2⟩ | ⟨w, ws, r, h1, h2, h3⟩
  · exact Or.inl ⟨h1, by simp [h2]⟩
  · exact Or.inr ⟨w, ws, r, h1, h3, by simp [h2]⟩

/-! ### C16: integer deltas -/

/-- The integer carried by a value (0 for other types). -/
def intOf (v : MetricValue D) : Int :=
  match v.value with
  | .int64 i => i
  | _ => 0

/-- The value is an `int64`. -/
def IsInt (v : MetricValue D) : Prop := ∃ i, v.value = .int64 i

theorem mergeDelta_int {x r r' : MetricValue D} (hx : IsInt x) (hr : IsInt r)
    (h : mergeMetricValue .delta x r = .ok r') :
    r'.value = .int64 (intOf r + intOf x) ∧ InI64 (intOf r + intOf x) ∧
    r'.startTime = mergeStart x.startTime r.startTime ∧ r'.endTime = mergeEnd x.endTime r.endTime ∧
    r'.labels = r.labels := by
  obtain ⟨i, hi⟩ := hx
  obtain ⟨j, hj⟩ := hr
  simp only [mergeMetricValue, if_true, mergeDelta, hi, hj, valueCase, mergeDeltaValue, ne_eq, not_true,
    if_false, bind, Except.bind] at h
  cases he : addI64 j i with
  | error e => rw [he] at h; cases h
  | ok c =>
    rw [he] at h
    cases h
    obtain ⟨rfl, h2⟩ := Dist.addI64_ok he
    exact ⟨by simp [intOf, hi, hj], by simpa [intOf, hi, hj] using h2, rfl, rfl, rfl⟩

theorem foldValues_int (w : MetricValue D) (ws : List (MetricValue D)) (r : MetricValue D)
    (hint : ∀ v ∈ w :: ws, IsInt v) (h : foldValues .delta w ws = .ok r) :
    r.value = .int64 ((w :: ws).map intOf).sum ∧
    IsEarliest ((w :: ws).map (·.startTime)) r.startTime ∧
    IsLatest ((w :: ws).map (·.endTime)) r.endTime ∧ r.labels = w.labels := by
  have key := foldValues_induction .delta w
    (fun vs r => (∀ v ∈ vs, IsInt v) → r.value = .int64 (vs.map intOf).sum ∧
      IsEarliest (vs.map (·.startTime)) r.startTime ∧
      IsLatest (vs.map (·.endTime)) r.endTime ∧ r.labels = w.labels) ?_ ?_ ws r h
  · exact key hint
  · intro hw
    obtain ⟨i, hi⟩ := hw w (by simp)
    refine ⟨by simp [intOf, hi], ?_, ?_, rfl⟩
    · exact earliest_single _
    · exact latest_single _
  · intro vs r x r' hP hm hall
    obtain ⟨p1, p2, p3, p4⟩ := hP fun v hv => hall v (by simp [hv])
    obtain ⟨q1, q2, q3, q4, q5⟩ := mergeDelta_int (hall x (by simp)) ⟨_, p1⟩ hm
    refine ⟨?_, ?_, ?_, ?_⟩
    · rw [q1]
      simp only [intOf, p1, List.map_append, List.sum_append, List.map_cons, List.map_nil, List.sum_cons,
        List.sum_nil, Int.add_zero]
    · rw [q3, List.map_append]; exact mergeStart_earliest _ _ _ p2
    · rw [q4, List.map_append]; exact mergeEnd_latest _ _ _ p3
    · rw [q5, p4]

/-- C16: for a DELTA metric and a label signature under which only `int64` values were reported, the
aggregated message lists exactly one value, it is the exact sum of everything reported, its time window is
the hull of the reported windows and its labels are those first reported.  (If nothing was reported,
nothing is listed.) -/
theorem C16_delta_int_sum (H : Bytes → Bytes) (U : UMapOrder) (kinds : MetricKinds) (o : Operation D)
    (os : List (Operation D)) (a : OpAgg D) (h : OpAgg.aggregate H kinds o os = .ok a) (n s : Bytes)
    (hk : IsDelta kinds n) (hint : ∀ v ∈ reported H (o :: os) n s, IsInt v) :
    (reported H (o :: os) n s = [] →
      (listed (a.toProto U) n).filter (fun v => decide (metricValueSig H v = s)) = []) ∧
    (reported H (o :: os) n s ≠ [] →
      ∃ r, (listed (a.toProto U) n).filter (fun v => decide (metricValueSig H v = s)) = [r] ∧
        r.value = .int64 ((reported H (o :: os) n s).map intOf).sum ∧
        IsEarliest ((reported H (o :: os) n s).map (·.startTime)) r.startTime ∧
        IsLatest ((reported H (o :: os) n s).map (·.endTime)) r.endTime ∧
        (reported H (o :: os) n s).head?.map (·.labels) = some r.labels) := by
  rw [isDelta_iff] at hk
  rcases listed_fold H U kinds o os a h n s with ⟨h1, h2⟩ | ⟨w, ws, r, h1, h2, h3⟩
  · exact ⟨fun _ => h2, fun hne => absurd h1 hne⟩
  · refine ⟨fun he => (by rw [he] at h1; cases h1), fun _ => ⟨r, h3, ?_⟩⟩
    rw [h1] at hint ⊢
    rw [hk] at h2
    obtain ⟨p1, p2, p3, p4⟩ := foldValues_int w ws r hint h2
    exact ⟨p1, p2, p3, by simp [p4]⟩

/-! When does aggregation fail? -/

theorem mergeValues_error (H : Bytes → Bytes) (kind : MetricKind) (vs : List (MetricValue D))
    (m : List (Bytes × MetricValue D)) (e : Fault) (h : mergeValues H kind vs m = .error e) :
    ∃ sig, foldOpt kind (umFind sig m) (vs.filter fun v => decide (metricValueSig H v = sig)) = .error e := by
  induction vs generalizing m with
  | nil => simp [mergeValues] at h
  | cons v vs ih =>
    simp only [mergeValues] at h
    have push : ∀ (w : MetricValue D) (sig : Bytes), stepOpt kind (umFind (metricValueSig H v) m) v = .ok (some w) →
        foldOpt kind (umFind sig (umSet (metricValueSig H v) w m)) (vs.filter fun v => decide (metricValueSig H v = sig)) = .error e →
        foldOpt kind (umFind sig m) ((v :: vs).filter fun v => decide (metricValueSig H v = sig)) = .error e := by
      intro w sig hw hf
      by_cases hs : metricValueSig H v = sig
      · subst hs
        rw [umFind_set, if_pos rfl] at hf
        simp only [List.filter_cons, decide_true, if_true]
        rw [foldOpt_cons, hw]
        exact hf
      · rw [umFind_set, if_neg hs] at hf
        simp only [List.filter_cons, hs, decide_false, Bool.false_eq_true, if_false]
        exact hf
    cases hf : umFind (metricValueSig H v) m with
    | none =>
      rw [hf] at h
      obtain ⟨sig, hsig⟩ := ih _ h
      exact ⟨sig, push v sig (by rw [hf]; rfl) hsig⟩
    | some w =>
      rw [hf] at h
      simp only [bind, Except.bind] at h
      cases hw : mergeMetricValue kind v w with
      | error e' =>
        rw [hw] at h
        cases h
        refine ⟨metricValueSig H v, ?_⟩
        simp only [List.filter_cons, decide_true, if_true]
        rw [foldOpt_cons, hf]
        simp [stepOpt, hw, Except.map, Except.bind]
      | ok w' =>
        rw [hw] at h
        obtain ⟨sig, hsig⟩ := ih _ h
        exact ⟨sig, push w' sig (by rw [hf]; simp [stepOpt, hw, Except.map]) hsig⟩

theorem mergeSets_error (H : Bytes → Bytes) (kinds : MetricKinds) (ss : List (MetricValueSet D))
    (m : List (Bytes × List (Bytes × MetricValue D))) (e : Fault) (h : mergeSets H kinds ss m = .error e) :
    ∃ n s, foldOpt (metricKindOf kinds n) (find2 m n s)
      ((ss.filter fun t => decide (t.name = n)).flatMap fun t =>
        t.values.filter fun v => decide (metricValueSig H v = s)) = .error e := by
  induction ss generalizing m with
  | nil => simp [mergeSets] at h
  | cons t ss ih =>
    simp only [mergeSets, bind, Except.bind] at h
    cases hv : mergeValues H (metricKindOf kinds t.name) t.values ((umFind t.name m).getD []) with
    | error e' =>
      rw [hv] at h
      cases h
      obtain ⟨s, hs⟩ := mergeValues_error _ _ _ _ _ hv
      refine ⟨t.name, s, ?_⟩
      simp only [List.filter_cons, decide_true, if_true, List.flatMap_cons]
      rw [foldOpt_append]
      unfold find2
      rw [hs]
      rfl
    | ok vals =>
      rw [hv] at h
      obtain ⟨n, s, hn⟩ := ih _ h
      refine ⟨n, s, ?_⟩
      by_cases he : t.name = n
      · subst he
        simp only [List.filter_cons, decide_true, if_true, List.flatMap_cons]
        rw [foldOpt_append]
        have := mergeValues_find H _ _ _ _ hv s
        unfold find2
        rw [this]
        simp only [Except.bind]
        simpa [find2, umFind_set] using hn
      · simp only [List.filter_cons, he, decide_false, Bool.false_eq_true, if_false]
        simpa [find2, umFind_set, he] using hn

theorem foldOpt_error_append (kind : MetricKind) (o : Option (MetricValue D)) (xs ys : List (MetricValue D)) (e : Fault)
    (h : foldOpt kind o xs = .error e) : foldOpt kind o (xs ++ ys) = .error e := by
  rw [foldOpt_append, h]; rfl

theorem aggregate_error (H : Bytes → Bytes) (kinds : MetricKinds) (o : Operation D) (os : List (Operation D))
    (e : Fault) (h : OpAgg.aggregate H kinds o os = .error e) :
    ∃ n s, foldOpt (metricKindOf kinds n) none (reported H (o :: os) n s) = .error e := by
  induction os using List.reverseRecOn with
  | nil =>
    unfold OpAgg.aggregate at h
    cases hn : OpAgg.new H kinds o with
    | ok b => rw [hn] at h; cases h
    | error e' =>
      rw [hn] at h
      cases h
      unfold OpAgg.new at hn
      simp only [bind, Except.bind] at hn
      split at hn
      · rename_i e'' hm
        cases hn
        obtain ⟨n, s, hns⟩ := mergeSets_error _ _ _ _ _ hm
        exact ⟨n, s, by simpa [reported, find2, umFind] using hns⟩
      · cases hn
  | append_singleton os p ih =>
    rw [aggregate_snoc] at h
    have hrep : ∀ n s, reported H (o :: (os ++ [p])) n s = reported H (o :: os) n s ++ reported H [p] n s := by
      intro n s
      rw [← reported_append]; rfl
    cases hn : OpAgg.aggregate H kinds o os with
    | error e' =>
      rw [hn] at h
      cases h
      obtain ⟨n, s, hns⟩ := ih hn
      exact ⟨n, s, by rw [hrep]; exact foldOpt_error_append _ _ _ _ _ hns⟩
    | ok b =>
      rw [hn] at h
      simp only [Except.bind, OpAgg.mergeOperation, bind] at h
      split at h
      · rename_i e'' hm
        cases h
        obtain ⟨n, s, hns⟩ := mergeSets_error _ _ _ _ _ hm
        refine ⟨n, s, ?_⟩
        rw [hrep, foldOpt_append, aggregate_find H kinds o os b hn n s]
        simpa [reported, Except.bind] using hns
      · cases h

theorem mergeMetricValue_error (kind : MetricKind) (x r : MetricValue D) (e : Fault)
    (h : mergeMetricValue kind x r = .error e) : e = .signedOverflow := by
  have hadd : ∀ a b : Int, addI64 a b = .error e → e = .signedOverflow := by
    intro a b hab
    unfold addI64 at hab
    split at hab <;> cases hab
    rfl
  have hcounts : ∀ ts fs : List Int, Dist.addCounts ts fs = .error e → e = .signedOverflow := by
    intro ts
    induction ts with
    | nil => intro fs hh; simp [Dist.addCounts] at hh
    | cons t ts ih =>
      intro fs hh
      cases fs with
      | nil => simp [Dist.addCounts] at hh
      | cons f fs =>
        simp only [Dist.addCounts, bind, Except.bind] at hh
        split at hh
        · rename_i e' he; cases hh; exact hadd _ _ he
        · split at hh
          · rename_i e' he; cases hh; exact ih _ he
          · cases hh
  unfold mergeMetricValue at h
  split at h
  · unfold mergeDelta at h
    split at h
    · cases h
    · simp only [bind, Except.bind] at h
      split at h
      · rename_i e' hm
        cases h
        unfold mergeDeltaValue at hm
        split at hm
        · simp only [bind, Except.bind] at hm
          split at hm
          · rename_i e' he; cases hm; exact hadd _ _ he
          · cases hm
        · cases hm
        · simp only [bind, Except.bind] at hm
          split at hm
          · rename_i e' he
            cases hm
            unfold Dist.merge at he
            split at he
            · cases he
            · split at he
              · cases he
              · split at he
                · cases he
                · split at he
                  · cases he
                  · simp only [bind, Except.bind] at he
                    split at he
                    · rename_i e'' he'; cases he; exact hadd _ _ he'
                    · split at he
                      · rename_i e'' he'; cases he; exact hcounts _ _ he'
                      · cases he
          · cases hm
        · cases hm
      · cases h
  · cases h

/-- C16: the only way aggregation leaves defined behaviour is an `int64` overflow. -/
theorem C16_only_overflow (H : Bytes → Bytes) (kinds : MetricKinds) (o : Operation D) (os : List (Operation D))
    (e : Fault) (h : OpAgg.aggregate H kinds o os = .error e) : e = .signedOverflow := by
  obtain ⟨n, s, hns⟩ := aggregate_error H kinds o os e h
  revert hns
  generalize reported H (o :: os) n s = vs
  generalize (none : Option (MetricValue D)) = st
  induction vs generalizing st with
  | nil => intro hh; rw [foldOpt_nil] at hh; cases hh
  | cons v vs ih =>
    intro hh
    rw [foldOpt_cons] at hh
    cases hs : stepOpt (metricKindOf kinds n) st v with
    | error e' =>
      rw [hs] at hh
      cases hh
      cases st with
      | none => simp [stepOpt] at hs
      | some w =>
        simp only [stepOpt, Except.map] at hs
        split at hs
        · rename_i e'' he; cases hs; exact mergeMetricValue_error _ _ _ _ he
        · cases hs
    | ok st' => rw [hs] at hh; exact ih st' hh

/-- C16: aggregation succeeds whenever every DELTA metric carries only `int64` values and no running
total leaves the `int64` range. -/
theorem C16_defined (H : Bytes → Bytes) (kinds : MetricKinds) (o : Operation D) (os : List (Operation D))
    (hint : ∀ n s, IsDelta kinds n → ∀ v ∈ reported H (o :: os) n s, IsInt v)
    (hrange : ∀ n s, IsDelta kinds n → ∀ pre post, reported H (o :: os) n s = pre ++ post →
      InI64 (pre.map intOf).sum) :
    ∃ a, OpAgg.aggregate H kinds o os = .ok a := by
  simp only [isDelta_iff] at hint hrange
  cases h : OpAgg.aggregate H kinds o os with
  | ok a => exact ⟨a, rfl⟩
  | error e =>
    exfalso
    obtain ⟨n, s, hns⟩ := aggregate_error H kinds o os e h
    by_cases hk : metricKindOf kinds n = .delta
    · have h1 := hint n s hk
      have h2 := hrange n s hk
      rw [hk] at hns
      revert h1 h2 hns
      generalize reported H (o :: os) n s = vs
      intro hns h1 h2
      cases vs with
      | nil => rw [foldOpt_nil] at hns; cases hns
      | cons w ws =>
        rw [foldOpt_cons] at hns
        simp only [stepOpt, Except.bind, foldOpt_some] at hns
        have : ∃ r, foldValues .delta w ws = .ok r := by
          clear hns
          induction ws using List.reverseRecOn with
          | nil => exact ⟨w, rfl⟩
          | append_singleton ws x ih =>
            obtain ⟨r, hr⟩ := ih (fun v hv => h1 v (by simp at hv ⊢; rcases hv with h | h <;> simp [h]))
              (fun pre post hp => h2 pre (post ++ [x]) (by rw [← List.append_assoc, ← hp]; simp))
            have hval := foldValues_int w ws r
              (fun v hv => h1 v (by simp at hv ⊢; rcases hv with h | h <;> simp [h])) hr
            obtain ⟨i, hi⟩ := h1 x (by simp)
            have hin := h2 (w :: (ws ++ [x])) [] (by simp)
            rw [foldValues_snoc, hr]
            simp only [Except.bind, mergeMetricValue, if_true, mergeDelta, hval.1, hi, valueCase, mergeDeltaValue,
              ne_eq, not_true, if_false, bind]
            rw [Dist.addI64_eq (by
              simpa [intOf, hi, List.sum_append, Int.add_assoc] using hin)]
            exact ⟨_, rfl⟩
        obtain ⟨r, hr⟩ := this
        rw [hr] at hns
        cases hns
    · revert hns
      generalize reported H (o :: os) n s = vs
      generalize (none : Option (MetricValue D)) = st
      induction vs generalizing st with
      | nil => intro hh; rw [foldOpt_nil] at hh; cases hh
      | cons v vs ih =>
        intro hh
        rw [foldOpt_cons] at hh
        cases st with
        | none => exact ih _ hh
        | some w =>
          simp only [stepOpt, mergeMetricValue, hk, if_false, Except.map, Except.bind] at hh
          exact ih _ hh

/-! ### C17: the time window of the operation -/

/-- C17. -/
theorem C17_time_window (H : Bytes → Bytes) (U : UMapOrder) (kinds : MetricKinds) (o : Operation D)
    (os : List (Operation D)) (a : OpAgg D) (h : OpAgg.aggregate H kinds o os = .ok a) :
    IsEarliest ((o :: os).map (·.startTime)) (a.toProto U).startTime ∧
    IsLatest ((o :: os).map (·.endTime)) (a.toProto U).endTime := by
  refine aggregate_induction H kinds o
    (fun ops a => IsEarliest (ops.map (·.startTime)) (a.toProto U).startTime ∧
      IsLatest (ops.map (·.endTime)) (a.toProto U).endTime) ?_ ?_ os a h
  · intro a ha
    simp only [OpAgg.toProto, (new_ok ha).2]
    exact ⟨earliest_single _, latest_single _⟩
  · intro ops a p a' hP hm
    simp only [OpAgg.toProto, (mergeOperation_ok hm).2] at hP ⊢
    simp only [List.map_append, List.map_cons, List.map_nil]
    exact ⟨mergeStart_earliest _ _ _ hP.1, mergeEnd_latest _ _ _ hP.2⟩

/-! ### C18: gauge and cumulative metrics -/

/-- C18: for a metric that is not DELTA the message lists the reported value with the latest end
time; among values with equal end times the one reported last. -/
theorem C18_gauge_latest (H : Bytes → Bytes) (U : UMapOrder) (kinds : MetricKinds) (o : Operation D)
    (os : List (Operation D)) (a : OpAgg D) (h : OpAgg.aggregate H kinds o os = .ok a) (n s : Bytes)
    (hk : ¬ IsDelta kinds n) (hne : reported H (o :: os) n s ≠ []) :
    ∃ r pre post, (listed (a.toProto U) n).filter (fun v => decide (metricValueSig H v = s)) = [r] ∧
      reported H (o :: os) n s = pre ++ r :: post ∧
      (∀ v ∈ pre, ¬ Earlier r.endTime v.endTime) ∧
      (∀ v ∈ post, Earlier v.endTime r.endTime) := by
  rw [isDelta_iff] at hk
  simp only [earlier_iff]
  rcases listed_fold H U kinds o os a h n s with ⟨h1, _⟩ | ⟨w, ws, r, h1, h2, h3⟩
  · exact absurd h1 hne
  · refine ⟨r, ?_⟩
    have key := foldValues_induction (metricKindOf kinds n) w
      (fun vs r => ∃ pre post, vs = pre ++ r :: post ∧
        (∀ v ∈ pre, ¬ timestampBefore (tsGet r.endTime) (tsGet v.endTime)) ∧
        (∀ v ∈ post, timestampBefore (tsGet v.endTime) (tsGet r.endTime))) ?_ ?_ ws r h2
    · obtain ⟨pre, post, k1, k2, k3⟩ := key
      exact ⟨pre, post, h3, by rw [h1, k1], k2, k3⟩
    · exact ⟨[], [], rfl, by simp, by simp⟩
    · rintro vs r x r' ⟨pre, post, k1, k2, k3⟩ hm
      simp only [mergeMetricValue, hk, if_false, mergeGauge] at hm
      by_cases hb : timestampBefore (tsGet x.endTime) (tsGet r.endTime) = true
      · simp only [hb, if_true] at hm
        cases hm
        refine ⟨pre, post ++ [x], by rw [k1]; simp, k2, ?_⟩
        intro v hv
        rcases List.mem_append.mp hv with hv | hv
        · exact k3 v hv
        · simp at hv; subst hv; exact hb
      · simp only [hb, Bool.false_eq_true, if_false] at hm
        cases hm
        refine ⟨vs, [], by simp, ?_, by simp⟩
        intro v hv hbef
        rw [before_iff] at hbef hb
        rw [k1] at hv
        rcases List.mem_append.mp hv with hv | hv
        · have := k2 v hv; rw [before_iff] at this; omega
        · rcases List.mem_cons.mp hv with rfl | hv
          · omega
          · have := k3 v hv; rw [before_iff] at this; omega

/-! ### C19: log entries -/

/-- C19: log entries are concatenated in arrival order; the size limit is reported exactly from 100
entries on. -/
theorem C19_log_entries (H : Bytes → Bytes) (U : UMapOrder) (kinds : MetricKinds) (o : Operation D)
    (os : List (Operation D)) (a : OpAgg D) (h : OpAgg.aggregate H kinds o os = .ok a) :
    (a.toProto U).logEntries = (o :: os).flatMap (·.logEntries) ∧
    (a.tooBig = true ↔ 100 ≤ ((o :: os).flatMap (·.logEntries)).length) := by
  have key : a.op.logEntries = (o :: os).flatMap (·.logEntries) := by
    refine aggregate_induction H kinds o (fun ops a => a.op.logEntries = ops.flatMap (·.logEntries)) ?_ ?_ os a h
    · intro a ha; simp [(new_ok ha).2]
    · intro ops a p a' hP hm; simp [(mergeOperation_ok hm).2, hP]
  refine ⟨key, ?_⟩
  unfold OpAgg.tooBig kMaxLogEntries
  rw [key, decide_eq_true_iff]

/-! ### C20: shape of the result -/

/-- C20: every metric name mentioned is listed exactly once and no other; under each name no
two values share a label signature and exactly the reported signatures occur; all remaining fields are those of the first
operation. -/
theorem C20_shape (H : Bytes → Bytes) (U : UMapOrder) (kinds : MetricKinds) (o : Operation D)
    (os : List (Operation D)) (a : OpAgg D) (h : OpAgg.aggregate H kinds o os = .ok a) :
    ((a.toProto U).metricValueSets.map (·.name)).Nodup ∧
    (∀ n, n ∈ (a.toProto U).metricValueSets.map (·.name) ↔ n ∈ namesOf (o :: os)) ∧
    (∀ t ∈ (a.toProto U).metricValueSets, (t.values.map (metricValueSig H)).Nodup ∧
      ∀ s, s ∈ t.values.map (metricValueSig H) ↔ reported H (o :: os) t.name s ≠ []) ∧
    (∃ st en logs sets, a.toProto U = { o with startTime := st, endTime := en, logEntries := logs, metricValueSets := sets }) := by
  have hs := aggregate_setsOk H kinds o os a h
  have h0 := aggregate_op_sets H kinds o os a h
  have hnames : (a.toProto U).metricValueSets.map (·.name) = (U.ord _ a.sets).map Prod.fst := by
    simp [OpAgg.toProto, h0, Function.comp_def]
  refine ⟨?_, ?_, ?_, ?_⟩
  · rw [hnames]; exact ord_isMap U _ hs.1
  · intro n
    rw [hnames, ((U.perm _ a.sets).map Prod.fst).mem_iff]
    exact aggregate_keys H kinds o os a h n
  · intro t ht
    simp only [OpAgg.toProto, h0, List.nil_append, List.mem_map] at ht
    obtain ⟨p, hp, rfl⟩ := ht
    have hp' : p ∈ a.sets := (U.perm _ a.sets).mem_iff.mp hp
    obtain ⟨hi1, hi2⟩ := hs.2 p hp'
    have hval : ((U.ord _ p.2).map Prod.snd).map (metricValueSig H) = (U.ord _ p.2).map Prod.fst := by
      rw [List.map_map]
      apply List.map_congr_left
      intro q hq
      exact hi2 q ((U.perm _ p.2).mem_iff.mp hq)
    refine ⟨by rw [hval]; exact ord_isMap U _ hi1, ?_⟩
    intro s
    simp only
    rw [hval, ((U.perm _ p.2).map Prod.fst).mem_iff]
    have hfind : umFind p.1 a.sets = some p.2 := (umFind_some_iff _ _ _ hs.1).mpr hp'
    have hf := foldOpt_none_ok _ _ _ (aggregate_find H kinds o os a h p.1 s)
    simp only [find2, hfind, Option.getD_some] at hf
    constructor
    · intro hmem hnil
      rcases hf with ⟨_, h2⟩ | ⟨w, ws, r, h1, _⟩
      · exact (umFind_none_iff _ _).mp h2 hmem
      · rw [h1] at hnil; cases hnil
    · intro hne
      rcases hf with ⟨h1, _⟩ | ⟨w, ws, r, _, h2, _⟩
      · exact absurd h1 hne
      · have := umFind_mem _ _ _ h2
        exact List.mem_map_of_mem (f := Prod.fst) this
  · have : ∃ st en logs, a.op = { o with startTime := st, endTime := en, logEntries := logs, metricValueSets := [] } := by
      refine aggregate_induction H kinds o
        (fun _ a => ∃ st en logs, a.op = { o with startTime := st, endTime := en, logEntries := logs, metricValueSets := [] }) ?_ ?_ os a h
      · intro a ha; exact ⟨o.startTime, o.endTime, o.logEntries, (new_ok ha).2⟩
      · rintro ops a p a' ⟨st, en, logs, hP⟩ hm
        rw [(mergeOperation_ok hm).2, hP]
        exact ⟨_, _, _, rfl⟩
    obtain ⟨st, en, logs, he⟩ := this
    exact ⟨st, en, logs, _, by simp only [OpAgg.toProto, he]; rfl⟩

/-! ### C21: order independence -/

theorem reported_perm (H : Bytes → Bytes) (xs ys : List (Operation D)) (hp : xs.Perm ys) (n s : Bytes) :
    (reported H xs n s).Perm (reported H ys n s) := hp.flatMap_right _

theorem sum_perm (l l' : List Int) (h : l.Perm l') : l.sum = l'.sum := by
  induction h with
  | nil => rfl
  | cons x _ ih => simp [ih]
  | swap x y l => simp only [List.sum_cons]; omega
  | trans _ _ ih1 ih2 => rw [ih1, ih2]

/-- C21: two aggregates of the same operations in different orders agree on every `int64` delta
value and its time window, on the set of metric names, and on the operation's time window. -/
theorem C21_order_independent (H : Bytes → Bytes) (U U' : UMapOrder) (kinds : MetricKinds) (o o' : Operation D)
    (os os' : List (Operation D)) (a a' : OpAgg D) (hp : (o :: os).Perm (o' :: os'))
    (h : OpAgg.aggregate H kinds o os = .ok a) (h' : OpAgg.aggregate H kinds o' os' = .ok a') :
    (∀ n, n ∈ (a.toProto U).metricValueSets.map (·.name) ↔ n ∈ (a'.toProto U').metricValueSets.map (·.name)) ∧
    (a.toProto U).startTime = (a'.toProto U').startTime ∧ (a.toProto U).endTime = (a'.toProto U').endTime ∧
    ∀ n s, IsDelta kinds n → (∀ v ∈ reported H (o :: os) n s, IsInt v) →
      ((listed (a.toProto U) n).filter (fun v => decide (metricValueSig H v = s))).map
          (fun v => (v.value, v.startTime, v.endTime)) =
        ((listed (a'.toProto U') n).filter (fun v => decide (metricValueSig H v = s))).map
          (fun v => (v.value, v.startTime, v.endTime)) := by
  refine ⟨?_, ?_, ?_, ?_⟩
  · intro n
    rw [(C20_shape H U kinds o os a h).2.1, (C20_shape H U' kinds o' os' a' h').2.1]
    exact (hp.flatMap_right _).mem_iff
  · exact earliest_unique _ _ (fun t => (hp.map _).mem_iff) _ _ (C17_time_window H U kinds o os a h).1
      (C17_time_window H U' kinds o' os' a' h').1
  · exact latest_unique _ _ (fun t => (hp.map _).mem_iff) _ _ (C17_time_window H U kinds o os a h).2
      (C17_time_window H U' kinds o' os' a' h').2
  · intro n s hk hint
    have hrp := reported_perm H _ _ hp n s
    have hint' : ∀ v ∈ reported H (o' :: os') n s, IsInt v := fun v hv => hint v (hrp.mem_iff.mpr hv)
    have c1 := C16_delta_int_sum H U kinds o os a h n s hk hint
    have c2 := C16_delta_int_sum H U' kinds o' os' a' h' n s hk hint'
    by_cases hne : reported H (o :: os) n s = []
    · have hne' : reported H (o' :: os') n s = [] := by
        rw [hne] at hrp; exact hrp.symm.eq_nil
      rw [c1.1 hne, c2.1 hne']
    · have hne' : reported H (o' :: os') n s ≠ [] := by
        intro e; rw [e] at hrp; exact hne hrp.eq_nil
      obtain ⟨r, r1, r2, r3, r4, _⟩ := c1.2 hne
      obtain ⟨q, q1, q2, q3, q4, _⟩ := c2.2 hne'
      rw [r1, q1]
      simp only [List.map_cons, List.map_nil]
      have e1 : r.value = q.value := by
        rw [r2, q2, sum_perm _ _ (hrp.map intOf)]
      have e2 := earliest_unique _ _ (fun t => (hrp.map (·.startTime)).mem_iff) _ _ r3 q3
      have e3 := latest_unique _ _ (fun t => (hrp.map (·.endTime)).mem_iff) _ _ r4 q4
      rw [e1, e2, e3]

/-! ### C22: incompatible types -/

theorem mergeDelta_case (x r r' : MetricValue D) (h : mergeMetricValue .delta x r = .ok r') :
    valueCase r'.value = valueCase r.value := by
  simp only [mergeMetricValue, if_true, mergeDelta] at h
  split at h
  · cases h; rfl
  · simp only [bind, Except.bind] at h
    split at h
    · cases h
    · rename_i v hv
      cases h
      simp only
      unfold mergeDeltaValue at hv
      split at hv
      · simp only [bind, Except.bind] at hv
        split at hv
        · cases hv
        · cases hv; rename_i h1 h2 _ _; simp_all [valueCase]
      · cases hv; simp_all [valueCase]
      · simp only [bind, Except.bind] at hv
        split at hv
        · cases hv
        · cases hv; simp_all [valueCase]
      · cases hv; rfl

theorem foldValues_filter (w : MetricValue D) (ws : List (MetricValue D)) :
    foldValues .delta w ws = foldValues .delta w (ws.filter fun v => decide (valueCase v.value = valueCase w.value)) := by
  induction ws generalizing w with
  | nil => rfl
  | cons x ws ih =>
    by_cases hx : valueCase x.value = valueCase w.value
    · simp only [List.filter_cons, hx, decide_true, if_true]
      unfold foldValues
      simp only [List.foldlM_cons, bind, Except.bind]
      cases hm : mergeMetricValue .delta x w with
      | error e => rfl
      | ok r =>
        simp only
        have hc := mergeDelta_case _ _ _ hm
        have := ih r
        unfold foldValues at this
        rw [this, hc]
    · simp only [List.filter_cons, hx, decide_false, Bool.false_eq_true, if_false]
      have : mergeMetricValue .delta x w = .ok w := by
        simp only [mergeMetricValue, if_true, mergeDelta]
        rw [if_pos (fun e => hx e.symm)]
      rw [← ih w]
      unfold foldValues
      simp only [List.foldlM_cons, this, bind, Except.bind]

theorem other_types_fold (H : Bytes → Bytes) (U : UMapOrder) (kinds : MetricKinds) (o : Operation D)
    (os : List (Operation D)) (a : OpAgg D) (h : OpAgg.aggregate H kinds o os = .ok a) (n s : Bytes)
    (hk : metricKindOf kinds n = .delta) (w : MetricValue D) (ws : List (MetricValue D))
    (hr : reported H (o :: os) n s = w :: ws) :
    ∃ r, (listed (a.toProto U) n).filter (fun v => decide (metricValueSig H v = s)) = [r] ∧
      valueCase r.value = valueCase w.value ∧
      foldValues .delta w (ws.filter fun v => decide (valueCase v.value = valueCase w.value)) = .ok r := by
  rcases listed_fold H U kinds o os a h n s with ⟨h1, _⟩ | ⟨w', ws', r, h1, h2, h3⟩
  · rw [h1] at hr; cases hr
  · rw [h1] at hr
    cases hr
    rw [hk] at h2
    refine ⟨r, h3, ?_, by rw [← foldValues_filter]; exact h2⟩
    exact foldValues_induction .delta w (fun _ r => valueCase r.value = valueCase w.value) rfl
      (fun vs r x r' hP hm => by rw [mergeDelta_case _ _ _ hm]; exact hP) ws r h2

/-- C22: a DELTA metric keeps the type of the value reported first, and values of another type
make no difference: any operations that report the same values without those of another
type are aggregated to the same value. -/
theorem C22_other_types_dropped (H : Bytes → Bytes) (U U' : UMapOrder) (kinds : MetricKinds)
    (o o' : Operation D) (os os' : List (Operation D)) (a a' : OpAgg D)
    (h : OpAgg.aggregate H kinds o os = .ok a) (h' : OpAgg.aggregate H kinds o' os' = .ok a') (n s : Bytes)
    (hk : IsDelta kinds n) (w : MetricValue D) (ws : List (MetricValue D))
    (hr : reported H (o :: os) n s = w :: ws)
    (hr' : reported H (o' :: os') n s =
      w :: ws.filter fun v => decide (valueCase v.value = valueCase w.value)) :
    ∃ r, (listed (a.toProto U) n).filter (fun v => decide (metricValueSig H v = s)) = [r] ∧
      (listed (a'.toProto U') n).filter (fun v => decide (metricValueSig H v = s)) = [r] ∧
      valueCase r.value = valueCase w.value := by
  rw [isDelta_iff] at hk
  obtain ⟨r, h1, h2, h3⟩ := other_types_fold H U kinds o os a h n s hk w ws hr
  rcases listed_fold H U' kinds o' os' a' h' n s with ⟨k1, _⟩ | ⟨w', ws', r', k1, k2, k3⟩
  · rw [k1] at hr'; cases hr'
  · rw [k1] at hr'
    cases hr'
    rw [hk, h3] at k2
    cases k2
    exact ⟨r, h1, k3, h2⟩

theorem distribution_rejected (x r r' : MetricValue D) (f t : Distribution D)
    (hx : x.value = .distribution f) (hr : r.value = .distribution t)
    (hrej : Dist.merge f t = .ok (.invalidArgument, t)) (h : mergeMetricValue .delta x r = .ok r') :
    r'.value = r.value := by
  simp only [mergeMetricValue, if_true, mergeDelta, hx, hr, valueCase, mergeDeltaValue, ne_eq, not_true, if_false,
    hrej, bind, Except.bind] at h
  cases h
  exact hr.symm

/-- C22: a distribution that cannot be merged into what was aggregated so far leaves it unchanged. -/
theorem C22_distribution_rejected (H : Bytes → Bytes) (U U' : UMapOrder) (kinds : MetricKinds)
    (o p : Operation D) (os : List (Operation D)) (a a' : OpAgg D)
    (h : OpAgg.aggregate H kinds o os = .ok a) (h' : OpAgg.aggregate H kinds o (os ++ [p]) = .ok a') (n s : Bytes)
    (hk : IsDelta kinds n) (x r : MetricValue D) (f t : Distribution D)
    (hp : reported H [p] n s = [x]) (hx : x.value = .distribution f)
    (hr : (listed (a.toProto U) n).filter (fun v => decide (metricValueSig H v = s)) = [r])
    (ht : r.value = .distribution t) (hrej : Dist.merge f t = .ok (.invalidArgument, t)) :
    ∃ r', (listed (a'.toProto U') n).filter (fun v => decide (metricValueSig H v = s)) = [r'] ∧
      r'.value = .distribution t := by
  rw [isDelta_iff] at hk
  rcases listed_fold H U kinds o os a h n s with ⟨_, k2⟩ | ⟨w, ws, r0, k1, k2, k3⟩
  · rw [k2] at hr; cases hr
  rw [k3] at hr; cases hr
  have hrep : reported H (o :: (os ++ [p])) n s = w :: (ws ++ [x]) := by
    rw [← List.cons_append, reported_append, k1, hp]; rfl
  rcases listed_fold H U' kinds o (os ++ [p]) a' h' n s with ⟨l1, _⟩ | ⟨w', ws', r', l1, l2, l3⟩
  · rw [hrep] at l1; cases l1
  rw [hrep] at l1; cases l1
  rw [foldValues_snoc, k2, hk] at l2
  exact ⟨r', l3, by rw [distribution_rejected x r r' f t hx ht hrej l2]; exact ht⟩

/-! ### C63: doubles are added in arrival order -/

/-- The double carried by a value. -/
def doubleOf (v : MetricValue D) : D :=
  match v.value with
  | .double x => x
  | _ => DoubleOps.zero

/-- C63: if only doubles were reported, the listed value is their sum, added from first to last. -/
theorem C63_delta_double_sum (H : Bytes → Bytes) (U : UMapOrder) (kinds : MetricKinds) (o : Operation D)
    (os : List (Operation D)) (a : OpAgg D) (h : OpAgg.aggregate H kinds o os = .ok a) (n s : Bytes)
    (hk : IsDelta kinds n) (w : MetricValue D) (ws : List (MetricValue D))
    (hr : reported H (o :: os) n s = w :: ws) (hd : ∀ v ∈ w :: ws, ∃ x, v.value = .double x) :
    ∃ r, (listed (a.toProto U) n).filter (fun v => decide (metricValueSig H v = s)) = [r] ∧
      r.value = .double ((ws.map doubleOf).foldl DoubleOps.add (doubleOf w)) := by
  rw [isDelta_iff] at hk
  rcases listed_fold H U kinds o os a h n s with ⟨h1, _⟩ | ⟨w', ws', r, h1, h2, h3⟩
  · rw [h1] at hr; cases hr
  · rw [h1] at hr
    cases hr
    rw [hk] at h2
    refine ⟨r, h3, ?_⟩
    clear h1 h3 h hk
    induction ws generalizing w with
    | nil =>
      cases h2
      obtain ⟨x, hx⟩ := hd r (by simp)
      simp [doubleOf, hx]
    | cons v ws ih =>
      obtain ⟨x, hx⟩ := hd w (by simp)
      obtain ⟨y, hy⟩ := hd v (by simp)
      simp only [foldValues, List.foldlM_cons, mergeMetricValue, if_true, mergeDelta, hx, hy, valueCase, ne_eq,
        not_true, if_false, mergeDeltaValue, bind, Except.bind] at h2
      have := ih _ (by
        intro u hu
        rcases List.mem_cons.mp hu with rfl | hu
        · exact ⟨_, rfl⟩
        · exact hd u (by simp [hu])) h2
      rw [this]
      simp [doubleOf, hx, hy]

/-! ### C62: distributions, exact arithmetic -/

/-- C62: if every reported value is a distribution in one layout `b`, describing the samples `f v`, the
listed value describes all the samples together, in arrival order. -/
theorem C62_delta_distribution (H : Bytes → Bytes) (U : UMapOrder) (kinds : MetricKinds) (o : Operation ℝ)
    (os : List (Operation ℝ)) (a : OpAgg ℝ) (h : OpAgg.aggregate H kinds o os = .ok a) (n s : Bytes)
    (hk : IsDelta kinds n) (b : BucketOption ℝ) (hb : Dist.ValidLayout b)
    (f : MetricValue ℝ → List ℝ) (hne : reported H (o :: os) n s ≠ [])
    (hd : ∀ v ∈ reported H (o :: os) n s, ∃ d, v.value = .distribution d ∧ Dist.Describes d b (f v))
    (hroom : ((((reported H (o :: os) n s).flatMap f).length : Nat) : Int) ≤ int64Max) :
    ∃ r d, (listed (a.toProto U) n).filter (fun v => decide (metricValueSig H v = s)) = [r] ∧
      r.value = .distribution d ∧ Dist.Describes d b ((reported H (o :: os) n s).flatMap f) := by
  rw [isDelta_iff] at hk
  rcases listed_fold H U kinds o os a h n s with ⟨h1, _⟩ | ⟨w, ws, r, h1, h2, h3⟩
  · exact absurd h1 hne
  · rw [hk] at h2
    rw [h1] at hd hroom ⊢
    have key := foldValues_induction .delta w
      (fun vs r => (∀ v ∈ vs, ∃ d, v.value = .distribution d ∧ Dist.Describes d b (f v)) →
        (((vs.flatMap f).length : Nat) : Int) ≤ int64Max →
        ∃ d, r.value = .distribution d ∧ Dist.Describes d b (vs.flatMap f)) ?_ ?_ ws r h2
    · obtain ⟨d, k1, k2⟩ := key hd hroom
      exact ⟨r, d, h3, k1, k2⟩
    · intro hw _
      obtain ⟨d, k1, k2⟩ := hw w (by simp)
      exact ⟨d, k1, by simpa using k2⟩
    · intro vs r x r' hP hm hall hlen
      simp only [List.flatMap_append, List.length_append] at hlen
      obtain ⟨d, k1, k2⟩ := hP (fun v hv => hall v (by simp [hv])) (by omega)
      obtain ⟨d', k3, k4⟩ := hall x (by simp)
      obtain ⟨q, q1, q2⟩ := Dist.C08_merge_describes b hb d' d (f x) (vs.flatMap f) k4 k2
        (by simpa using hlen)
      simp only [mergeMetricValue, if_true, mergeDelta, k1, k3, valueCase, ne_eq, not_true, if_false,
        mergeDeltaValue, q1, bind, Except.bind] at hm
      cases hm
      exact ⟨q, rfl, by simpa using q2⟩

/-! ### The hypotheses are met -/

section examples

/-- Integer stand-in for doubles, to run the model. -/
instance : DoubleOps Int where
  zero := 0
  one := 1
  epsilon := 0
  add := (· + ·)
  sub := (· - ·)
  mul := (· * ·)
  div := (· / ·)
  abs := fun x => x.natAbs
  log2 := id
  lt := fun a b => a < b
  le := fun a b => a ≤ b
  eq := fun a b => a = b
  isNaN := fun _ => false
  ofInt := id
  toInt32 := fun x => if InI32 x then some x else none

def exVal (i : Int) (st en : Int) : MetricValue Int :=
  ⟨[([107], [118])], some ⟨st, 0⟩, some ⟨en, 0⟩, .int64 i⟩
def exOp (i : Int) (st en : Int) : Operation Int :=
  ⟨[], [110], [99], some ⟨st, 0⟩, some ⟨en, 0⟩, [], [⟨[109], [exVal i st en]⟩], [[1]], 0, []⟩

/-- Three operations with one integer metric: 5 + 7 + 9, window 1..30, three log entries. -/
example : ∃ a, OpAgg.aggregate (fun b => b) none (exOp 5 3 10) [exOp 7 1 20, exOp 9 2 30] = .ok a ∧
    ((a.toProto .insertion).metricValueSets.map fun t => (t.name, t.values.map (·.value))) =
      [([109], [.int64 21])] ∧
    (a.toProto .insertion).startTime = some ⟨1, 0⟩ ∧ (a.toProto .insertion).endTime = some ⟨30, 0⟩ ∧
    (a.toProto .insertion).logEntries.length = 3 := by
  refine ⟨_, rfl, ?_, ?_, ?_, ?_⟩ <;> decide

/-- The same metric declared as a gauge keeps the value with the latest end time. -/
example : ∃ a, OpAgg.aggregate (fun b => b) (some [([109], .gauge)]) (exOp 5 3 40) [exOp 7 1 20, exOp 9 2 30] = .ok a ∧
    ((a.toProto .insertion).metricValueSets.map fun t => (t.name, t.values.map (·.value))) =
      [([109], [.int64 5])] := by
  refine ⟨_, rfl, ?_⟩; decide

/-- `exOp` with a boolean value. -/
def exOpBool (st en : Int) : Operation Int :=
  ⟨[], [110], [99], some ⟨st, 0⟩, some ⟨en, 0⟩, [], [⟨[109], [{ exVal 0 st en with value := .bool true }]⟩],
    [[1]], 0, []⟩

/-- Operations as C22 asks for: a boolean reported between two integers, and the same without it; the
kind map lists another metric only, so the metric is a delta, and the other one is not. -/
example : ∃ (a a' : OpAgg Int) (s : Bytes),
    OpAgg.aggregate (fun b => b) (some [([103], .gauge)]) (exOp 5 3 10) [exOpBool 1 50, exOp 9 2 30] = .ok a ∧
    OpAgg.aggregate (fun b => b) (some [([103], .gauge)]) (exOp 5 3 10) [exOp 9 2 30] = .ok a' ∧
    reported (fun b => b) [exOp 5 3 10, exOpBool 1 50, exOp 9 2 30] [109] s =
      [exVal 5 3 10, { exVal 0 1 50 with value := .bool true }, exVal 9 2 30] ∧
    reported (fun b => b) [exOp 5 3 10, exOp 9 2 30] [109] s = [exVal 5 3 10, exVal 9 2 30] ∧
    IsDelta (some [([103], .gauge)]) [109] ∧ ¬ IsDelta (some [([103], .gauge)]) [103] ∧
    (listed (a.toProto .insertion) [109]).map (·.value) = [.int64 14] :=
  ⟨_, _, metricValueSig (fun b => b) (exVal 5 3 10), rfl, rfl, by decide, by decide,
    (isDelta_iff _ _).mpr (by decide), fun h => absurd ((isDelta_iff _ _).mp h) (by decide), by decide⟩

/-- `exOp` with a distribution of the given layout. -/
def exOpDist (l : BucketOption Int) : Operation Int :=
  ⟨[], [110], [99], none, none, [], [⟨[109], [{ exVal 0 0 0 with value := .distribution ⟨1, 0, 0, 0, 0, [0, 1, 0], l⟩ }]⟩],
    [], 0, []⟩

/-- Operations as `C22_distribution_rejected` asks for: two distributions of different layout. -/
example : ∃ (a a' : OpAgg Int) (s : Bytes) (x r : MetricValue Int) (f t : Distribution Int),
    OpAgg.aggregate (fun b => b) none (exOpDist (.linear 1 1 0)) [] = .ok a ∧
    OpAgg.aggregate (fun b => b) none (exOpDist (.linear 1 1 0)) [exOpDist (.explicit [0, 1])] = .ok a' ∧
    reported (fun b => b) [exOpDist (.explicit [0, 1])] [109] s = [x] ∧ x.value = .distribution f ∧
    (listed (a.toProto .insertion) [109]).filter (fun v => decide (metricValueSig (fun b => b) v = s)) = [r] ∧
    r.value = .distribution t ∧ Dist.merge f t = .ok (.invalidArgument, t) :=
  ⟨_, _, metricValueSig (fun b => b) (exVal 0 0 0), _, _, _, _, rfl, rfl, rfl, rfl, rfl, rfl, rfl⟩

/-- A running total may overflow although the final total would fit: the order matters for
definedness only. -/
theorem C16_intermediate_overflow :
    OpAgg.aggregate (fun b => b) none (exOp int64Max 0 0) [exOp 1 0 0, exOp (-1) 0 0] = .error .signedOverflow ∧
    ∃ a, OpAgg.aggregate (fun b => b) none (exOp int64Max 0 0) [exOp (-1) 0 0, exOp 1 0 0] = .ok a := by
  refine ⟨by decide, _, rfl⟩

end examples
end Verif
