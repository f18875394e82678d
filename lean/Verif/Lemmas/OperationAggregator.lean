import Verif.Spec.OperationAggregator
import Verif.Lemmas.Distribution
import Mathlib.Data.List.Induction
/-
Aggregation as a fold over the reported values.
-/
set_option linter.unusedSectionVars false
namespace Verif

section umap
variable {α : Type}

theorem umFind_set (k k' : Bytes) (v : α) (m : List (Bytes × α)) :
    umFind k (umSet k' v m) = if k' = k then some v else umFind k m := by
  induction m with
  | nil => simp [umSet, umFind]
  | cons p t ih =>
    obtain ⟨q, w⟩ := p
    simp only [umSet]
    by_cases h : q = k'
    · subst h
      by_cases h2 : q = k <;> simp [umFind, h2]
    · simp only [h, if_false, umFind, ih]
      by_cases h2 : q = k
      · subst h2; simp [Ne.symm h]
      · simp [h2]

theorem umSet_keys (k : Bytes) (v : α) (m : List (Bytes × α)) :
    (umSet k v m).map Prod.fst = if k ∈ m.map Prod.fst then m.map Prod.fst else m.map Prod.fst ++ [k] := by
  induction m with
  | nil => simp [umSet]
  | cons p t ih =>
    obtain ⟨q, w⟩ := p
    simp only [umSet]
    by_cases h : q = k
    · subst h; simp
    · have h' : ¬ k = q := fun e => h e.symm
      simp only [h, if_false, List.map_cons, ih, List.mem_cons, h', false_or]
      by_cases hm : k ∈ t.map Prod.fst
      · simp [hm]
      · simp [hm]

theorem umSet_isMap (k : Bytes) (v : α) (m : List (Bytes × α)) (h : IsMap m) : IsMap (umSet k v m) := by
  unfold IsMap at *
  rw [umSet_keys]
  split
  · exact h
  · rename_i hk
    rw [List.nodup_append]
    refine ⟨h, by simp, ?_⟩
    intro a ha b hb
    simp at hb; subst hb
    intro e; subst e; exact hk ha

theorem umFind_none_iff (k : Bytes) (m : List (Bytes × α)) : umFind k m = none ↔ k ∉ m.map Prod.fst := by
  induction m with
  | nil => simp [umFind]
  | cons p t ih =>
    obtain ⟨q, w⟩ := p
    by_cases h : q = k
    · simp [umFind, h]
    · have h' : ¬ k = q := fun e => h e.symm
      simp [umFind, h, h', ih]

theorem umFind_some_iff (k : Bytes) (v : α) (m : List (Bytes × α)) (h : IsMap m) :
    umFind k m = some v ↔ (k, v) ∈ m := by
  induction m with
  | nil => simp [umFind]
  | cons p t ih =>
    obtain ⟨q, w⟩ := p
    unfold IsMap at h
    simp only [List.map_cons, List.nodup_cons] at h
    by_cases hq : q = k
    · subst hq
      simp only [umFind, if_true, List.mem_cons, Prod.mk.injEq, true_and]
      constructor
      · intro e; exact Or.inl (by simpa using e.symm)
      · rintro (e | e)
        · simp [e]
        · exact absurd (List.mem_map_of_mem (f := Prod.fst) e) h.1
    · have h' : ¬ k = q := fun e => hq e.symm
      simp only [umFind, hq, if_false, List.mem_cons, Prod.mk.injEq, h', false_and, false_or]
      exact ih h.2

theorem umFind_perm (k : Bytes) (m m' : List (Bytes × α)) (hp : m'.Perm m) (h : IsMap m) :
    umFind k m' = umFind k m := by
  have h' : IsMap m' := (hp.map Prod.fst).nodup_iff.mpr h
  cases e : umFind k m with
  | none =>
    rw [umFind_none_iff] at e ⊢
    intro hk; exact e ((hp.map Prod.fst).mem_iff.mp hk)
  | some v =>
    rw [umFind_some_iff _ _ _ h] at e
    rw [umFind_some_iff _ _ _ h']
    exact hp.mem_iff.mpr e

end umap

variable {D : Type} [DoubleOps D]

/-- Merging the values `vs` one after the other into `w`. -/
def foldValues (kind : MetricKind) (w : MetricValue D) (vs : List (MetricValue D)) : Res (MetricValue D) :=
  vs.foldlM (fun acc v => mergeMetricValue kind v acc) w

/-- One step on a possibly missing value. -/
def stepOpt (kind : MetricKind) : Option (MetricValue D) → MetricValue D → Res (Option (MetricValue D))
  | none, v => .ok (some v)
  | some w, v => (mergeMetricValue kind v w).map some

/-- Folding from a possibly missing value. -/
def foldOpt (kind : MetricKind) (o : Option (MetricValue D)) (vs : List (MetricValue D)) :
    Res (Option (MetricValue D)) := vs.foldlM (stepOpt kind) o

theorem foldOpt_nil (kind : MetricKind) (o : Option (MetricValue D)) : foldOpt kind o [] = .ok o := rfl

theorem foldOpt_append (kind : MetricKind) (o : Option (MetricValue D)) (xs ys : List (MetricValue D)) :
    foldOpt kind o (xs ++ ys) = (foldOpt kind o xs).bind fun o' => foldOpt kind o' ys := by
  unfold foldOpt
  rw [List.foldlM_append]; rfl

theorem foldOpt_cons (kind : MetricKind) (o : Option (MetricValue D)) (x : MetricValue D) (xs : List (MetricValue D)) :
    foldOpt kind o (x :: xs) = (stepOpt kind o x).bind fun o' => foldOpt kind o' xs := by
  unfold foldOpt
  rw [List.foldlM_cons]; rfl

theorem foldOpt_some (kind : MetricKind) (w : MetricValue D) (vs : List (MetricValue D)) :
    foldOpt kind (some w) vs = (foldValues kind w vs).map some := by
  induction vs generalizing w with
  | nil => rfl
  | cons v vs ih =>
    rw [foldOpt_cons]
    unfold foldValues
    rw [List.foldlM_cons]
    simp only [stepOpt, bind, Except.bind, Except.map]
    cases h : mergeMetricValue kind v w with
    | error e => rfl
    | ok r =>
      simp only
      rw [ih]; rfl

/-- `mergeValues` on the entry for one signature. -/
theorem mergeValues_find (H : Bytes → Bytes) (kind : MetricKind) (vs : List (MetricValue D))
    (m m' : List (Bytes × MetricValue D)) (h : mergeValues H kind vs m = .ok m') (sig : Bytes) :
    foldOpt kind (umFind sig m) (vs.filter fun v => decide (metricValueSig H v = sig)) = .ok (umFind sig m') := by
  induction vs generalizing m with
  | nil =>
    simp only [mergeValues] at h; cases h
    simp [foldOpt_nil]
  | cons v vs ih =>
    simp only [mergeValues] at h
    by_cases hs : metricValueSig H v = sig
    · simp only [List.filter_cons, hs, decide_true, if_true]
      rw [foldOpt_cons]
      rw [hs] at h
      cases hf : umFind sig m with
      | none =>
        rw [hf] at h
        simp only at h
        have := ih _ h
        rw [umFind_set, if_pos rfl] at this
        simp only [stepOpt, Except.bind, this]
      | some w =>
        rw [hf] at h
        simp only [bind, Except.bind] at h
        cases hw : mergeMetricValue kind v w with
        | error e => rw [hw] at h; cases h
        | ok w' =>
          rw [hw] at h
          simp only at h
          have := ih _ h
          rw [umFind_set, if_pos rfl] at this
          simp only [stepOpt, hw, Except.map, Except.bind, this]
    · simp only [List.filter_cons, hs, decide_false, Bool.false_eq_true, if_false]
      cases hf : umFind (metricValueSig H v) m with
      | none =>
        rw [hf] at h
        have := ih _ h
        rwa [umFind_set, if_neg hs] at this
      | some w =>
        rw [hf] at h
        simp only [bind, Except.bind] at h
        cases hw : mergeMetricValue kind v w with
        | error e => rw [hw] at h; cases h
        | ok w' =>
          rw [hw] at h
          have := ih _ h
          rwa [umFind_set, if_neg hs] at this

/-- Keys of the inner map: signatures seen. -/
theorem mergeValues_isMap (H : Bytes → Bytes) (kind : MetricKind) (vs : List (MetricValue D))
    (m m' : List (Bytes × MetricValue D)) (h : mergeValues H kind vs m = .ok m') (hm : IsMap m) : IsMap m' := by
  induction vs generalizing m with
  | nil => simp only [mergeValues] at h; cases h; exact hm
  | cons v vs ih =>
    simp only [mergeValues] at h
    split at h
    · exact ih _ h (umSet_isMap _ _ _ hm)
    · simp only [bind, Except.bind] at h
      split at h
      · cases h
      · exact ih _ h (umSet_isMap _ _ _ hm)

theorem mergeMetricValue_labels (kind : MetricKind) (v w r : MetricValue D)
    (h : mergeMetricValue kind v w = .ok r) : r.labels = w.labels ∨ r.labels = v.labels := by
  unfold mergeMetricValue at h
  split at h
  · unfold mergeDelta at h
    split at h
    · cases h; exact Or.inl rfl
    · simp only [bind, Except.bind] at h
      split at h
      · cases h
      · cases h; exact Or.inl rfl
  · cases h
    unfold mergeGauge
    split
    · exact Or.inl rfl
    · exact Or.inr rfl

/-- Every value is stored under its own signature. -/
def SigOk (H : Bytes → Bytes) (m : List (Bytes × MetricValue D)) : Prop :=
  ∀ p ∈ m, metricValueSig H p.2 = p.1

theorem sig_of_labels (H : Bytes → Bytes) {v w : MetricValue D} (h : v.labels = w.labels) :
    metricValueSig H v = metricValueSig H w := by
  simp only [metricValueSig, metricValueBytes, h]

theorem umSet_mem {α : Type} (k : Bytes) (v : α) (m : List (Bytes × α)) (p : Bytes × α)
    (h : p ∈ umSet k v m) : p = (k, v) ∨ p ∈ m := by
  induction m with
  | nil => simp [umSet] at h; exact Or.inl h
  | cons q t ih =>
    obtain ⟨a, b⟩ := q
    simp only [umSet] at h
    split at h
    · rcases List.mem_cons.mp h with h | h
      · exact Or.inl h
      · exact Or.inr (List.mem_cons_of_mem _ h)
    · rcases List.mem_cons.mp h with h | h
      · exact Or.inr (h ▸ List.mem_cons_self)
      · rcases ih h with h | h
        · exact Or.inl h
        · exact Or.inr (List.mem_cons_of_mem _ h)

theorem umFind_mem {α : Type} (k : Bytes) (v : α) (m : List (Bytes × α)) (h : umFind k m = some v) :
    (k, v) ∈ m := by
  induction m with
  | nil => simp [umFind] at h
  | cons q t ih =>
    obtain ⟨a, b⟩ := q
    simp only [umFind] at h
    split at h
    · rename_i e; subst e; cases h; exact List.mem_cons_self
    · exact List.mem_cons_of_mem _ (ih h)

theorem mergeValues_sigOk (H : Bytes → Bytes) (kind : MetricKind) (vs : List (MetricValue D))
    (m m' : List (Bytes × MetricValue D)) (h : mergeValues H kind vs m = .ok m') (hm : SigOk H m) : SigOk H m' := by
  induction vs generalizing m with
  | nil => simp only [mergeValues] at h; cases h; exact hm
  | cons v vs ih =>
    simp only [mergeValues] at h
    split at h
    · refine ih _ h ?_
      intro p hp
      rcases umSet_mem _ _ _ _ hp with rfl | hp
      · rfl
      · exact hm p hp
    · rename_i w hw
      simp only [bind, Except.bind] at h
      split at h
      · cases h
      · rename_i r hr
        refine ih _ h ?_
        intro p hp
        rcases umSet_mem _ _ _ _ hp with rfl | hp
        · show metricValueSig H r = _
          rcases mergeMetricValue_labels _ _ _ _ hr with e | e
          · rw [sig_of_labels H e]; exact hm _ (umFind_mem _ _ _ hw)
          · exact sig_of_labels H e
        · exact hm p hp

/-- Two-level lookup. -/
def find2 (sets : List (Bytes × List (Bytes × MetricValue D))) (name sig : Bytes) : Option (MetricValue D) :=
  umFind sig ((umFind name sets).getD [])

theorem mergeSets_find (H : Bytes → Bytes) (kinds : MetricKinds) (ss : List (MetricValueSet D))
    (m m' : List (Bytes × List (Bytes × MetricValue D))) (h : mergeSets H kinds ss m = .ok m') (name sig : Bytes) :
    foldOpt (metricKindOf kinds name) (find2 m name sig)
      ((ss.filter fun s => decide (s.name = name)).flatMap fun s =>
        s.values.filter fun v => decide (metricValueSig H v = sig)) = .ok (find2 m' name sig) := by
  induction ss generalizing m with
  | nil => simp only [mergeSets] at h; cases h; simp [foldOpt_nil]
  | cons s ss ih =>
    simp only [mergeSets, bind, Except.bind] at h
    split at h
    · cases h
    · rename_i vals hv
      have hi := ih _ h
      by_cases hn : s.name = name
      · subst hn
        simp only [List.filter_cons, decide_true, if_true, List.flatMap_cons]
        rw [foldOpt_append]
        have hv' := mergeValues_find H _ _ _ _ hv sig
        have : foldOpt (metricKindOf kinds s.name) (find2 m s.name sig)
          (s.values.filter fun v => decide (metricValueSig H v = sig)) = .ok (umFind sig vals) := hv'
        rw [this]
        simp only [Except.bind]
        simp only [find2, umFind_set, if_true, Option.getD_some] at hi
        exact hi
      · simp only [List.filter_cons, hn, decide_false, Bool.false_eq_true, if_false]
        simp only [find2, umFind_set, hn, if_false] at hi
        exact hi

/-- Well-formedness of the two-level map. -/
def SetsOk (H : Bytes → Bytes) (m : List (Bytes × List (Bytes × MetricValue D))) : Prop :=
  IsMap m ∧ ∀ p ∈ m, IsMap p.2 ∧ SigOk H p.2

theorem mergeSets_ok (H : Bytes → Bytes) (kinds : MetricKinds) (ss : List (MetricValueSet D))
    (m m' : List (Bytes × List (Bytes × MetricValue D))) (h : mergeSets H kinds ss m = .ok m')
    (hm : SetsOk H m) : SetsOk H m' := by
  induction ss generalizing m with
  | nil => simp only [mergeSets] at h; cases h; exact hm
  | cons s ss ih =>
    simp only [mergeSets, bind, Except.bind] at h
    split at h
    · cases h
    · rename_i vals hv
      refine ih _ h ⟨umSet_isMap _ _ _ hm.1, ?_⟩
      have hinner : IsMap ((umFind s.name m).getD []) ∧ SigOk H ((umFind s.name m).getD []) := by
        cases hf : umFind s.name m with
        | none => exact ⟨by simp [IsMap], by intro p hp; simp at hp⟩
        | some i => exact hm.2 _ (umFind_mem _ _ _ hf)
      intro p hp
      rcases umSet_mem _ _ _ _ hp with rfl | hp
      · exact ⟨mergeValues_isMap _ _ _ _ _ hv hinner.1, mergeValues_sigOk _ _ _ _ _ hv hinner.2⟩
      · exact hm.2 p hp

theorem mergeSets_keys (H : Bytes → Bytes) (kinds : MetricKinds) (ss : List (MetricValueSet D))
    (m m' : List (Bytes × List (Bytes × MetricValue D))) (h : mergeSets H kinds ss m = .ok m') (n : Bytes) :
    n ∈ m'.map Prod.fst ↔ n ∈ m.map Prod.fst ∨ n ∈ ss.map (·.name) := by
  induction ss generalizing m with
  | nil => simp only [mergeSets] at h; cases h; simp
  | cons s ss ih =>
    simp only [mergeSets, bind, Except.bind] at h
    split at h
    · cases h
    · rw [ih _ h, umSet_keys]
      by_cases hk : s.name ∈ m.map Prod.fst
      · rw [if_pos hk]
        simp only [List.map_cons, List.mem_cons]
        constructor
        · rintro (h | h) <;> simp [h]
        · rintro (h | rfl | h)
          · exact Or.inl h
          · exact Or.inl hk
          · exact Or.inr h
      · rw [if_neg hk]
        simp only [List.mem_append, List.map_cons, List.mem_cons, List.not_mem_nil, or_false]
        rw [or_assoc]

/-! ### The whole aggregate -/

theorem aggregate_snoc (H : Bytes → Bytes) (kinds : MetricKinds) (o : Operation D) (os : List (Operation D))
    (p : Operation D) :
    OpAgg.aggregate H kinds o (os ++ [p]) =
      (OpAgg.aggregate H kinds o os).bind fun a => a.mergeOperation H kinds p := by
  unfold OpAgg.aggregate
  cases h : OpAgg.new H kinds o with
  | error e => rfl
  | ok a =>
    simp only [bind, Except.bind, List.foldlM_append, List.foldlM_cons, List.foldlM_nil]
    cases h2 : os.foldlM (OpAgg.mergeOperation H kinds) a with
    | error e => rfl
    | ok b =>
      simp only
      cases b.mergeOperation H kinds p <;> rfl

/-- Induction over the merged operations, from the front to the back. -/
theorem aggregate_induction (H : Bytes → Bytes) (kinds : MetricKinds) (o : Operation D)
    (P : List (Operation D) → OpAgg D → Prop)
    (h0 : ∀ a, OpAgg.new H kinds o = .ok a → P [o] a)
    (h1 : ∀ ops a p a', P ops a → a.mergeOperation H kinds p = .ok a' → P (ops ++ [p]) a')
    (os : List (Operation D)) (a : OpAgg D) (h : OpAgg.aggregate H kinds o os = .ok a) : P (o :: os) a := by
  induction os using List.reverseRecOn generalizing a with
  | nil =>
    apply h0
    unfold OpAgg.aggregate at h
    cases hn : OpAgg.new H kinds o with
    | error e => rw [hn] at h; cases h
    | ok b => rw [hn] at h; exact h
  | append_singleton os p ih =>
    rw [aggregate_snoc] at h
    cases hn : OpAgg.aggregate H kinds o os with
    | error e => rw [hn] at h; cases h
    | ok b =>
      rw [hn] at h
      exact h1 (o :: os) b p a (ih b hn) h

theorem new_ok {H : Bytes → Bytes} {kinds : MetricKinds} {o : Operation D} {a : OpAgg D}
    (h : OpAgg.new H kinds o = .ok a) :
    mergeSets H kinds o.metricValueSets [] = .ok a.sets ∧ a.op = { o with metricValueSets := [] } := by
  unfold OpAgg.new at h
  simp only [bind, Except.bind] at h
  split at h
  · cases h
  · rename_i s hs; cases h; exact ⟨hs, rfl⟩

theorem mergeOperation_ok {H : Bytes → Bytes} {kinds : MetricKinds} {o : Operation D} {a a' : OpAgg D}
    (h : a.mergeOperation H kinds o = .ok a') :
    mergeSets H kinds o.metricValueSets a.sets = .ok a'.sets ∧
    a'.op = { a.op with
          startTime := mergeStart o.startTime a.op.startTime
          endTime := mergeEnd o.endTime a.op.endTime
          logEntries := a.op.logEntries ++ o.logEntries } := by
  unfold OpAgg.mergeOperation at h
  simp only [bind, Except.bind] at h
  split at h
  · cases h
  · rename_i s hs; cases h; exact ⟨hs, rfl⟩

theorem reported_append (H : Bytes → Bytes) (xs ys : List (Operation D)) (n s : Bytes) :
    reported H (xs ++ ys) n s = reported H xs n s ++ reported H ys n s := by
  simp [reported]

/-- The stored value for a metric and signature is the fold of everything reported for it. -/
theorem aggregate_find (H : Bytes → Bytes) (kinds : MetricKinds) (o : Operation D) (os : List (Operation D))
    (a : OpAgg D) (h : OpAgg.aggregate H kinds o os = .ok a) (n s : Bytes) :
    foldOpt (metricKindOf kinds n) none (reported H (o :: os) n s) = .ok (find2 a.sets n s) := by
  refine aggregate_induction H kinds o
    (fun ops a => foldOpt (metricKindOf kinds n) none (reported H ops n s) = .ok (find2 a.sets n s)) ?_ ?_ os a h
  · intro a ha
    have := mergeSets_find H kinds _ _ _ (new_ok ha).1 n s
    simpa [reported, find2, umFind] using this
  · intro ops a p a' hP hm
    rw [reported_append, foldOpt_append, hP]
    have := mergeSets_find H kinds _ _ _ (mergeOperation_ok hm).1 n s
    simpa [reported, Except.bind] using this

theorem aggregate_setsOk (H : Bytes → Bytes) (kinds : MetricKinds) (o : Operation D) (os : List (Operation D))
    (a : OpAgg D) (h : OpAgg.aggregate H kinds o os = .ok a) : SetsOk H a.sets := by
  refine aggregate_induction H kinds o (fun _ a => SetsOk H a.sets) ?_ ?_ os a h
  · intro a ha
    exact mergeSets_ok _ _ _ _ _ (new_ok ha).1 ⟨by simp [IsMap], by simp⟩
  · intro ops a p a' hP hm
    exact mergeSets_ok _ _ _ _ _ (mergeOperation_ok hm).1 hP

theorem aggregate_keys (H : Bytes → Bytes) (kinds : MetricKinds) (o : Operation D) (os : List (Operation D))
    (a : OpAgg D) (h : OpAgg.aggregate H kinds o os = .ok a) (n : Bytes) :
    n ∈ a.sets.map Prod.fst ↔ n ∈ namesOf (o :: os) := by
  refine aggregate_induction H kinds o (fun ops a => n ∈ a.sets.map Prod.fst ↔ n ∈ namesOf ops) ?_ ?_ os a h
  · intro a ha
    rw [mergeSets_keys _ _ _ _ _ (new_ok ha).1]
    simp [namesOf]
  · intro ops a p a' hP hm
    rw [mergeSets_keys _ _ _ _ _ (mergeOperation_ok hm).1, hP]
    simp [namesOf]

/-! ### Timestamps -/

theorem before_iff (a b : Timestamp) : timestampBefore a b = true ↔
    a.seconds < b.seconds ∨ (a.seconds = b.seconds ∧ a.nanos < b.nanos) := by
  simp [timestampBefore]

theorem mergeStart_earliest (f t : Option Timestamp) (ts : List (Option Timestamp)) (h : IsEarliest ts t) :
    IsEarliest (ts ++ [f]) (mergeStart f t) := by
  cases f with
  | none =>
    cases t with
    | none => intro u hu; simp at hu; exact hu.elim (h u) id
    | some t =>
      refine ⟨by simp [h.1], fun u hu => ?_⟩
      simp at hu; exact h.2 u hu
  | some f =>
    cases t with
    | none =>
      refine ⟨by simp, fun u hu => ?_⟩
      simp at hu
      rcases hu with hu | rfl
      · exact absurd (h _ hu) (by simp)
      · omega
    | some t =>
      simp only [mergeStart]
      split
      · rename_i hb
        rw [before_iff] at hb
        refine ⟨by simp, fun u hu => ?_⟩
        simp at hu
        rcases hu with hu | rfl
        · have := h.2 u hu; omega
        · omega
      · rename_i hb
        rw [before_iff] at hb
        refine ⟨by simp [h.1], fun u hu => ?_⟩
        simp at hu
        rcases hu with hu | rfl
        · exact h.2 u hu
        · omega

theorem mergeEnd_latest (f t : Option Timestamp) (ts : List (Option Timestamp)) (h : IsLatest ts t) :
    IsLatest (ts ++ [f]) (mergeEnd f t) := by
  cases f with
  | none =>
    cases t with
    | none => intro u hu; simp at hu; exact hu.elim (h u) id
    | some t =>
      refine ⟨by simp [h.1], fun u hu => ?_⟩
      simp at hu; exact h.2 u hu
  | some f =>
    cases t with
    | none =>
      refine ⟨by simp, fun u hu => ?_⟩
      simp at hu
      rcases hu with hu | rfl
      · exact absurd (h _ hu) (by simp)
      · omega
    | some t =>
      simp only [mergeEnd]
      split
      · rename_i hb
        rw [before_iff] at hb
        refine ⟨by simp, fun u hu => ?_⟩
        simp at hu
        rcases hu with hu | rfl
        · have := h.2 u hu; omega
        · omega
      · rename_i hb
        rw [before_iff] at hb
        refine ⟨by simp [h.1], fun u hu => ?_⟩
        simp at hu
        rcases hu with hu | rfl
        · exact h.2 u hu
        · omega

theorem earliest_single (t : Option Timestamp) : IsEarliest [t] t := by
  cases t with
  | none => intro u hu; simpa using hu
  | some t => exact ⟨by simp, fun u hu => by simp at hu; subst hu; omega⟩

theorem latest_single (t : Option Timestamp) : IsLatest [t] t := by
  cases t with
  | none => intro u hu; simpa using hu
  | some t => exact ⟨by simp, fun u hu => by simp at hu; subst hu; omega⟩

theorem earliest_unique (ts ts' : List (Option Timestamp)) (hp : ∀ t, t ∈ ts ↔ t ∈ ts') (t t' : Option Timestamp)
    (h : IsEarliest ts t) (h' : IsEarliest ts' t') : t = t' := by
  cases t with
  | none =>
    cases t' with
    | none => rfl
    | some t' => exact (h _ ((hp _).mpr h'.1)).symm
  | some t =>
    cases t' with
    | none => exact h' _ ((hp _).mp h.1)
    | some t' =>
      have h1 := h.2 t' ((hp _).mpr h'.1)
      have h2 := h'.2 t ((hp _).mp h.1)
      have e1 : t.seconds = t'.seconds := by omega
      have e2 : t.nanos = t'.nanos := by omega
      cases t; cases t'; simp_all

theorem latest_unique (ts ts' : List (Option Timestamp)) (hp : ∀ t, t ∈ ts ↔ t ∈ ts') (t t' : Option Timestamp)
    (h : IsLatest ts t) (h' : IsLatest ts' t') : t = t' := by
  cases t with
  | none =>
    cases t' with
    | none => rfl
    | some t' => exact (h _ ((hp _).mpr h'.1)).symm
  | some t =>
    cases t' with
    | none => exact h' _ ((hp _).mp h.1)
    | some t' =>
      have h1 := h.2 t' ((hp _).mpr h'.1)
      have h2 := h'.2 t ((hp _).mp h.1)
      have e1 : t.seconds = t'.seconds := by omega
      have e2 : t.nanos = t'.nanos := by omega
      cases t; cases t'; simp_all

/-! ### Folding values of one metric -/

theorem foldValues_snoc (kind : MetricKind) (w x : MetricValue D) (vs : List (MetricValue D)) :
    foldValues kind w (vs ++ [x]) = (foldValues kind w vs).bind fun r => mergeMetricValue kind x r := by
  unfold foldValues
  simp only [List.foldlM_append, List.foldlM_cons, List.foldlM_nil, bind, Except.bind]
  cases vs.foldlM (fun acc v => mergeMetricValue kind v acc) w with
  | error e => rfl
  | ok r =>
    simp only
    cases mergeMetricValue kind x r <;> rfl

/-- Induction along a fold of values. -/
theorem foldValues_induction (kind : MetricKind) (w : MetricValue D)
    (P : List (MetricValue D) → MetricValue D → Prop) (h0 : P [w] w)
    (h1 : ∀ vs r x r', P vs r → mergeMetricValue kind x r = .ok r' → P (vs ++ [x]) r')
    (vs : List (MetricValue D)) (r : MetricValue D) (h : foldValues kind w vs = .ok r) : P (w :: vs) r := by
  induction vs using List.reverseRecOn generalizing r with
  | nil => cases h; exact h0
  | append_singleton vs x ih =>
    rw [foldValues_snoc] at h
    cases hn : foldValues kind w vs with
    | error e => rw [hn] at h; cases h
    | ok b =>
      rw [hn] at h
      exact h1 (w :: vs) b x r (ih b hn) h

theorem foldOpt_none_ok (kind : MetricKind) (vs : List (MetricValue D)) (o : Option (MetricValue D))
    (h : foldOpt kind none vs = .ok o) :
    (vs = [] ∧ o = none) ∨ ∃ w ws r, vs = w :: ws ∧ o = some r ∧ foldValues kind w ws = .ok r := by
  cases vs with
  | nil => rw [foldOpt_nil] at h; cases h; exact Or.inl ⟨rfl, rfl⟩
  | cons w ws =>
    right
    rw [foldOpt_cons] at h
    simp only [stepOpt, Except.bind, foldOpt_some, Except.map] at h
    cases hf : foldValues kind w ws with
    | error e => rw [hf] at h; cases h
    | ok r => rw [hf] at h; cases h; exact ⟨w, ws, r, rfl, rfl, hf⟩

end Verif
