import Verif.Spec.Signature
import Mathlib.Data.List.Perm.Basic
/-
C11-C15, C60: request signatures (src/signature.cc, utils/md5.cc).
-/
namespace Verif
variable {D : Type}

/-! ### C11: invariance -/

theorem SameLabels.bytes {l l' : Labels} (h : SameLabels l l') : labelsBytes l = labelsBytes l' :=
  labelsBytes_perm h.1 h.2.2

/-- C11, report operations: only consumer, name and the label *map* matter. -/
theorem C11_report_signature_invariant (H : Bytes → Bytes) (a b : Operation D)
    (h : SameReportIdentity a b) : reportOperationSig H a = reportOperationSig H b := by
  obtain ⟨h1, h2, h3⟩ := h
  simp only [reportOperationSig, reportOperationBytes, h1, h2, h3.bytes]

/-- C11, metric values: only the label map matters. -/
theorem C11_metric_value_signature_invariant (H : Bytes → Bytes) (v w : MetricValue D)
    (h : SameLabels v.labels w.labels) : metricValueSig H v = metricValueSig H w := by
  simp only [metricValueSig, metricValueBytes, h.bytes]

/-- C11, quota requests: only method, consumer and the *set* of metric names matter. -/
theorem C11_quota_signature_invariant (H : Bytes → Bytes) (r r' : AllocateQuotaRequest D)
    (h : SameQuotaIdentity r.op r'.op) : allocateQuotaSig H r = allocateQuotaSig H r' := by
  obtain ⟨h1, h2, h3⟩ := h
  have := (nameSet_eq_iff _ _).mpr h3
  simp only [nameSet] at this
  simp only [allocateQuotaSig, allocateQuotaBytes, h1, h2, this]

theorem assign_rel {α : Type} (R : α → α → Prop) (k : Bytes) (v v' : α) (hv : R v v')
    (m m' : List (Bytes × α))
    (h : List.Forall₂ (fun a b => a.1 = b.1 ∧ R a.2 b.2) m m') :
    List.Forall₂ (fun a b => a.1 = b.1 ∧ R a.2 b.2) (stdMapAssign k v m) (stdMapAssign k v' m') := by
  induction h with
  | nil => exact .cons ⟨rfl, hv⟩ .nil
  | @cons a b ta tb hab ht ih =>
    obtain ⟨ka, va⟩ := a
    obtain ⟨kb, vb⟩ := b
    obtain ⟨hk, hr⟩ := hab
    simp only at hk hr
    subst hk
    simp only [stdMapAssign]
    split
    · exact .cons ⟨rfl, hv⟩ (.cons ⟨rfl, hr⟩ ht)
    · split
      · exact .cons ⟨rfl, hr⟩ ih
      · exact .cons ⟨rfl, hv⟩ ht

theorem checkMetricMap_rel (R : List (MetricValue D) → List (MetricValue D) → Prop)
    (s s' : List (MetricValueSet D))
    (h : List.Forall₂ (fun a b => a.name = b.name ∧ R a.values b.values) s s') :
    List.Forall₂ (fun a b => a.1 = b.1 ∧ R a.2 b.2) (checkMetricMap s) (checkMetricMap s') := by
  unfold checkMetricMap
  have : ∀ m m' : List (Bytes × List (MetricValue D)),
      List.Forall₂ (fun a b => a.1 = b.1 ∧ R a.2 b.2) m m' →
      List.Forall₂ (fun a b => a.1 = b.1 ∧ R a.2 b.2)
        (s.foldl (fun m s => stdMapAssign s.name s.values m) m)
        (s'.foldl (fun m s => stdMapAssign s.name s.values m) m') := by
    induction h with
    | nil => exact fun _ _ h => h
    | @cons a b ta tb hab ht ih =>
      intro m m' hm
      simp only [List.foldl_cons]
      apply ih
      rw [hab.1]
      exact assign_rel R _ _ _ hab.2 _ _ hm
  exact this [] [] .nil

/-- C11, check requests. -/
theorem C11_check_signature_invariant (H : Bytes → Bytes) (r r' : CheckRequest D)
    (h : SameCheckIdentity r.op r'.op) : checkRequestSig H r = checkRequestSig H r' := by
  obtain ⟨h1, h2, h3, hnd, t, hp, hf⟩ := h
  simp only [checkRequestSig, checkRequestBytes, h1, h2, h3.bytes]
  rw [checkMetricMap_perm _ t hnd hp]
  have hm := checkMetricMap_rel
    (List.Forall₂ (fun v w : MetricValue D => SameLabels v.labels w.labels)) _ _ hf
  have : ∀ m m' : List (Bytes × List (MetricValue D)),
      List.Forall₂ (fun a b => a.1 = b.1 ∧
        List.Forall₂ (fun v w : MetricValue D => SameLabels v.labels w.labels) a.2 b.2) m m' →
      (m.flatMap fun s => delim ++ s.1 ++ s.2.flatMap fun v => metricValueBytes v) =
      (m'.flatMap fun s => delim ++ s.1 ++ s.2.flatMap fun v => metricValueBytes v) := by
    intro m m' h
    induction h with
    | nil => rfl
    | @cons a b ta tb hab ht ih =>
      simp only [List.flatMap_cons, ih, hab.1]
      congr 2
      have := hab.2
      generalize a.2 = x at this
      generalize b.2 = y at this
      induction this with
      | nil => rfl
      | cons hvw _ ih' => rw [List.flatMap_cons, List.flatMap_cons, ih', metricValueBytes, metricValueBytes, hvw.bytes]
  rw [this _ _ hm]

/-- Non-vacuity: two requests that differ in label order, metric order and ignored fields. -/
example : SameReportIdentity
    (⟨[1], [2], [3], none, none, [([10], [11]), ([12], [13])], [], [[7]], 0, []⟩ : Operation Int)
    ⟨[9], [2], [3], some ⟨5, 0⟩, none, [([12], [13]), ([10], [11])], [], [], 1, []⟩ :=
  ⟨rfl, rfl, by decide, by decide, .swap _ _ _⟩

example : SameMetrics
    ([⟨[1], [⟨[([5], [6]), ([3], [4])], none, none, .int64 3⟩]⟩, ⟨[2], []⟩] : List (MetricValueSet Int))
    [⟨[2], []⟩, ⟨[1], [⟨[([3], [4]), ([5], [6])], some ⟨1, 1⟩, none, .bool true⟩]⟩] :=
  ⟨by decide, _, .swap _ _ _,
    .cons ⟨rfl, .nil⟩ (.cons ⟨rfl, .cons ⟨by decide, by decide, .swap _ _ _⟩ .nil⟩ .nil)⟩

/-! ### C12: report signatures distinguish -/

/-- C12: NUL-free operations hash equal strings only if they have the same identity. -/
theorem C12_report_signature_injective (H : Bytes → Bytes) (a b : Operation D)
    (ha : a.Clean) (hb : b.Clean) (h : reportOperationSig H a = reportOperationSig H b) :
    SameReportIdentity a b ∨ ∃ x y, x ≠ y ∧ H x = H y := by
  by_cases he : reportOperationBytes a = reportOperationBytes b
  · left
    obtain ⟨ha1, ha2, ha3, ha4⟩ := ha
    obtain ⟨hb1, hb2, hb3, hb4⟩ := hb
    have e : a.consumerId ++ joinToks (a.operationName :: pairToks (orderedLabels a.labels)) =
        b.consumerId ++ joinToks (b.operationName :: pairToks (orderedLabels b.labels)) := by
      simpa [reportOperationBytes, labelsBytes_eq, joinToks_cons, delim] using he
    have := toks_unique ha1 hb1
      (by intro t ht; rcases List.mem_cons.mp ht with rfl | ht
          · exact ha2
          · exact pairToks_nulFree ha3 ha4 t ht)
      (by intro t ht; rcases List.mem_cons.mp ht with rfl | ht
          · exact hb2
          · exact pairToks_nulFree hb3 hb4 t ht) e
    obtain ⟨h1, h2⟩ := this
    injection h2 with h2 h3
    exact ⟨h1, h2, ha3, hb3, (orderedLabels_eq_iff _ _ ha3 hb3).mp (pairToks_inj h3)⟩
  · exact Or.inr ⟨_, _, he, h⟩

/-- The hypothesis is needed: a NUL byte in a name makes different operations collide. -/
example : reportOperationBytes (⟨[], [98], [97, 0, 99], none, none, [], [], [], 0, []⟩ : Operation Int) =
    reportOperationBytes (⟨[], [99, 0, 98], [97], none, none, [], [], [], 0, []⟩ : Operation Int) := by decide

example : (⟨[1], [2], [3], none, none, [([10], [11]), ([12], [13])], [], [[7]], 0, []⟩ : Operation Int).Clean := by
  unfold Operation.Clean; decide

/-! ### C15: metric value signatures distinguish label maps -/

/-- C15. -/
theorem C15_metric_value_signature_iff (H : Bytes → Bytes) (hH : ∀ x y, H x = H y → x = y)
    (v w : MetricValue D) (hv : IsMap v.labels) (hw : IsMap w.labels)
    (nv : LabelsNulFree v.labels) (nw : LabelsNulFree w.labels) :
    metricValueSig H v = metricValueSig H w ↔ v.labels.Perm w.labels := by
  constructor
  · intro h
    have e := hH _ _ h
    simp only [metricValueBytes, labelsBytes_eq] at e
    have := toks_unique (a := []) (a' := []) (by simp [NulFree]) (by simp [NulFree])
      (pairToks_nulFree hv nv) (pairToks_nulFree hw nw) (by simpa using e)
    exact (orderedLabels_eq_iff _ _ hv hw).mp (pairToks_inj this.2)
  · intro p
    simp only [metricValueSig, metricValueBytes, labelsBytes_perm hv p]

/-- C15 without assuming an injective hash: a collision of signatures of different label maps
is a collision of the hash itself. -/
theorem C15_metric_value_signature_collision (H : Bytes → Bytes)
    (v w : MetricValue D) (hv : IsMap v.labels) (hw : IsMap w.labels)
    (nv : LabelsNulFree v.labels) (nw : LabelsNulFree w.labels)
    (h : metricValueSig H v = metricValueSig H w) (hne : ¬ v.labels.Perm w.labels) :
    ∃ x y, x ≠ y ∧ H x = H y :=
  ⟨metricValueBytes v, metricValueBytes w,
    fun e => hne ((C15_metric_value_signature_iff id (fun _ _ h => h) v w hv hw nv nw).mp e), h⟩

example : ¬ ([([1], [2])] : Labels).Perm [([1], [3])] := by decide

/-! ### C14: quota signatures -/

/-- C14. -/
theorem C14_quota_signature_iff (H : Bytes → Bytes) (hH : ∀ x y, H x = H y → x = y)
    (r r' : AllocateQuotaRequest D) (hr : r.op.Clean) (hr' : r'.op.Clean) :
    allocateQuotaSig H r = allocateQuotaSig H r' ↔ SameQuotaIdentity r.op r'.op := by
  constructor
  · intro h
    have e := hH _ _ h
    obtain ⟨ha1, ha2, ha3⟩ := hr
    obtain ⟨hb1, hb2, hb3⟩ := hr'
    have e' : r.op.methodName ++ joinToks (r.op.consumerId :: nameSet r.op.quotaMetrics) =
        r'.op.methodName ++ joinToks (r'.op.consumerId :: nameSet r'.op.quotaMetrics) := by
      simpa [allocateQuotaBytes, nameSet, joinToks, delim] using e
    have nf : ∀ (s : List (MetricValueSet D)), (∀ x ∈ s, NulFree x.name) →
        ∀ t ∈ nameSet s, NulFree t := by
      intro s hs t ht
      obtain ⟨x, hx, rfl⟩ := List.mem_map.mp ((mem_nameSet s t).mp ht)
      exact hs x hx
    have := toks_unique ha1 hb1
      (by intro t ht; rcases List.mem_cons.mp ht with rfl | ht
          · exact ha2
          · exact nf _ ha3 t ht)
      (by intro t ht; rcases List.mem_cons.mp ht with rfl | ht
          · exact hb2
          · exact nf _ hb3 t ht) e'
    obtain ⟨h1, h2⟩ := this
    injection h2 with h2 h3
    exact ⟨h1, h2, (nameSet_eq_iff _ _).mp h3⟩
  · exact C11_quota_signature_invariant H r r'

/-- Quota signatures ignore labels: requests that differ in metric value labels share a cache entry. -/
example : allocateQuotaBytes (⟨[], some ⟨[], [1], [2], [], [⟨[3], [⟨[([4], [5])], none, none, .int64 1⟩]⟩], 0, []⟩, [], []⟩ : AllocateQuotaRequest Int) =
    allocateQuotaBytes (⟨[], some ⟨[], [1], [2], [([8], [9])], [⟨[3], [⟨[([4], [6])], none, none, .int64 2⟩]⟩], 0, []⟩, [], []⟩ : AllocateQuotaRequest Int) := by decide

example : (⟨[], [1], [2], [], [⟨[3], [⟨[([4], [5])], none, none, .int64 1⟩]⟩], 0, []⟩ : QuotaOperation Int).Clean := by
  unfold QuotaOperation.Clean; decide

/-! ### C13: check signatures -/

/-- Tokens contributed by the metrics. -/
def metricToks (m : List (Bytes × List (MetricValue D))) : List Bytes :=
  m.flatMap fun s => s.1 :: s.2.flatMap fun v => pairToks (orderedLabels v.labels)

theorem metricToks_eq (m : List (Bytes × List (MetricValue D))) :
    joinToks (metricToks m) = m.flatMap fun s => delim ++ s.1 ++ s.2.flatMap fun v => metricValueBytes v := by
  induction m with
  | nil => rfl
  | cons s t ih =>
    simp only [metricToks, List.flatMap_cons, List.cons_append] at ih ⊢
    rw [joinToks_cons, joinToks_append, ih]
    have : joinToks (List.flatMap (fun v => pairToks (orderedLabels v.labels)) s.2) =
        List.flatMap (fun v => metricValueBytes v) s.2 := by
      induction s.2 with
      | nil => rfl
      | cons v vs ih' => simp only [List.flatMap_cons, joinToks_append, ih', metricValueBytes, labelsBytes_eq]
    simp [this, delim]

/-- The token sequence of everything behind the consumer id. -/
def checkToks (op : Operation D) : List Bytes :=
  pairToks (orderedLabels op.labels) ++ metricToks (checkMetricMap op.metricValueSets)

theorem checkRequestBytes_eq (r : CheckRequest D) :
    checkRequestBytes r =
      r.op.operationName ++ joinToks (r.op.consumerId :: [] :: (checkToks r.op ++ [[]])) := by
  simp only [checkRequestBytes, checkToks, joinToks_cons, joinToks_append, metricToks_eq, labelsBytes_eq, joinToks_nil]
  simp [delim]

theorem mem_checkMetricMap (s : List (MetricValueSet D)) (h : (s.map (·.name)).Nodup)
    (e : Bytes × List (MetricValue D)) :
    e ∈ checkMetricMap s ↔ e ∈ s.map fun s => (s.name, s.values) := by
  rw [checkMetricMap_eq]
  have hm : IsMap (s.map fun s => (s.name, s.values)) := by
    simpa [IsMap, Function.comp_def] using h
  have p1 := foldl_assign_perm _ [] (by simpa using hm)
  simpa using p1.mem_iff

theorem checkToks_nulFree (op : Operation D) (h : op.CleanMetrics) : ∀ t ∈ checkToks op, NulFree t := by
  obtain ⟨⟨_, _, h3, h4⟩, hnd, h5⟩ := h
  intro t ht
  rcases List.mem_append.mp ht with ht | ht
  · exact pairToks_nulFree h3 h4 t ht
  · simp only [metricToks, List.mem_flatMap] at ht
    obtain ⟨e, he, ht⟩ := ht
    obtain ⟨s, hs, rfl⟩ := List.mem_map.mp ((mem_checkMetricMap _ hnd e).mp he)
    rcases List.mem_cons.mp ht with rfl | ht
    · exact (h5 s hs).1
    · obtain ⟨v, hv, ht⟩ := List.mem_flatMap.mp ht
      have := (h5 s hs).2 v hv
      exact pairToks_nulFree this.1 this.2 t ht

/-- The shape of a request: number of labels and, per metric in name order, the number of labels of each value. -/
def checkShape (op : Operation D) : Nat × List (List Nat) :=
  (op.labels.length, (checkMetricMap op.metricValueSets).map fun s => s.2.map fun v => v.labels.length)

/-- C13, exact characterisation: NUL-free check requests have equal hash input iff name, consumer
and the *undelimited* token sequence of labels and metrics agree. -/
theorem check_bytes_exact (r r' : CheckRequest D) (h : r.op.CleanMetrics) (h' : r'.op.CleanMetrics) :
    checkRequestBytes r = checkRequestBytes r' ↔
      r.op.operationName = r'.op.operationName ∧ r.op.consumerId = r'.op.consumerId ∧
      checkToks r.op = checkToks r'.op := by
  constructor
  · intro e
    rw [checkRequestBytes_eq, checkRequestBytes_eq] at e
    have nf : ∀ r : CheckRequest D, r.op.CleanMetrics →
        ∀ t ∈ r.op.consumerId :: [] :: (checkToks r.op ++ [[]]), NulFree t := by
      intro r h t ht
      simp only [List.mem_cons, List.mem_append, List.not_mem_nil, or_false] at ht
      rcases ht with rfl | rfl | ht | rfl
      · exact h.1.1
      · simp [NulFree]
      · exact checkToks_nulFree _ h t ht
      · simp [NulFree]
    have := toks_unique h.1.2.1 h'.1.2.1 (nf r h) (nf r' h') e
    obtain ⟨h1, h2⟩ := this
    injection h2 with h2 h3
    injection h3 with _ h3
    exact ⟨h1, h2, List.append_cancel_right h3⟩
  · intro ⟨h1, h2, h3⟩
    rw [checkRequestBytes_eq, checkRequestBytes_eq, h1, h2, h3]

theorem valueToks_inj (vs ws : List (MetricValue D))
    (hv : ∀ v ∈ vs, IsMap v.labels) (hw : ∀ v ∈ ws, IsMap v.labels)
    (hl : vs.map (fun v => v.labels.length) = ws.map fun v => v.labels.length)
    (x y : List Bytes)
    (h : (vs.flatMap fun v => pairToks (orderedLabels v.labels)) ++ x =
      (ws.flatMap fun v => pairToks (orderedLabels v.labels)) ++ y) :
    List.Forall₂ (fun v w : MetricValue D => SameLabels v.labels w.labels) vs ws ∧ x = y := by
  induction vs generalizing ws with
  | nil =>
    cases ws with
    | nil => exact ⟨.nil, by simpa using h⟩
    | cons w ws => simp at hl
  | cons v vs ih =>
    cases ws with
    | nil => simp at hl
    | cons w ws =>
      simp only [List.map_cons, List.cons.injEq] at hl
      simp only [List.flatMap_cons, List.append_assoc] at h
      have mv := hv v (by simp)
      have mw := hw w (by simp)
      have hlen : (pairToks (orderedLabels v.labels)).length = (pairToks (orderedLabels w.labels)).length := by
        rw [pairToks_length, pairToks_length, (orderedLabels_perm _ mv).length_eq,
          (orderedLabels_perm _ mw).length_eq, hl.1]
      have := List.append_inj h hlen
      have r := ih ws (fun a ha => hv a (by simp [ha])) (fun a ha => hw a (by simp [ha])) hl.2 this.2
      exact ⟨.cons ⟨mv, mw, (orderedLabels_eq_iff _ _ mv mw).mp (pairToks_inj this.1)⟩ r.1, r.2⟩

theorem metricToks_inj (m m' : List (Bytes × List (MetricValue D)))
    (hv : ∀ s ∈ m, ∀ v ∈ s.2, IsMap v.labels) (hw : ∀ s ∈ m', ∀ v ∈ s.2, IsMap v.labels)
    (hl : (m.map fun s => s.2.map fun v => v.labels.length) = m'.map fun s => s.2.map fun v => v.labels.length)
    (h : metricToks m = metricToks m') :
    List.Forall₂ (fun a b => a.1 = b.1 ∧
      List.Forall₂ (fun v w : MetricValue D => SameLabels v.labels w.labels) a.2 b.2) m m' := by
  induction m generalizing m' with
  | nil => cases m' with
    | nil => exact .nil
    | cons _ _ => simp at hl
  | cons s t ih => cases m' with
    | nil => simp at hl
    | cons s' t' =>
      simp only [List.map_cons, List.cons.injEq] at hl
      simp only [metricToks, List.flatMap_cons, List.cons_append, List.cons.injEq] at h
      have := valueToks_inj s.2 s'.2 (hv s (by simp)) (hw s' (by simp)) hl.1 _ _ h.2
      exact .cons ⟨h.1, this.1⟩ (ih t' (fun a ha => hv a (by simp [ha]))
        (fun a ha => hw a (by simp [ha])) hl.2 this.2)

/-- From related ordered maps back to the requests' metric lists. -/
theorem sameMetrics_of_map (s s' : List (MetricValueSet D)) (h : (s.map (·.name)).Nodup)
    (h' : (s'.map (·.name)).Nodup)
    (hf : List.Forall₂ (fun a b => a.1 = b.1 ∧
      List.Forall₂ (fun v w : MetricValue D => SameLabels v.labels w.labels) a.2 b.2)
      (checkMetricMap s) (checkMetricMap s')) : SameMetrics s s' := by
  have perm : ∀ s : List (MetricValueSet D), (s.map (·.name)).Nodup →
      ((checkMetricMap s).map fun e => (⟨e.1, e.2⟩ : MetricValueSet D)).Perm s := by
    intro s h
    rw [checkMetricMap_eq]
    have hm : IsMap (s.map fun s => (s.name, s.values)) := by
      simpa [IsMap, Function.comp_def] using h
    have p1 := (foldl_assign_perm _ [] (by simpa using hm)).map fun e => (⟨e.1, e.2⟩ : MetricValueSet D)
    simpa [Function.comp_def] using p1
  refine ⟨h, ?_⟩
  -- transport the pairing along the two permutations
  let R := fun a b : MetricValueSet D => a.name = b.name ∧
      List.Forall₂ (fun v w : MetricValue D => SameLabels v.labels w.labels) a.values b.values
  have hf' : List.Forall₂ R ((checkMetricMap s).map fun e => (⟨e.1, e.2⟩ : MetricValueSet D))
      ((checkMetricMap s').map fun e => (⟨e.1, e.2⟩ : MetricValueSet D)) := by
    rw [List.forall₂_map_left_iff, List.forall₂_map_right_iff]
    exact hf
  have := List.perm_comp_forall₂ (perm s h).symm hf'
  obtain ⟨t, ht, hpt⟩ := this
  have hc : Relation.Comp (List.Forall₂ R) List.Perm s s' := ⟨t, ht, hpt.trans (perm s' h')⟩
  rw [List.forall₂_comp_perm_eq_perm_comp_forall₂] at hc
  obtain ⟨u, hu, hf⟩ := hc
  exact ⟨u, hu, hf⟩

theorem check_injective_of_shape (H : Bytes → Bytes) (r r' : CheckRequest D)
    (h : r.op.CleanMetrics) (h' : r'.op.CleanMetrics) (hs : checkShape r.op = checkShape r'.op)
    (e : checkRequestSig H r = checkRequestSig H r') :
    SameCheckIdentity r.op r'.op ∨ ∃ x y, x ≠ y ∧ H x = H y := by
  by_cases he : checkRequestBytes r = checkRequestBytes r'
  · left
    obtain ⟨h1, h2, h3⟩ := (check_bytes_exact r r' h h').mp he
    have hl := congrArg Prod.fst hs
    have hm := congrArg Prod.snd hs
    simp only [checkShape] at hl hm
    obtain ⟨⟨_, _, ml, _⟩, nd, hv⟩ := h
    obtain ⟨⟨_, _, ml', _⟩, nd', hv'⟩ := h'
    have hlen : (pairToks (orderedLabels r.op.labels)).length = (pairToks (orderedLabels r'.op.labels)).length := by
      rw [pairToks_length, pairToks_length, (orderedLabels_perm _ ml).length_eq,
        (orderedLabels_perm _ ml').length_eq, hl]
    have := List.append_inj h3 hlen
    refine ⟨h1, h2, ⟨ml, ml', (orderedLabels_eq_iff _ _ ml ml').mp (pairToks_inj this.1)⟩, ?_⟩
    refine sameMetrics_of_map _ _ nd nd' (metricToks_inj _ _ ?_ ?_ hm this.2)
    · intro s hs v hv1
      obtain ⟨s0, hs0, rfl⟩ := List.mem_map.mp ((mem_checkMetricMap _ nd s).mp hs)
      exact ((hv s0 hs0).2 v hv1).1
    · intro s hs v hv1
      obtain ⟨s0, hs0, rfl⟩ := List.mem_map.mp ((mem_checkMetricMap _ nd' s).mp hs)
      exact ((hv' s0 hs0).2 v hv1).1
  · exact Or.inr ⟨_, _, he, e⟩

theorem checkMetricMap_sorted (s t : List (MetricValueSet D)) (h : (s.map (·.name)).Nodup) (hp : t.Perm s)
    (ht : t.Pairwise fun a b => bytesLt a.name b.name = true) :
    checkMetricMap s = t.map fun x => (x.name, x.values) := by
  rw [← checkMetricMap_perm t s ((hp.map _).nodup_iff.mpr h) hp]
  have hm : IsMap (t.map fun s => (s.name, s.values)) := by
    simpa [IsMap, Function.comp_def] using (hp.map (·.name)).nodup_iff.mpr h
  have p1 := foldl_assign_perm _ [] (by simpa using hm)
  rw [checkMetricMap_eq]
  refine (foldl_assign_sorted _ _ .nil).eq_of_perm ?_ (by simpa using p1)
  rw [MapSorted, List.pairwise_map]
  exact ht

/-- Two requests have the same shape: the same number of labels and, going through their metrics in the
order of their names, the same numbers of values and of labels per value. -/
def SameShape (a b : Operation D) : Prop :=
  a.labels.length = b.labels.length ∧
  ∃ s t : List (MetricValueSet D), s.Perm a.metricValueSets ∧ t.Perm b.metricValueSets ∧
    (s.Pairwise fun x y => bytesLt x.name y.name = true) ∧
    (t.Pairwise fun x y => bytesLt x.name y.name = true) ∧
    (s.map fun x => x.values.map fun v => v.labels.length) = t.map fun x => x.values.map fun v => v.labels.length

/-- C13, the part that holds: for NUL-free requests *of the same shape* equal signatures mean equal
identity, up to a collision of the hash.  Missing: requests of different shape, see
`C13_false_label_metric_confusion`. -/
theorem C13_check_signature_injective_partial (H : Bytes → Bytes) (r r' : CheckRequest D)
    (h : r.op.CleanMetrics) (h' : r'.op.CleanMetrics) (hs : SameShape r.op r'.op)
    (e : checkRequestSig H r = checkRequestSig H r') :
    SameCheckIdentity r.op r'.op ∨ ∃ x y, x ≠ y ∧ H x = H y := by
  refine check_injective_of_shape H r r' h h' ?_ e
  obtain ⟨hl, s, t, hs, ht, ss, st, hm⟩ := hs
  simp only [checkShape, hl, checkMetricMap_sorted _ s h.2.1 hs ss, checkMetricMap_sorted _ t h'.2.1 ht st,
    List.map_map, Function.comp_def, hm]

theorem orderedLabels_of_sorted (l t : Labels) (h : IsMap l) (hp : t.Perm l)
    (ht : t.Pairwise fun a b => bytesLt a.1 b.1 = true) : orderedLabels l = t :=
  (orderedLabels_sorted l).eq_of_perm ht ((orderedLabels_perm l h).trans hp.symm)

/-- C13, exact characterisation: with a collision-free hash, NUL-free check requests have equal signatures
iff name, consumer and the *undelimited* sequence of label keys and values, metric names, and label
keys and values of the metrics, each in the order of the keys, agree.  `sorted` is any function that sorts
label maps and `m`, `m'` are the metrics in the order of their names. -/
theorem C13_check_signature_exact (H : Bytes → Bytes) (hH : ∀ x y, H x = H y → x = y)
    (r r' : CheckRequest D) (h : r.op.CleanMetrics) (h' : r'.op.CleanMetrics)
    (sorted : Labels → Labels)
    (hs : ∀ l, IsMap l → (sorted l).Perm l ∧ (sorted l).Pairwise fun a b => bytesLt a.1 b.1 = true)
    (m m' : List (MetricValueSet D)) (hm : m.Perm r.op.metricValueSets) (hm' : m'.Perm r'.op.metricValueSets)
    (sm : m.Pairwise fun a b => bytesLt a.name b.name = true)
    (sm' : m'.Pairwise fun a b => bytesLt a.name b.name = true) :
    checkRequestSig H r = checkRequestSig H r' ↔
      r.op.operationName = r'.op.operationName ∧ r.op.consumerId = r'.op.consumerId ∧
      ((sorted r.op.labels).flatMap fun p => [p.1, p.2]) ++
          (m.flatMap fun s => s.name :: s.values.flatMap fun v => (sorted v.labels).flatMap fun p => [p.1, p.2]) =
        ((sorted r'.op.labels).flatMap fun p => [p.1, p.2]) ++
          m'.flatMap fun s => s.name :: s.values.flatMap fun v => (sorted v.labels).flatMap fun p => [p.1, p.2] := by
  have key : ∀ (o : Operation D), o.CleanMetrics → ∀ m : List (MetricValueSet D), m.Perm o.metricValueSets →
      (m.Pairwise fun a b => bytesLt a.name b.name = true) →
      checkToks o = ((sorted o.labels).flatMap fun p => [p.1, p.2]) ++
          m.flatMap fun s => s.name :: s.values.flatMap fun v => (sorted v.labels).flatMap fun p => [p.1, p.2] := by
    intro o h m hm sm
    unfold checkToks metricToks
    rw [checkMetricMap_sorted _ m h.2.1 hm sm, orderedLabels_of_sorted _ _ h.1.2.2.1 (hs _ h.1.2.2.1).1 (hs _ h.1.2.2.1).2,
      List.flatMap_map]
    have hc : ∀ s ∈ m, ∀ v ∈ s.values, IsMap v.labels :=
      fun s hs' v hv => ((h.2.2 s (hm.mem_iff.mp hs')).2 v hv).1
    have e1 : ∀ l : Labels, pairToks l = l.flatMap fun p => [p.1, p.2] := by
      intro l; rfl
    rw [e1]
    congr 1
    refine List.flatMap_congr fun s hs' => ?_
    congr 1
    refine List.flatMap_congr fun v hv => ?_
    have := hs _ (hc s hs' v hv)
    rw [orderedLabels_of_sorted _ _ (hc s hs' v hv) this.1 this.2, e1]
  rw [← key _ h m hm sm, ← key _ h' m' hm' sm', ← check_bytes_exact r r' h h']
  exact ⟨fun e => hH _ _ e, fun e => congrArg H e⟩

/-- Two requests of the same shape, their labels and metrics listed in different orders. -/
example : SameShape
    (⟨[], [1], [2], none, none, [([5], [6])], [⟨[9], []⟩, ⟨[8], [⟨[([5], [6])], none, none, .int64 3⟩]⟩], [], 0, []⟩ : Operation Int)
    ⟨[], [1], [2], none, none, [([7], [6])], [⟨[8], [⟨[([1], [6])], none, none, .int64 4⟩]⟩, ⟨[11], []⟩], [], 0, []⟩ :=
  ⟨rfl, [⟨[8], [⟨[([5], [6])], none, none, .int64 3⟩]⟩, ⟨[9], []⟩], _, .swap _ _ _, .refl _, by
    simp; decide, by simp; decide, rfl⟩

/-- C13 holds outright for requests without metrics (the common case of the API proxy). -/
theorem C13_check_signature_injective_no_metrics (H : Bytes → Bytes) (r r' : CheckRequest D)
    (h : r.op.CleanMetrics) (h' : r'.op.CleanMetrics) (hm : r.op.metricValueSets = [])
    (hm' : r'.op.metricValueSets = []) (e : checkRequestSig H r = checkRequestSig H r') :
    SameCheckIdentity r.op r'.op ∨ ∃ x y, x ≠ y ∧ H x = H y := by
  by_cases he : checkRequestBytes r = checkRequestBytes r'
  · refine check_injective_of_shape H r r' h h' ?_ e
    obtain ⟨_, _, h3⟩ := (check_bytes_exact r r' h h').mp he
    simp only [checkToks, hm, hm', checkMetricMap, List.foldl_nil, metricToks, List.flatMap_nil, List.append_nil] at h3
    have hl := congrArg List.length (pairToks_inj h3)
    rw [(orderedLabels_perm _ h.1.2.2.1).length_eq, (orderedLabels_perm _ h'.1.2.2.1).length_eq] at hl
    simp [checkShape, hm, hm', hl, checkMetricMap]
  · exact Or.inr ⟨_, _, he, e⟩

/-- Request A: labels {a: b} and a metric named c.  Request B: no labels, a metric named a whose
value is labelled {b: c}. -/
def confusedA : CheckRequest Int :=
  ⟨[1], some ⟨[], [2], [3], none, none, [([97], [98])], [⟨[99], [⟨[], none, none, .int64 1⟩]⟩], [], 0, []⟩, [], []⟩
def confusedB : CheckRequest Int :=
  ⟨[1], some ⟨[], [2], [3], none, none, [], [⟨[97], [⟨[([98], [99])], none, none, .int64 1⟩]⟩], [], 0, []⟩, [], []⟩

/-- C13 is false in the code: with *every* hash function two clean requests with different labels
and different metrics share one signature, hence one cached response. -/
theorem C13_false_label_metric_confusion :
    confusedA.op.CleanMetrics ∧ confusedB.op.CleanMetrics ∧
    (∀ H, checkRequestSig H confusedA = checkRequestSig H confusedB) ∧
    ¬ SameCheckIdentity confusedA.op confusedB.op := by
  refine ⟨?_, ?_, ?_, ?_⟩
  · unfold Operation.CleanMetrics Operation.Clean; decide
  · unfold Operation.CleanMetrics Operation.Clean; decide
  · intro H; exact congrArg H (by decide)
  · intro h
    have := h.2.2.1.2.2.length_eq
    simp [confusedA, confusedB, CheckRequest.op] at this

/-- C13, second witness: when a metric name is listed twice only the last set is hashed, so label
differences in the earlier set are invisible. -/
theorem C13_false_duplicate_metric (H : Bytes → Bytes) (n : Bytes) (vs ws us : List (MetricValue D))
    (op : Operation D) (s c r : Bytes) :
    checkRequestSig H ⟨s, some { op with metricValueSets := [⟨n, vs⟩, ⟨n, us⟩] }, c, r⟩ =
    checkRequestSig H ⟨s, some { op with metricValueSets := [⟨n, ws⟩, ⟨n, us⟩] }, c, r⟩ := by
  simp [checkRequestSig, checkRequestBytes, CheckRequest.op, checkMetricMap, stdMapAssign, bytesLt_irrefl]

/-! ### C60: the MD5 wrapper -/

/-- Feed a list of chunks. -/
def MD5.updates (m : MD5) (chunks : List Bytes) : Res MD5 := chunks.foldlM MD5.update m

/-- C60: only the concatenation of the chunks matters. -/
theorem C60_md5_chunking (H : Bytes → Bytes) (chunks : List Bytes) :
    ∃ m, MD5.init.updates chunks = .ok m ∧ (m.finish H).1 = H chunks.flatten ∧
      ((m.finish H).2.finish H) = ((m.finish H).1, (m.finish H).2) := by
  have : ∀ (fed : Bytes), MD5.updates ⟨fed, none⟩ chunks = .ok ⟨fed ++ chunks.flatten, none⟩ := by
    induction chunks with
    | nil => intro fed; simp [MD5.updates, pure, Except.pure]
    | cons c cs ih =>
      intro fed
      simp only [MD5.updates, List.foldlM_cons, MD5.update, bind, Except.bind]
      have := ih (fed ++ c)
      simp only [MD5.updates] at this
      rw [this]; simp
  refine ⟨_, this [], ?_, ?_⟩ <;> simp [MD5.finish]

theorem hexDigit_inj : ∀ a < 16, ∀ b < 16, MD5.hexDigit a = MD5.hexDigit b → a = b := by decide

/-- C60: `DebugString` is total on digests, doubles the length, and is injective. -/
theorem C60_debugString_injective (d d' s : Bytes) (h : MD5.debugString d = .ok s)
    (h' : MD5.debugString d' = .ok s) : d = d' ∧ s.length = 32 := by
  have key : ∀ d d' : Bytes,
      (d.flatMap fun b => [MD5.hexDigit (b.toNat / 16), MD5.hexDigit (b.toNat % 16)]) =
      (d'.flatMap fun b => [MD5.hexDigit (b.toNat / 16), MD5.hexDigit (b.toNat % 16)]) → d = d' := by
    intro d
    induction d with
    | nil => intro d' e; cases d' with
      | nil => rfl
      | cons _ _ => simp at e
    | cons x xs ih => intro d' e; cases d' with
      | nil => simp at e
      | cons y ys =>
        simp only [List.flatMap_cons, List.cons_append, List.nil_append, List.cons.injEq] at e
        have hx := x.toNat_lt
        have hy := y.toNat_lt
        have e1 := hexDigit_inj _ (by omega) _ (by omega) e.1
        have e2 := hexDigit_inj _ (by omega) _ (by omega) e.2.1
        have : x = y := UInt8.toNat_inj.mp (by omega)
        rw [this, ih ys e.2.2]
  have len : ∀ d : Bytes, (d.flatMap fun b => [MD5.hexDigit (b.toNat / 16), MD5.hexDigit (b.toNat % 16)]).length = 2 * d.length := by
    intro d
    induction d with
    | nil => rfl
    | cons x xs ih => simp only [List.flatMap_cons, List.length_append, ih]; simp; omega
  unfold MD5.debugString at h h'
  split at h
  · split at h'
    · rename_i hl _
      cases h
      injection h' with h'
      exact ⟨(key _ _ h').symm, by rw [len, hl]⟩
    · cases h'
  · cases h

example : ∃ s, MD5.debugString (List.replicate 16 0xAB) = .ok s ∧ s.take 4 = [97, 98, 97, 98] := ⟨_, rfl, by decide⟩

end Verif
