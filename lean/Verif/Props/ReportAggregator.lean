import Verif.Lemmas.ReportAggregator
import Mathlib.Data.List.Nodup
/-
C38 - C43, C64 (report part) and C65.
-/
set_option linter.unusedSectionVars false

namespace Verif.Report
open Lru

variable {D : Type} [DoubleOps D] {E : Env} {cfg : AggConfig} {h : Hist D} {s : AggState (OpAgg D)}

/-! ### Groups -/

theorem pend_split {arr : List (Arrival D)} {out : List (Group D)} {outOps : List (Operation D)}
    {grp : Bytes → List (Arrival D)} {L : List (Ent (OpAgg D))} (g : GI E.clk cfg arr out outOps grp L)
    (hk : (L.map (·.key)).Nodup) (k : Bytes) :
    ((L.map (fun x => (⟨x.key, grp x.key⟩ : Group D))).filter (·.sig == k)).flatMap (·.members) = grp k := by
  by_cases hx : ∃ x ∈ L, x.key = k
  · obtain ⟨x, hx, rfl⟩ := hx
    have hf : ∀ (l : List (Ent (OpAgg D))), x ∈ l → (l.map (·.key)).Nodup →
        ((l.map (fun y => (⟨y.key, grp y.key⟩ : Group D))).filter (·.sig == x.key)).flatMap (·.members) =
          grp x.key := by
      intro l
      induction l with
      | nil => intro h; cases h
      | cons y l ih =>
        intro hm hn
        simp only [List.map_cons, List.nodup_cons, List.mem_map, not_exists, not_and] at hn
        rcases List.mem_cons.mp hm with rfl | hm
        · have hnil : (l.map (fun y => (⟨y.key, grp y.key⟩ : Group D))).filter (·.sig == x.key) = [] := by
            rw [List.filter_eq_nil_iff]
            intro z hz
            obtain ⟨u, hu, rfl⟩ := List.mem_map.mp hz
            simpa using hn.1 u hu
          simp [hnil]
        · have hne : (y.key == x.key) = false := by
            simpa using fun e => hn.1 x hm e.symm
          simp only [List.map_cons, List.filter_cons, hne, Bool.false_eq_true, if_false]
          exact ih hm hn.2
    exact hf L hx hk
  · rw [g.absent k (fun x hxm e => hx ⟨x, hxm, e⟩)]
    rw [List.flatMap_eq_nil_iff]
    intro z hz
    simp only [List.mem_filter, List.mem_map, beq_iff_eq] at hz
    obtain ⟨⟨u, hu, rfl⟩, rfl⟩ := hz
    exact absurd ⟨u, hu, rfl⟩ hx

theorem toPartition {arr : List (Arrival D)} {out : List (Group D)} {outOps : List (Operation D)}
    {grp : Bytes → List (Arrival D)} {L : List (Ent (OpAgg D))} (g : GI E.clk cfg arr out outOps grp L)
    (hk : (L.map (·.key)).Nodup) :
    Partition cfg arr out outOps (L.map (fun x => ⟨x.key, grp x.key⟩)) (L.map (fun x => x.val.toProto cfg.U)) := by
  refine ⟨g.sums, ?_, ?_, ?_⟩
  · rw [List.forall₂_map_left_iff, List.forall₂_map_right_iff, List.forall₂_same]
    exact fun x hx => (g.ent x hx).toSum
  · simpa [List.map_map, Function.comp_def] using hk
  · intro k
    rw [g.split k, pend_split g hk k]

theorem cachedOps_eq {P : Params} {c : Cache (OpAgg D)} {L : List (Ent (OpAgg D))} (hc : s.cache = some c)
    (q : Quiet P L c) : cachedOps cfg s = L.map (fun x => x.val.toProto cfg.U) := by
  unfold cachedOps
  rw [hc, ← q.view, List.map_map]
  rfl

/-- C41 (and C42 in the last part): every flushed operation and every cached one is the aggregate
of a group of accepted operations of one signature; for each signature the groups, flushed ones
first and the cached one last, concatenate to the accepted operations of that signature in order of
arrival. -/
theorem C41_groups (r : Reach E cfg h s) :
    ∃ arr out pend, Arrivals h arr ∧ Partition cfg arr out (flushedOps h) pend (cachedOps cfg s) ∧
      (∀ g ∈ pend, 2 ≤ g.ops.length → (g.ops.flatMap (·.logEntries)).length < 100) := by
  have hi := r.inv
  cases hc : s.cache with
  | none =>
    obtain ⟨_, h1, h2⟩ := hi.none hc
    refine ⟨[], [], [], ?_, ⟨?_, ?_, by simp, by simp⟩, by simp⟩
    · unfold Arrivals; rw [h1]; exact .nil
    · rw [h2]; exact .nil
    · simp [cachedOps, hc]
  | some c =>
    obtain ⟨_, arr, out, grp, L, ha, q, g, _⟩ := hi.some c hc
    refine ⟨arr, out, L.map (fun x => ⟨x.key, grp x.key⟩), ha.weak, ?_, ?_⟩
    · rw [cachedOps_eq hc q]
      exact toPartition g q.keys
    · intro gr hg
      obtain ⟨x, hx, rfl⟩ := List.mem_map.mp hg
      intro hl
      obtain ⟨⟨m, ms, hgx, hagg, _⟩, _, hsmall⟩ := g.ent x hx
      have hl' : 2 ≤ (grp x.key).length := by simpa [Group.ops] using hl
      have hb := hsmall hl'
      have hlog := (C19_log_entries cfg.H cfg.U cfg.kinds m.op (ms.map (·.op)) x.val hagg).2
      have hops : (⟨x.key, grp x.key⟩ : Group D).ops = m.op :: ms.map (·.op) := by simp [Group.ops, hgx]
      rw [hops]
      by_contra hcon
      rw [hlog.mpr (by omega)] at hb
      cases hb

/-- C42: a cached operation that is the result of a merge has fewer than 100 log entries. -/
theorem C42_merged_below_limit (r : Reach E cfg h s) :
    ∃ arr out pend, Arrivals h arr ∧ Partition cfg arr out (flushedOps h) pend (cachedOps cfg s) ∧
      List.Forall₂ (fun (g : Group D) (o : Operation D) => 2 ≤ g.ops.length → o.logEntries.length < 100)
        pend (cachedOps cfg s) := by
  obtain ⟨arr, out, pend, ha, hp, hl⟩ := C41_groups r
  refine ⟨arr, out, pend, ha, hp, ?_⟩
  have := hp.pend_sum
  clear hp
  generalize cachedOps cfg s = ops at this
  induction this with
  | nil => exact .nil
  | cons h1 _ ih =>
    refine .cons ?_ (ih (fun g hg => hl g (by simp [hg])))
    intro h2
    obtain ⟨x, xs, a, hops, hagg, rfl, _⟩ := h1
    rw [(C19_log_entries cfg.H cfg.U cfg.kinds x xs a hagg).1, ← hops]
    exact hl _ (by simp) h2

/-! ### Conservation -/

theorem perm_of_filters {α κ : Type} [BEq κ] [LawfulBEq κ] (f : α → κ) (A B : List α)
    (hAB : ∀ k, A.filter (fun a => f a == k) = B.filter (fun a => f a == k)) : A.Perm B := by
  classical
  rw [List.perm_iff_count]
  intro a
  have hc : ∀ l : List α, (l.filter (fun b => f b == f a)).count a = l.count a := by
    intro l
    rw [List.count_filter (by simp)]
  rw [← hc A, ← hc B, hAB]

theorem filter_groups (sig : Arrival D → Bytes) (gs : List (Group D))
    (hu : ∀ g ∈ gs, ∀ m ∈ g.members, sig m = g.sig) (k : Bytes) :
    (gs.flatMap (·.members)).filter (fun a => sig a == k) = (gs.filter (·.sig == k)).flatMap (·.members) := by
  induction gs with
  | nil => rfl
  | cons g gs ih =>
    simp only [List.mem_cons, forall_eq_or_imp] at hu
    rw [List.flatMap_cons, List.filter_append, ih hu.2]
    by_cases hk : g.sig = k
    · have : g.members.filter (fun a => sig a == k) = g.members := by
        rw [List.filter_eq_self]
        intro m hm; simp [hu.1 m hm, hk]
      simp [this, hk]
    · have : g.members.filter (fun a => sig a == k) = [] := by
        rw [List.filter_eq_nil_iff]
        intro m hm; simp [hu.1 m hm, hk]
      simp [this, hk]

theorem Partition.perm {arr : List (Arrival D)} {out pend : List (Group D)} {outOps pendOps : List (Operation D)}
    (p : Partition cfg arr out outOps pend pendOps) : arr.Perm ((out ++ pend).flatMap (·.members)) := by
  have hu : ∀ (gs : List (Group D)) (ops : List (Operation D)), List.Forall₂ (Group.Sum cfg) gs ops →
      ∀ g ∈ gs, ∀ m ∈ g.members, reportOperationSig cfg.H m.op = g.sig := by
    intro gs ops hf
    induction hf with
    | nil => simp
    | cons h1 _ ih =>
      intro g hg
      rcases List.mem_cons.mp hg with rfl | hg
      · obtain ⟨_, _, _, _, _, _, h2⟩ := h1; exact h2
      · exact ih g hg
  refine perm_of_filters (fun a : Arrival D => reportOperationSig cfg.H a.op) _ _ (fun k => ?_)
  rw [p.split k, List.flatMap_append, List.filter_append,
    filter_groups (fun a : Arrival D => reportOperationSig cfg.H a.op) out (hu _ _ p.out_sum),
    filter_groups (fun a : Arrival D => reportOperationSig cfg.H a.op) pend (hu _ _ p.pend_sum)]

theorem arrivals_ops {arr : List (Arrival D)} (ha : Arrivals h arr) : arr.map (·.op) = acceptedOps h := by
  unfold Arrivals at ha
  unfold acceptedOps
  generalize accepted h = l at ha
  induction ha with
  | nil => rfl
  | cons h1 _ ih => simp [h1.1, ih]

/-- Anything additive over the groups is conserved. -/
theorem conserve {M : Type} (φ : Operation D → List M) (r : Reach E cfg h s)
    (hφ : ∀ (g : Group D) (o : Operation D), g.Sum cfg o → (∀ p ∈ g.ops, p ∈ acceptedOps h) →
      (φ o).Perm (g.ops.flatMap φ)) :
    ((flushedOps h ++ cachedOps cfg s).flatMap φ).Perm ((acceptedOps h).flatMap φ) := by
  obtain ⟨arr, out, pend, ha, hp, _⟩ := C41_groups r
  have hperm := hp.perm
  have hops := arrivals_ops ha
  have hall : List.Forall₂ (Group.Sum cfg) (out ++ pend) (flushedOps h ++ cachedOps cfg s) :=
    List.rel_append hp.out_sum hp.pend_sum
  have hacc : ((out ++ pend).flatMap (·.ops)).Perm (acceptedOps h) := by
    rw [← hops]
    have : (out ++ pend).flatMap (·.ops) = ((out ++ pend).flatMap (·.members)).map (·.op) := by
      rw [List.map_flatMap]; rfl
    rw [this]
    exact (hperm.map _).symm
  have hin : ∀ g ∈ out ++ pend, ∀ p ∈ g.ops, p ∈ acceptedOps h := fun g hg p hpm =>
    hacc.subset (List.mem_flatMap.mpr ⟨g, hg, hpm⟩)
  have hstep : ∀ (gs : List (Group D)) (os : List (Operation D)), List.Forall₂ (Group.Sum cfg) gs os →
      (∀ g ∈ gs, ∀ p ∈ g.ops, p ∈ acceptedOps h) → (os.flatMap φ).Perm ((gs.flatMap (·.ops)).flatMap φ) := by
    intro gs os hf
    induction hf with
    | nil => simp
    | cons h1 _ ih =>
      intro hin
      simp only [List.mem_cons, forall_eq_or_imp] at hin
      simp only [List.flatMap_cons, List.flatMap_append]
      exact (hφ _ _ h1 hin.1).append (ih hin.2)
  exact (hstep _ _ hall hin).trans (hacc.flatMap_right _)

/-- C38: the log entries of flushed and cached operations together are those of the accepted
operations, with multiplicities. -/
theorem C38_log_entries (r : Reach E cfg h s) :
    ((flushedOps h ++ cachedOps cfg s).flatMap (·.logEntries)).Perm ((acceptedOps h).flatMap (·.logEntries)) := by
  refine conserve _ r ?_
  rintro g o ⟨x, xs, a, hops, hagg, rfl, _⟩ _
  rw [(C19_log_entries cfg.H cfg.U cfg.kinds x xs a hagg).1, ← hops]

theorem reported_append (H : Bytes → Bytes) (a b : List (Operation D)) (n k : Bytes) :
    reported H (a ++ b) n k = reported H a n k ++ reported H b n k := by
  simp [reported, List.flatMap_append]

theorem reported_one (H : Bytes → Bytes) (o : Operation D) (n k : Bytes) :
    reported H [o] n k = (listed o n).filter (fun v => decide (metricValueSig H v = k)) := by
  unfold reported listed
  rw [List.filter_flatMap]
  simp

/-- The total of an integer metric over some operations. -/
def intTotal (H : Bytes → Bytes) (ops : List (Operation D)) (n k : Bytes) : Int := ((reported H ops n k).map intOf).sum

/-- C38: the totals of integer delta metrics are conserved: for every metric and label set, flushed
plus cached equals accepted. -/
theorem C38_delta_totals (r : Reach E cfg h s) (n k : Bytes) (hk : IsDelta cfg.kinds n)
    (hint : ∀ v ∈ reported cfg.H (acceptedOps h) n k, IsInt v) :
    intTotal cfg.H (flushedOps h) n k + intTotal cfg.H (cachedOps cfg s) n k =
      intTotal cfg.H (acceptedOps h) n k := by
  have hmem : ∀ (ops : List (Operation D)) (v : MetricValue D), v ∈ reported cfg.H ops n k ↔
      ∃ o ∈ ops, v ∈ reported cfg.H [o] n k := by
    intro ops v
    simp only [reported, List.mem_flatMap, List.mem_singleton]
    constructor
    · rintro ⟨o, ho, h1⟩; exact ⟨o, ho, o, rfl, h1⟩
    · rintro ⟨o, ho, o', rfl, h1⟩; exact ⟨o', ho, h1⟩
  obtain ⟨arr, out, pend, ha, hp, _⟩ := C41_groups r
  have hops := arrivals_ops ha
  have hall : List.Forall₂ (Group.Sum cfg) (out ++ pend) (flushedOps h ++ cachedOps cfg s) :=
    List.rel_append hp.out_sum hp.pend_sum
  have hacc : ((out ++ pend).flatMap (·.ops)).Perm (acceptedOps h) := by
    rw [← hops]
    have : (out ++ pend).flatMap (·.ops) = ((out ++ pend).flatMap (·.members)).map (·.op) := by
      rw [List.map_flatMap]; rfl
    rw [this]
    exact (hp.perm.map _).symm
  have hin : ∀ g ∈ out ++ pend, ∀ p ∈ g.ops, p ∈ acceptedOps h := fun g hg p hpm =>
    hacc.subset (List.mem_flatMap.mpr ⟨g, hg, hpm⟩)
  have hone : ∀ (g : Group D) (o : Operation D), g.Sum cfg o → (∀ p ∈ g.ops, p ∈ acceptedOps h) →
      intTotal cfg.H [o] n k = intTotal cfg.H g.ops n k := by
    rintro g o ⟨x, xs, a, hgo, hagg, rfl, _⟩ hin
    have hint' : ∀ v ∈ reported cfg.H (x :: xs) n k, IsInt v := by
      intro v hv
      rw [← hgo] at hv
      obtain ⟨p, hpm, hv⟩ := (hmem _ v).mp hv
      exact hint v ((hmem _ v).mpr ⟨p, hin p hpm, hv⟩)
    obtain ⟨h1, h2⟩ := C16_delta_int_sum cfg.H cfg.U cfg.kinds x xs a hagg n k hk hint'
    unfold intTotal
    rw [reported_one, hgo]
    by_cases he : reported cfg.H (x :: xs) n k = []
    · rw [h1 he, he]
    · obtain ⟨rr, hr, hv, _⟩ := h2 he
      rw [hr]
      simp [intOf, hv]
  have hstep : ∀ (gs : List (Group D)) (os : List (Operation D)), List.Forall₂ (Group.Sum cfg) gs os →
      (∀ g ∈ gs, ∀ p ∈ g.ops, p ∈ acceptedOps h) →
      intTotal cfg.H os n k = intTotal cfg.H (gs.flatMap (·.ops)) n k := by
    intro gs os hf
    induction hf with
    | nil => intro _; rfl
    | @cons g o gs os h1 _ ih =>
      intro hin
      simp only [List.mem_cons, forall_eq_or_imp] at hin
      have e1 : intTotal cfg.H (o :: os) n k = intTotal cfg.H [o] n k + intTotal cfg.H os n k := by
        show intTotal cfg.H ([o] ++ os) n k = _
        unfold intTotal; rw [reported_append]; simp
      have e2 : intTotal cfg.H ((g :: gs).flatMap (·.ops)) n k =
          intTotal cfg.H g.ops n k + intTotal cfg.H (gs.flatMap (·.ops)) n k := by
        rw [List.flatMap_cons]
        unfold intTotal; rw [reported_append]; simp
      rw [e1, e2, hone g o h1 hin.1, ih hin.2]
  have hperm : intTotal cfg.H ((out ++ pend).flatMap (·.ops)) n k = intTotal cfg.H (acceptedOps h) n k :=
    sum_perm _ _ ((reported_perm cfg.H _ _ hacc n k).map _)
  rw [← hperm, ← hstep _ _ hall hin]
  unfold intTotal
  rw [reported_append]
  simp

/-- C38: after `FlushAll` nothing is cached, so everything accepted has been flushed. -/
theorem C38_flushAll_empties (r : Reach E cfg h s) {s' : AggState (OpAgg D)} {st : Status}
    {fl : List (ReportRequest D)} (hs : step E cfg .flushAll s = .ok (s', st, fl)) : cachedOps cfg s' = [] := by
  have hi := r.inv
  simp only [step, flushAll, withBuffer] at hs
  cases hc : s.cache with
  | none =>
    rw [hc] at hs
    cases hs
    simp [cachedOps, hc]
  | some cc =>
    obtain ⟨hn, arr, out, grp, L, ha, q, g, _⟩ := hi.some cc hc
    obtain ⟨w', G, h1, q1, hp, t1, e1⟩ := removeAll_quiet E (addDel cfg)
      { cache := cc, tick := s.tick, ext := some [] } q
    rw [hc] at hs
    simp only [onDelete_eq, h1, bind, Except.bind] at hs
    cases hs
    have := q1.view
    simp only [List.map_eq_nil_iff] at this
    simp [cachedOps, this]

/-! ### The rest -/

/-- C39: every request passed to the flush callback has the configured service name and config id
and between 1 and 10 operations. -/
theorem C39_requests_well_formed (r : Reach E cfg h s) :
    ∀ ev ∈ h, ∀ q ∈ ev.flushed, q.serviceName = cfg.serviceName ∧ q.serviceConfigId = cfg.serviceConfigId ∧
      1 ≤ q.operations.length ∧ q.operations.length ≤ 10 :=
  fun ev hev q hq => r.inv.wf ev hev q hq

/-- C40: `Report` is rejected for a wrong service name, passed through (NOT_FOUND) iff some operation
is important or caching is disabled, and otherwise accepted; only an accepted report changes the
state or flushes anything. -/
theorem C40_pass_through (r : Reach E cfg h s) (q : ReportRequest D) {s' : AggState (OpAgg D)} {st : Status}
    {fl : List (ReportRequest D)} (hs : step E cfg (.report q) s = .ok (s', st, fl)) :
    (st = .invalidArgument ↔ q.serviceName ≠ cfg.serviceName) ∧
    (st = .notFound ↔ q.serviceName = cfg.serviceName ∧
      ((∃ o ∈ q.operations, o.importance ≠ importanceLow) ∨ cfg.numEntries ≤ 0)) ∧
    (st = .ok ↔ q.serviceName = cfg.serviceName ∧
      (∀ o ∈ q.operations, o.importance = importanceLow) ∧ 0 < cfg.numEntries) ∧
    (st ≠ .ok → s' = s ∧ fl = []) := by
  have hi := r.inv
  have hhigh : hasHighImportant q = true ↔ ∃ o ∈ q.operations, o.importance ≠ importanceLow := by
    simp [hasHighImportant]
  have hnone : s.cache = none ↔ cfg.numEntries ≤ 0 := by
    constructor
    · exact fun hc => (hi.none hc).1
    · intro hn
      cases hc : s.cache with
      | none => rfl
      | some c => have := (hi.some c hc).1; omega
  simp only [step, report] at hs
  by_cases h1 : q.serviceName ≠ cfg.serviceName
  · rw [if_pos h1] at hs
    cases hs
    simp [h1]
  · rw [if_neg h1] at hs
    simp only [ne_eq, not_not] at h1
    by_cases h2 : (hasHighImportant q || s.cache.isNone) = true
    · rw [if_pos h2] at hs
      cases hs
      simp only [Bool.or_eq_true, hhigh, Option.isNone_iff_eq_none, hnone] at h2
      refine ⟨by simp [h1], by simp [h1, h2], ?_, by simp⟩
      simp only [reduceCtorEq, h1, true_and, false_iff, not_and]
      intro ha hn
      rcases h2 with ⟨o, ho, hne⟩ | h2
      · exact hne (ha o ho)
      · omega
    · rw [if_neg h2] at hs
      simp only [Bool.or_eq_true, hhigh, Option.isNone_iff_eq_none, hnone, not_or, not_exists, not_and,
        ne_eq, not_not, Int.not_le] at h2
      have hst : st = .ok := by
        unfold withBuffer at hs
        cases hc : s.cache with
        | none => have := hnone.mp hc; omega
        | some c =>
          rw [hc] at hs
          simp only [bind, Except.bind] at hs
          split at hs
          · cases hs
          · rename_i v hv
            split at hv
            · cases hv
            · cases hv; cases hs; rfl
      subst hst
      refine ⟨by simp [h1], ?_, ?_, by simp⟩
      · simp only [reduceCtorEq, h1, true_and, false_iff, not_or, not_exists, not_and, ne_eq, not_not]
        exact ⟨h2.1, by omega⟩
      · simp only [h1, true_and, true_iff]
        exact h2

/-- C43: with a clock that does not go backwards, `Flush` (reading the clock at the call) flushes
exactly the cached groups whose first operation arrived more than the flush interval before:
`out2` are the flushed groups, `pend` those that stay. -/
theorem C43_flush_exact (m : Mono E.clk) (r : Reach E cfg h s) (hfl : 0 ≤ cfg.flushMs)
    {s' : AggState (OpAgg D)} {st : Status} {fl : List (ReportRequest D)}
    (hs : step E cfg .flush s = .ok (s', st, fl)) :
    ∃ arr out1 out2 pend, ArrivalsAt h arr ∧
      Partition cfg arr (out1 ++ out2) (flushedOps h ++ fl.flatMap (·.operations)) pend (cachedOps cfg s') ∧
      out1.length = (flushedOps h).length ∧
      (∀ g ∈ out2, ∃ a, g.members.head? = some a ∧ E.clk a.tick + cfg.cyc cfg.flushMs.toNat < E.clk s.tick) ∧
      (∀ g ∈ pend, ∃ a, g.members.head? = some a ∧ E.clk s.tick ≤ E.clk a.tick + cfg.cyc cfg.flushMs.toNat) := by
  have hi := r.inv
  simp only [step, flush, withBuffer] at hs
  cases hc : s.cache with
  | none =>
    rw [hc] at hs
    cases hs
    obtain ⟨_, h1, h2⟩ := hi.none hc
    refine ⟨[], [], [], [], ?_, ⟨?_, ?_, by simp, by simp⟩, ?_, by simp, by simp⟩
    · unfold ArrivalsAt; rw [h1]; exact .nil
    · rw [h2]; exact .nil
    · simp [cachedOps, hc]
    · simp [h2]
  | some cc =>
    obtain ⟨hn, arr, out, grp, L, ha, q, g, hsort⟩ := hi.some cc hc
    obtain ⟨w', h1, q1, t1, e1, _⟩ := removeExpired_quiet E (addDel cfg)
      { cache := cc, tick := s.tick, ext := some [] } q (fun _ => (hsort m).1)
    rw [hc] at hs
    simp only [onDelete_eq, h1, bind, Except.bind] at hs
    cases hs
    have hlim : (params cfg).limit = cfg.cyc cfg.flushMs.toNat := by
      have : ¬ cfg.flushMs < 0 := by omega
      simp [params, AggConfig.timeout, this]
    have hlim0 : 0 ≤ (params cfg).limit := by rw [hlim]; omega
    have hnow : World.now E ({ cache := cc, tick := s.tick, ext := some [] } : World (Slot (ReportRequest D)) (OpAgg D)) =
      E.clk s.tick := rfl
    rw [hnow] at q1 e1
    obtain ⟨items, hit, hw, ho⟩ := outOf_spec cfg (goneOf (params cfg) (E.clk s.tick) L) [] (by simp [Wf])
    obtain ⟨grp', g'⟩ := g.evict _ q.keys (keep_perm (params cfg) (E.clk s.tick) L)
    have hfo : flushOut s.callback (w'.ext.getD []) = items := by rw [e1, hit]; simp [flushOut, hi.cb]
    rw [hfo]
    have hitems : items.flatMap (·.operations) =
        (goneOf (params cfg) (E.clk s.tick) L).map (fun x => x.val.toProto cfg.U) := by
      have := ho; simp only [itemOps, List.flatMap_nil, List.nil_append] at this; exact this
    have hhead : ∀ (x : Ent (OpAgg D)) (g : List (Arrival D)), EntOk E.clk cfg x g → ∃ a, g.head? = some a ∧ E.clk a.tick = x.used := by
      intro x g hx
      obtain ⟨mm, ms, rfl, _, hu⟩ := hx.sum
      exact ⟨mm, rfl, hu.symm⟩
    refine ⟨arr, out, (goneOf (params cfg) (E.clk s.tick) L).map (fun x => ⟨x.key, grp x.key⟩),
      (keepOf (params cfg) (E.clk s.tick) L).map (fun x => ⟨x.key, grp' x.key⟩), ha.strict hlim0, ?_, g.sums.length_eq, ?_, ?_⟩
    · rw [hitems, cachedOps_eq (s := { s with cache := some w'.cache, tick := w'.tick }) rfl q1]
      exact toPartition g' q1.keys
    · intro gr hg
      obtain ⟨x, hx, rfl⟩ := List.mem_map.mp hg
      have hxL : x ∈ L := (keep_perm (params cfg) (E.clk s.tick) L).subset (by simp [hx])
      obtain ⟨a, h2, h3⟩ := hhead x _ (g.ent x hxL)
      refine ⟨a, h2, ?_⟩
      have := (mem_gone (E.clk s.tick) x hx).2
      omega
    · intro gr hg
      obtain ⟨x, hx, rfl⟩ := List.mem_map.mp hg
      obtain ⟨a, h2, h3⟩ := hhead x _ (g'.ent x hx)
      refine ⟨a, h2, ?_⟩
      have := mem_keep (E.clk s.tick) (hsort m).1 hlim0 x hx
      omega

/-- Since a `Flush` no pending group is older than the flush interval was then, whatever calls followed. -/
theorem young_since_flush (m : Mono E.clk) (r : Reach E cfg h s) (hfl : 0 ≤ cfg.flushMs) :
    ∃ arr out pend, ArrivalsAt h arr ∧ Partition cfg arr out (flushedOps h) pend (cachedOps cfg s) ∧
      ∀ ev ∈ h, ev.call = .flush → ∀ g ∈ pend, ∃ a, g.members.head? = some a ∧ E.clk ev.first ≤ E.clk a.tick + cfg.cyc cfg.flushMs.toNat := by
  have hi := r.inv
  cases hc : s.cache with
  | none =>
    obtain ⟨_, h1, h2⟩ := hi.none hc
    refine ⟨[], [], [], ?_, ⟨?_, ?_, by simp, by simp⟩, by simp⟩
    · unfold ArrivalsAt; rw [h1]; exact .nil
    · rw [h2]; exact .nil
    · simp [cachedOps, hc]
  | some cc =>
    obtain ⟨hn, arr, out, grp, L, ha, q, g, hsort⟩ := hi.some cc hc
    have hlim : (params cfg).limit = cfg.cyc cfg.flushMs.toNat := by
      have : ¬ cfg.flushMs < 0 := by omega
      simp [params, AggConfig.timeout, this]
    have hlim0 : 0 ≤ (params cfg).limit := by rw [hlim]; omega
    refine ⟨arr, out, L.map (fun x => ⟨x.key, grp x.key⟩), ha.strict hlim0, ?_, ?_⟩
    · rw [cachedOps_eq hc q]
      exact toPartition g q.keys
    · intro ev hev hf gr hg
      obtain ⟨x, hx, rfl⟩ := List.mem_map.mp hg
      obtain ⟨mm, ms, h1, _, hu⟩ := (g.ent x hx).sum
      refine ⟨mm, by simp [h1], ?_⟩
      have := hi.young cc hc m hlim0 ev hev hf x (by rw [q.view]; exact hx)
      omega

/-- C64, report part: with a clock that does not go backwards, or with assertions compiled out, a
call returns unless merging overflows an integer. -/
theorem C64_report_returns (r : Reach E cfg h s) (hm : E.dbg = true → Mono E.clk) (c : Call D) :
    (∃ res, step E cfg c s = .ok res) ∨ step E cfg c s = .error .signedOverflow := by
  rcases step_inv E cfg r.inv hm c with he | ⟨s', st, fl, h1, _⟩
  · exact Or.inr he
  · exact Or.inl ⟨_, h1⟩

/-- C64: `Flush` and `FlushAll` always return. -/
theorem C64_report_flush_returns (r : Reach E cfg h s) (hm : E.dbg = true → Mono E.clk) :
    (∃ s' fl, step E cfg .flush s = .ok (s', .ok, fl)) ∧ ∃ s' fl, step E cfg .flushAll s = .ok (s', .ok, fl) := by
  have hi := r.inv
  constructor
  · simp only [step, flush, withBuffer]
    cases hc : s.cache with
    | none => exact ⟨_, _, rfl⟩
    | some cc =>
      obtain ⟨_, _, _, _, L, _, q, _, hs⟩ := hi.some cc hc
      obtain ⟨w', h1, _⟩ := removeExpired_quiet E (addDel cfg)
        { cache := cc, tick := s.tick, ext := some [] } q (fun hd => (hs (hm hd)).1)
      simp only [onDelete_eq, h1, bind, Except.bind]
      exact ⟨_, _, rfl⟩
  · simp only [step, flushAll, withBuffer]
    cases hc : s.cache with
    | none => exact ⟨_, _, rfl⟩
    | some cc =>
      obtain ⟨_, _, _, _, L, _, q, _, hs⟩ := hi.some cc hc
      obtain ⟨w', G, h1, _⟩ := removeAll_quiet E (addDel cfg)
        { cache := cc, tick := s.tick, ext := some [] } q
      simp only [onDelete_eq, h1, bind, Except.bind]
      exact ⟨_, _, rfl⟩

/-- C65: at most `num_entries` operations are cached, of distinct signatures. -/
theorem C65_bounded (r : Reach E cfg h s) (hn : 0 < cfg.numEntries) :
    ((cachedOps cfg s).length : Int) ≤ cfg.numEntries := by
  cases hc : s.cache with
  | none => simp [cachedOps, hc]; omega
  | some c =>
    obtain ⟨_, _, _, _, L, _, q, _, _⟩ := r.inv.some c hc
    have := q.room
    rw [cachedOps_eq hc q, List.length_map, ← q.view, List.length_map]
    exact this

/-! ### Concrete runs -/
section examples

/-- Make the calls one after the other, from a new aggregator with a flush callback. -/
def run (E : Env) (cfg : AggConfig) (cs : List (Call D)) : Res (Hist D × AggState (OpAgg D)) := do
  let s ← new E cfg
  cs.foldlM (fun p c => do
    let (s', st, fl) ← step E cfg c p.2
    .ok (⟨c, st, fl, p.2.tick, s'.tick⟩ :: p.1, s')) ([], s.setFlushCallback true)

theorem run_reach (cs : List (Call D)) (h : Hist D) (s : AggState (OpAgg D)) (hr : run E cfg cs = .ok (h, s)) :
    Reach E cfg h s := by
  unfold run at hr
  cases hn : new (D := D) E cfg with
  | error e => simp [hn, bind, Except.bind] at hr
  | ok s0 =>
    rw [hn] at hr
    simp only [bind, Except.bind] at hr
    have hgen : ∀ (cs : List (Call D)) (h0 : Hist D) (s0 : AggState (OpAgg D)), Reach E cfg h0 s0 →
        cs.foldlM (fun (p : Hist D × AggState (OpAgg D)) c => do
          let (s', st, fl) ← step E cfg c p.2
          Except.ok (⟨c, st, fl, p.2.tick, s'.tick⟩ :: p.1, s')) (h0, s0) = Except.ok (h, s) → Reach E cfg h s := by
      intro cs
      induction cs with
      | nil =>
        intro h0 s0 r hr
        simp only [List.foldlM_nil, pure, Except.pure] at hr
        cases hr; exact r
      | cons c cs ih =>
        intro h0 s0 r hr
        simp only [List.foldlM_cons, bind, Except.bind] at hr
        cases hst : step E cfg c s0 with
        | error e => rw [hst] at hr; cases hr
        | ok v =>
          obtain ⟨s', st, fl⟩ := v
          rw [hst] at hr
          exact ih _ _ (.call r hst) hr
    exact hgen cs [] _ (.init hn) hr

/-- Clock readings 1 ms apart. -/
def exEnv : Env := ⟨fun i => 1000 * (i : Int), true, 0, .insertion⟩

theorem exEnv_mono : Mono exEnv.clk := by
  constructor <;> simp [exEnv]

/-- Service "s", two entries, flush interval 3 ms. -/
def exCfg : AggConfig := ⟨[115], [49], 2, 3, 0, none, fun b => b, .insertion, fun ms => 1000 * ms⟩

/-- An operation named `n`. -/
def exNamed (n : UInt8) (i : Int) : Operation Int := { exOp i 1 2 with operationName := [n] }

def exReport (os : List (Operation Int)) : Call Int := .report ⟨[115], os, [49]⟩

/-- Two operations are merged; a third signature evicts them; `Flush` sends what is old. -/
example : ∃ h s, run exEnv exCfg
      [exReport [exNamed 1 5, exNamed 2 1], exReport [exNamed 1 7], exReport [exNamed 3 4]] = .ok (h, s) ∧
    Reach exEnv exCfg h s ∧ (acceptedOps h).length = 4 ∧
    intTotal (fun b => b) (acceptedOps h) [109] (metricValueSig (fun b => b) (exVal 5 1 2)) = 17 ∧
    (flushedOps h).map (fun o => (o.operationName, o.logEntries.length)) = [([1], 2)] ∧
    (cachedOps exCfg s).map (·.operationName) = [[3], [2]] ∧
    ∃ s' fl, step exEnv exCfg .flush s = .ok (s', .ok, fl) ∧
      fl.map (fun r => (r.serviceName, r.operations.map (·.operationName))) = [([115], [[2]])] ∧
      (cachedOps exCfg s').map (·.operationName) = [[3]] := by
  have : ∃ h s, run exEnv exCfg
      [exReport [exNamed 1 5, exNamed 2 1], exReport [exNamed 1 7], exReport [exNamed 3 4]] = .ok (h, s) ∧
    (acceptedOps h).length = 4 ∧
    intTotal (fun b => b) (acceptedOps h) [109] (metricValueSig (fun b => b) (exVal 5 1 2)) = 17 ∧
    (flushedOps h).map (fun o => (o.operationName, o.logEntries.length)) = [([1], 2)] ∧
    (cachedOps exCfg s).map (·.operationName) = [[3], [2]] ∧
    ∃ s' fl, step exEnv exCfg .flush s = .ok (s', .ok, fl) ∧
      fl.map (fun r => (r.serviceName, r.operations.map (·.operationName))) = [([115], [[2]])] ∧
      (cachedOps exCfg s').map (·.operationName) = [[3]] := by
    refine ⟨_, _, rfl, ?_, ?_, ?_, ?_, _, _, rfl, ?_, ?_⟩ <;> decide
  obtain ⟨h, s, h1, h2⟩ := this
  exact ⟨h, s, h1, run_reach _ _ _ h1, h2⟩

/-- An operation with `n` log entries. -/
def exLogs (n : Nat) : Operation Int := { exOp 0 1 2 with logEntries := List.replicate n [1] }

/-- The limit of 100 log entries is not enforced on an operation that is inserted, only on merging:
one operation with 100 entries stays in the cache, the next one, with one more, flushes it. -/
theorem C42_insert_unchecked :
    ∃ h s, run exEnv exCfg [exReport [exLogs 100]] = .ok (h, s) ∧
      flushedOps h = [] ∧ (cachedOps exCfg s).map (·.logEntries.length) = [100] ∧
      ∃ s' fl, step exEnv exCfg (exReport [exLogs 1]) s = .ok (s', .ok, fl) ∧
        fl.map (fun r => r.operations.map (·.logEntries.length)) = [[101]] ∧ cachedOps exCfg s' = [] := by
  refine ⟨_, _, rfl, ?_, ?_, _, _, rfl, ?_, ?_⟩ <;> decide +kernel

end examples
end Verif.Report
