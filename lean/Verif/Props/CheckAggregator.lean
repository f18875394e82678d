import Verif.Lemmas.CheckAggregator
import Verif.Props.ReportAggregator
/-
C31 - C37, C66 - C69.
-/
set_option linter.unusedSectionVars false

namespace Verif.Check
open Lru
open Report (intTotal)

variable {D : Type} [DoubleOps D] {E : Env} {cfg : AggConfig} {h : Hist D} {s s' : AggState (Elem D)}
  {out : Out} {fl : List (CheckRequest D)}

/-- The flush interval in microseconds. -/
theorem interval_eq (cfg : AggConfig) : interval cfg = 1000 * cfg.flushMs := by
  unfold interval
  rw [show cfg.flushMs * 1000000 = (cfg.flushMs * 1000) * 1000 by omega, Int.mul_tdiv_cancel _ (by decide)]
  omega

/-- A call of `Check` that may be answered by the cache. -/
theorem check_cases (r : Reach E cfg h s) (q : CheckRequest D) (hs : step E cfg (.check q) s = .ok (s', out, fl)) :
    (out.status ≠ .ok ∧ s' = s ∧ fl = [] ∧ (¬ Cacheable cfg q ∨ s.cache = none)) ∨
    Cacheable cfg q ∧ ∃ (c' : Cache (Elem D)) (L L' : List (CEnt D)) (o : Operation D), q.operation = some o ∧
      (∃ c, s.cache = some c ∧ Quiet (params cfg) L c) ∧ AInv E cfg h L ∧
      (Mono E.clk → SortedT E s.tick L) ∧ s'.cache = some c' ∧ Quiet (params cfg) L' c' ∧
      (let K := keepOf (params cfg) (E.clk s.tick) L
       let k := checkRequestSig cfg.H q
       ((∀ x ∈ K, x.key ≠ k) ∧ out = ⟨.notFound, none⟩ ∧ L' = K) ∨
       ∃ x v t2, x ∈ K ∧ x.key = k ∧ checkElem E cfg o x.val (s.tick + ticksOf (params cfg)) = .ok (v, t2, out) ∧
         L' = putL true k v (E.clk t2) K ∧ s'.tick = t2 + 1) := by
  cases hc : s.cache with
  | none =>
    obtain ⟨out', h1, h2⟩ := step_none E cfg hc (.check q)
    rw [hs] at h1
    cases h1
    exact Or.inl ⟨h2 q rfl, rfl, rfl, Or.inr rfl⟩
  | some c =>
    by_cases hca : Cacheable cfg q
    · right
      refine ⟨hca, ?_⟩
      obtain ⟨c', L, L', G, G', hq, ha, hso, hst, hp, hc', hq', rfl, _⟩ := r.step hs hc
      obtain ⟨o, ho, him⟩ := hca.2
      refine ⟨c', L, L', o, ho, ⟨c, rfl, hq⟩, ha, hso, hc', hq', ?_⟩
      simp only [aStep, ho] at hst
      rw [if_neg (by simp [hca.1]), if_neg (by simp [him])] at hst
      simp only
      cases hf : findL (checkRequestSig cfg.H q) (keepOf (params cfg) (E.clk s.tick) L) with
      | none =>
        rw [hf] at hst
        simp only [Except.ok.injEq, Prod.mk.injEq] at hst
        obtain ⟨rfl, _, rfl, _⟩ := hst
        exact Or.inl ⟨findL_none.mp hf, rfl, rfl⟩
      | some x =>
        rw [hf] at hst
        simp only [bind, Except.bind] at hst
        have hKk : ((keepOf (params cfg) (E.clk s.tick) L).map (·.key)).Nodup :=
          hq.keys.sublist ((keep_sublist _ _ _).map _)
        obtain ⟨hxm, hxk⟩ := (findL_some hKk).mp hf
        cases hce : checkElem E cfg o x.val (s.tick + ticksOf (params cfg)) with
        | error e => rw [hce] at hst; cases hst
        | ok res =>
          obtain ⟨v, t2, out2⟩ := res
          rw [hce] at hst
          simp only [Except.ok.injEq, Prod.mk.injEq] at hst
          obtain ⟨rfl, ht, rfl, _⟩ := hst
          exact Or.inr ⟨x, v, t2, hxm, hxk, hce, rfl, ht.symm⟩
    · left
      refine ⟨?_, ?_, ?_, Or.inl hca⟩
      all_goals
        simp only [step, check] at hs
        by_cases h1 : q.serviceName ≠ cfg.serviceName
        · rw [if_pos h1] at hs; cases hs; simp
        · rw [if_neg h1] at hs
          cases ho : q.operation with
          | none => rw [ho] at hs; cases hs; simp
          | some o =>
            have h2 : o.importance ≠ importanceLow := fun e => hca ⟨by simpa using h1, o, ho, e⟩
            rw [ho] at hs
            simp only [h2, ne_eq, not_false_eq_true, decide_true, Bool.true_or, if_true] at hs
            cases hs; simp

/-- C31: a response returned by `Check` is the one stored last for that signature, and it was stored
after the last `FlushAll`. -/
theorem C31_served_latest (r : Reach E cfg h s) (q : CheckRequest D)
    (hs : step E cfg (.check q) s = .ok (s', out, fl)) (hok : out.status = .ok) :
    ∃ p, out.response = some p ∧ lastCached cfg.H (checkRequestSig cfg.H q) h = some p := by
  rcases check_cases r q hs with ⟨h1, _⟩ | ⟨_, c', L, L', o, ho, _, ha, _, _, _, hcase⟩
  · exact absurd hok h1
  · rcases hcase with ⟨_, h1, _⟩ | ⟨x, v, t2, hx, hk, hce, _⟩
    · rw [h1] at hok; cases hok
    · obtain ⟨_, _, hout, _⟩ := checkElem_spec E cfg o x.val v _ t2 out hce
      have hc := (ha.ent x ((keep_sublist _ _ _).subset hx)).cached
      rcases hout with ⟨h1, _⟩ | ⟨h1, _⟩
      · exact ⟨x.val.response, by rw [h1], by rw [← hk]; exact hc⟩
      · rw [h1] at hok; cases hok

/-- C32: `Check` rejects exactly the requests with a wrong service name or without operation;
important ones, and all if caching is disabled, get NOT_FOUND; in all these cases the aggregator is
unchanged and nothing is flushed. -/
theorem C32_bypass (r : Reach E cfg h s) (q : CheckRequest D) (hs : step E cfg (.check q) s = .ok (s', out, fl)) :
    (out.status = .invalidArgument ↔ q.serviceName ≠ cfg.serviceName ∨ q.operation = none) ∧
    (∀ o, q.serviceName = cfg.serviceName → q.operation = some o →
      (o.importance ≠ importanceLow ∨ cfg.numEntries ≤ 0) → out.status = .notFound) ∧
    (¬ Cacheable cfg q ∨ cfg.numEntries ≤ 0 → s' = s ∧ fl = [] ∧ out.response = none) := by
  have hnone : s.cache = none ↔ cfg.numEntries ≤ 0 := by
    constructor
    · exact fun hc => (r.inv.none hc).1
    · intro hn
      cases hc : s.cache with
      | none => rfl
      | some c => have := (r.inv.some c hc).1; omega
  by_cases h1 : q.serviceName ≠ cfg.serviceName
  · simp only [step, check, if_pos h1] at hs
    cases hs
    refine ⟨by simp [h1], fun o hn => absurd hn h1, fun _ => ⟨rfl, rfl, rfl⟩⟩
  simp only [ne_eq, not_not] at h1
  cases ho : q.operation with
  | none =>
    simp only [step, check, ho, h1, ne_eq, not_true_eq_false, if_false] at hs
    cases hs
    exact ⟨by simp, by simp, fun _ => ⟨rfl, rfl, rfl⟩⟩
  | some o =>
    by_cases h2 : o.importance ≠ importanceLow ∨ cfg.numEntries ≤ 0
    · have : (decide (o.importance ≠ importanceLow) || s.cache.isNone) = true := by
        simpa [Option.isNone_iff_eq_none, hnone] using h2
      simp only [step, check, ho, h1, ne_eq, not_true_eq_false, if_false] at hs
      rw [if_pos (by simpa using this)] at hs
      cases hs
      exact ⟨by simp [h1], fun _ _ _ _ => rfl, fun _ => ⟨rfl, rfl, rfl⟩⟩
    · simp only [not_or, ne_eq, not_not, Int.not_le] at h2
      have hca : Cacheable cfg q := ⟨h1, o, ho, h2.1⟩
      refine ⟨?_, ?_, ?_⟩
      · simp only [h1, ne_eq, not_true_eq_false, reduceCtorEq, or_self, iff_false]
        rcases check_cases r q hs with ⟨_, _, _, h3⟩ | ⟨_, c', L, L', o', _, _, _, _, _, _, hcase⟩
        · rcases h3 with h3 | h3
          · exact absurd hca h3
          · have := hnone.mp h3; omega
        · rcases hcase with ⟨_, h3, _⟩ | ⟨x, v, t2, _, _, hce, _⟩
          · rw [h3]; simp
          · obtain ⟨_, _, hout, _⟩ := checkElem_spec E cfg o' x.val v _ t2 out hce
            rcases hout with ⟨h3, _⟩ | ⟨h3, _⟩ <;> simp [h3]
      · intro o' _ ho' h3
        cases ho'
        rcases h3 with h3 | h3
        · exact absurd h2.1 h3
        · omega
      · rintro (h3 | h3)
        · exact absurd hca h3
        · omega

/-- C33: a response is served only if less than the flush interval ago it was stored or a caller was
told to refresh it. -/
theorem C33_served_fresh (r : Reach E cfg h s) (q : CheckRequest D)
    (hs : step E cfg (.check q) s = .ok (s', out, fl)) (hok : out.status = .ok) :
    ∃ ev i j, lastRefresh cfg (checkRequestSig cfg.H q) h = some ev ∧ ev.reads i ∧ s.tick ≤ j ∧ j < s'.tick ∧
      E.clk j - E.clk i < 1000 * cfg.flushMs := by
  rcases check_cases r q hs with ⟨h1, _⟩ | ⟨_, c', L, L', o, ho, _, ha, _, _, _, hcase⟩
  · exact absurd hok h1
  · rcases hcase with ⟨_, h1, _⟩ | ⟨x, v, t2, hx, hk, hce, _, ht⟩
    · rw [h1] at hok; cases hok
    · obtain ⟨_, htt, hout, _⟩ := checkElem_spec E cfg o x.val v _ t2 out hce
      obtain ⟨ev, i, he, hr, hc⟩ := (ha.ent x ((keep_sublist _ _ _).subset hx)).refreshed
      rw [hk] at he
      rcases hout with ⟨_, _, h2⟩ | ⟨h1, _⟩
      · refine ⟨ev, i, s.tick + ticksOf (params cfg), he, hr, by omega, by omega, ?_⟩
        rw [← interval_eq, ← hc]; exact h2
      · rw [h1] at hok; cases hok

/-- C34: while an entry is cached, a caller is told to refresh it only if the flush interval has
passed since it was stored or a caller was last told to. -/
theorem C34_rate_limited (r : Reach E cfg h s) (q : CheckRequest D) (hca : Cacheable cfg q)
    (hs : step E cfg (.check q) s = .ok (s', out, fl)) (hnf : out.status = .notFound)
    (hin : checkRequestSig cfg.H q ∈ cachedSigs s') :
    ∃ ev i j, lastRefresh cfg (checkRequestSig cfg.H q) h = some ev ∧ ev.reads i ∧ s.tick ≤ j ∧ j < s'.tick ∧
      1000 * cfg.flushMs ≤ E.clk j - E.clk i := by
  rcases check_cases r q hs with ⟨_, h1, _, h2⟩ | ⟨_, c', L, L', o, ho, _, ha, _, hc', hq', hcase⟩
  · rcases h2 with h2 | h2
    · exact absurd hca h2
    · subst h1
      simp [cachedSigs, h2] at hin
  · rw [cachedSigs_eq hc' hq'] at hin
    rcases hcase with ⟨h1, _, h3⟩ | ⟨x, v, t2, hx, hk, hce, _, ht⟩
    · rw [h3] at hin
      obtain ⟨x, hx, e⟩ := List.mem_map.mp hin
      exact absurd e (h1 x hx)
    · obtain ⟨_, htt, hout, _⟩ := checkElem_spec E cfg o x.val v _ t2 out hce
      obtain ⟨ev, i, he, hr, hc⟩ := (ha.ent x ((keep_sublist _ _ _).subset hx)).refreshed
      rw [hk] at he
      rcases hout with ⟨h1, _⟩ | ⟨_, _, _, h2⟩
      · rw [h1] at hnf; cases hnf
      · refine ⟨ev, i, s.tick + ticksOf (params cfg), he, hr, by omega, by omega, ?_⟩
        rw [← interval_eq, ← hc]; exact h2

/-- C35, the part that holds: a response is served only if a call concerned its signature within the
expiration time.  Missing: that the response itself is no older than that, see
`C35_false_stale_response`. -/
theorem C35_not_idle_partial (m : Mono E.clk) (r : Reach E cfg h s) (hexp : 0 ≤ cfg.expirationMs) (q : CheckRequest D)
    (hs : step E cfg (.check q) s = .ok (s', out, fl)) (hok : out.status = .ok) :
    ∃ ev i, lastUse cfg (checkRequestSig cfg.H q) h = some ev ∧ ev.reads i ∧
      E.clk s.tick - E.clk i ≤ cfg.cyc cfg.expirationMs.toNat := by
  rcases check_cases r q hs with ⟨h1, _⟩ | ⟨_, c', L, L', o, ho, _, ha, hso, _, _, hcase⟩
  · exact absurd hok h1
  · rcases hcase with ⟨_, h1, _⟩ | ⟨x, v, t2, hx, hk, hce, _, ht⟩
    · rw [h1] at hok; cases hok
    · obtain ⟨ev, i, he, hr, hc⟩ := (ha.ent x ((keep_sublist _ _ _).subset hx)).used
      have hlim : (params cfg).limit = cfg.cyc cfg.expirationMs.toNat := by
        have : ¬ cfg.expirationMs < 0 := by omega
        simp [params, AggConfig.timeout, this]
      have := mem_keep (E.clk s.tick) (hso m).1 (by rw [hlim]; omega) x hx
      refine ⟨ev, i, by rw [← hk]; exact he, hr, ?_⟩
      rw [← hc, ← hlim]
      omega

/-! ### C36 -/

theorem pend_split {arr : List (Bytes × Operation D)} {outg : List (Group D)} {outOps : List (Operation D)}
    {grp : Bytes → List (Operation D)} {L : List (CEnt D)} (g : CG cfg arr outg outOps grp L)
    (hk : (L.map (·.key)).Nodup) (k : Bytes) :
    (((L.filter (fun x => x.val.agg.isSome)).map (fun x => (⟨x.key, grp x.key⟩ : Group D))).filter (·.sig == k)).flatMap
      (·.ops) = grp k := by
  have hnilf : ∀ l : List (CEnt D), (∀ x ∈ l, x.key ≠ k) →
      ((l.filter (fun x => x.val.agg.isSome)).map (fun x => (⟨x.key, grp x.key⟩ : Group D))).filter (·.sig == k) = [] := by
    intro l hl
    rw [List.filter_eq_nil_iff]
    intro z hz
    simp only [List.mem_map, List.mem_filter] at hz
    obtain ⟨u, ⟨hu, _⟩, rfl⟩ := hz
    simpa using hl u hu
  by_cases hx : ∃ x ∈ L, x.key = k
  · obtain ⟨x, hx, rfl⟩ := hx
    have hag := g.ent x hx
    have hf : ∀ (l : List (CEnt D)), x ∈ l → (l.map (·.key)).Nodup →
        (((l.filter (fun x => x.val.agg.isSome)).map (fun y => (⟨y.key, grp y.key⟩ : Group D))).filter
          (·.sig == x.key)).flatMap (·.ops) = grp x.key := by
      intro l
      induction l with
      | nil => intro h; cases h
      | cons y l ih =>
        intro hm hn
        simp only [List.map_cons, List.nodup_cons, List.mem_map, not_exists, not_and] at hn
        rcases List.mem_cons.mp hm with rfl | hm
        · have hnil := hnilf l (fun z hz => hn.1 z hz)
          cases hxa : x.val.agg with
          | none =>
            simp only [AggOf, hxa] at hag
            simp [hxa, hnil, hag]
          | some a => simp [hxa, hnil]
        · have hne : (y.key == x.key) = false := by
            simpa using fun e => hn.1 x hm e.symm
          cases hya : y.val.agg with
          | none => simp only [List.filter_cons, hya, Option.isSome_none, Bool.false_eq_true, if_false]; exact ih hm hn.2
          | some a =>
            simp only [List.filter_cons, hya, Option.isSome_some, if_true, List.map_cons, hne, Bool.false_eq_true, if_false]
            exact ih hm hn.2
    exact hf L hx hk
  · have hno : ∀ x ∈ L, x.key ≠ k := fun x hxm e => hx ⟨x, hxm, e⟩
    rw [g.absent k hno, hnilf L hno]
    rfl

/-- C36: every flushed operation, and every one that would be flushed by clearing the cache, is the
aggregate of a group of absorbed operations of one signature; the groups of a signature concatenate
to the absorbed operations of that signature in order. -/
theorem C36_groups (r : Reach E cfg h s) :
    ∃ outg pend, Partition cfg (absorbed cfg h) outg (flushedOps h) pend (pendingOps cfg s) ∧ ∀ g ∈ pend, g.sig ∈ cachedSigs s := by
  cases hc : s.cache with
  | none =>
    obtain ⟨_, h1, h2, _⟩ := r.inv.none hc
    refine ⟨[], [], ⟨?_, ?_, by simp, by simp [h1]⟩, by simp⟩
    · rw [h2]; exact .nil
    · simp [pendingOps, hc]
  | some c =>
    obtain ⟨_, L, q, ha, _⟩ := r.inv.some c hc
    obtain ⟨outg, grp, g⟩ := ha.groups
    have hpend : pendingOps cfg s = L.filterMap (fun x => x.val.agg.map (fun a => a.toProto cfg.U)) := by
      unfold pendingOps
      rw [hc, ← q.view, List.filterMap_map]
      rfl
    refine ⟨outg, (L.filter (fun x => x.val.agg.isSome)).map (fun x => ⟨x.key, grp x.key⟩), ⟨g.sums, ?_, ?_, ?_⟩, ?_⟩
    · rw [hpend]
      have : ∀ l : List (CEnt D), (∀ x ∈ l, x ∈ L) → List.Forall₂ (Group.Sum cfg)
          ((l.filter (fun x => x.val.agg.isSome)).map (fun x => (⟨x.key, grp x.key⟩ : Group D)))
          (l.filterMap (fun x => x.val.agg.map (fun a => a.toProto cfg.U))) := by
        intro l
        induction l with
        | nil => intro _; exact .nil
        | cons x l ih =>
          intro hl
          have ih' := ih (fun y hy => hl y (by simp [hy]))
          have hx := g.ent x (hl x (by simp))
          cases hxa : x.val.agg with
          | none =>
            rw [List.filterMap_cons_none (by simp [hxa])]
            simpa [hxa] using ih'
          | some a =>
            rw [List.filterMap_cons_some (b := a.toProto cfg.U) (by simp [hxa])]
            simp only [List.filter_cons, hxa, Option.isSome_some, if_true, List.map_cons]
            simp only [AggOf, hxa] at hx
            obtain ⟨o, os, h1, h2⟩ := hx
            exact .cons ⟨o, os, a, h1, h2, rfl⟩ ih'
      exact this L (fun _ hx => hx)
    · rw [List.map_map]
      exact q.keys.sublist ((List.filter_sublist).map _)
    · intro k
      rw [g.split k, pend_split g q.keys k]
    · intro g hg
      obtain ⟨x, hx, rfl⟩ := List.mem_map.mp hg
      rw [cachedSigs_eq hc q]
      exact List.mem_map.mpr ⟨x, (List.mem_filter.mp hx).1, rfl⟩

theorem Partition.perm {arr : List (Bytes × Operation D)} {outg pend : List (Group D)} {outOps pendOps : List (Operation D)}
    (p : Partition cfg arr outg outOps pend pendOps) : (arr.map (·.2)).Perm ((outg ++ pend).flatMap (·.ops)) := by
  have hf : ∀ (gs : List (Group D)) (k : Bytes),
      ((gs.flatMap (fun g => g.ops.map (fun o => (g.sig, o)))).filter (fun a => a.1 == k)).map (·.2) =
        (gs.filter (·.sig == k)).flatMap (·.ops) := by
    intro gs k
    induction gs with
    | nil => rfl
    | cons g gs ih =>
      rw [List.flatMap_cons, List.filter_append, List.map_append, ih]
      by_cases hk : g.sig = k
      · have : (g.ops.map (fun o => (g.sig, o))).filter (fun a => a.1 == k) = g.ops.map (fun o => (g.sig, o)) := by
          rw [List.filter_eq_self]; simp [hk]
        rw [this]; simp [hk, List.map_map, Function.comp_def]
      · have : (g.ops.map (fun o => (g.sig, o))).filter (fun a => a.1 == k) = [] := by
          rw [List.filter_eq_nil_iff]; simp [hk]
        simp [this, hk]
  have hp : arr.Perm ((outg ++ pend).flatMap (fun g => g.ops.map (fun o => (g.sig, o)))) := by
    refine Report.perm_of_filters (fun a : Bytes × Operation D => a.1) _ _ (fun k => ?_)
    have hinj : ∀ l l' : List (Bytes × Operation D),
        (l.filter (fun a => a.1 == k)).map (·.2) = (l'.filter (fun a => a.1 == k)).map (·.2) →
        l.filter (fun a => a.1 == k) = l'.filter (fun a => a.1 == k) := by
      have hrec : ∀ l : List (Bytes × Operation D), l.filter (fun a => a.1 == k) =
          ((l.filter (fun a => a.1 == k)).map (·.2)).map (fun o => (k, o)) := by
        intro l
        rw [List.map_map]
        conv => lhs; rw [← List.map_id (l.filter _)]
        refine List.map_congr_left (fun a ha => ?_)
        simp only [List.mem_filter, beq_iff_eq] at ha
        simp [← ha.2]
      intro l l' e
      rw [hrec l, hrec l', e]
    apply hinj
    rw [p.split k, hf, List.filter_append, List.flatMap_append]
  have h2 := hp.map (·.2)
  rw [List.map_flatMap] at h2
  simpa [List.map_map, Function.comp_def] using h2

/-- C36: log entries are conserved. -/
theorem C36_log_entries (r : Reach E cfg h s) :
    ((flushedOps h ++ pendingOps cfg s).flatMap (·.logEntries)).Perm
      (((absorbed cfg h).map (·.2)).flatMap (·.logEntries)) := by
  obtain ⟨outg, pend, hp, _⟩ := C36_groups r
  have hall : List.Forall₂ (Group.Sum cfg) (outg ++ pend) (flushedOps h ++ pendingOps cfg s) :=
    List.rel_append hp.out_sum hp.pend_sum
  have hstep : ∀ (gs : List (Group D)) (os : List (Operation D)), List.Forall₂ (Group.Sum cfg) gs os →
      os.flatMap (·.logEntries) = (gs.flatMap (·.ops)).flatMap (·.logEntries) := by
    intro gs os hf
    induction hf with
    | nil => rfl
    | cons h1 _ ih =>
      obtain ⟨x, xs, a, hops, hagg, rfl⟩ := h1
      simp only [List.flatMap_cons, List.flatMap_append, ih, hops]
      rw [(C19_log_entries cfg.H cfg.U cfg.kinds x xs a hagg).1]
      simp
  rw [hstep _ _ hall]
  exact hp.perm.symm.flatMap_right _

/-- C36: integer delta totals are conserved. -/
theorem C36_delta_totals (r : Reach E cfg h s) (n k : Bytes) (hk : IsDelta cfg.kinds n)
    (hint : ∀ v ∈ reported cfg.H ((absorbed cfg h).map (·.2)) n k, IsInt v) :
    intTotal cfg.H (flushedOps h) n k + intTotal cfg.H (pendingOps cfg s) n k =
      intTotal cfg.H ((absorbed cfg h).map (·.2)) n k := by
  obtain ⟨outg, pend, hp, _⟩ := C36_groups r
  have hall : List.Forall₂ (Group.Sum cfg) (outg ++ pend) (flushedOps h ++ pendingOps cfg s) :=
    List.rel_append hp.out_sum hp.pend_sum
  have hrp := reported_perm cfg.H _ _ hp.perm n k
  have hint' : ∀ v ∈ reported cfg.H ((outg ++ pend).flatMap (·.ops)) n k, IsInt v :=
    fun v hv => hint v (hrp.mem_iff.mpr hv)
  have hstep : ∀ (gs : List (Group D)) (os : List (Operation D)), List.Forall₂ (Group.Sum cfg) gs os →
      (∀ v ∈ reported cfg.H (gs.flatMap (·.ops)) n k, IsInt v) →
      intTotal cfg.H os n k = intTotal cfg.H (gs.flatMap (·.ops)) n k := by
    intro gs os hf
    induction hf with
    | nil => intro _; rfl
    | @cons g o gs os h1 _ ih =>
      intro hin
      rw [List.flatMap_cons, Report.reported_append] at hin
      have e1 : intTotal cfg.H (o :: os) n k = intTotal cfg.H [o] n k + intTotal cfg.H os n k := by
        show intTotal cfg.H ([o] ++ os) n k = _
        unfold intTotal; rw [Report.reported_append]; simp
      have e2 : intTotal cfg.H ((g :: gs).flatMap (·.ops)) n k =
          intTotal cfg.H g.ops n k + intTotal cfg.H (gs.flatMap (·.ops)) n k := by
        rw [List.flatMap_cons]
        unfold intTotal; rw [Report.reported_append]; simp
      rw [e1, e2, ih (fun v hv => hin v (by simp [hv]))]
      congr 1
      obtain ⟨x, xs, a, hgo, hagg, rfl⟩ := h1
      rw [hgo] at hin ⊢
      obtain ⟨h1, h2⟩ := C16_delta_int_sum cfg.H cfg.U cfg.kinds x xs a hagg n k hk (fun v hv => hin v (by simp [hv]))
      unfold intTotal
      rw [Report.reported_one]
      by_cases he : reported cfg.H (x :: xs) n k = []
      · rw [h1 he, he]
      · obtain ⟨rr, hr, hv, _⟩ := h2 he
        rw [hr]
        simp [intOf, hv]
  have h1 := hstep _ _ hall hint'
  have h2 : intTotal cfg.H ((outg ++ pend).flatMap (·.ops)) n k = intTotal cfg.H ((absorbed cfg h).map (·.2)) n k :=
    sum_perm _ _ (hrp.symm.map _)
  rw [← h2, ← h1]
  unfold intTotal
  rw [Report.reported_append]
  simp

/-- C36: after `FlushAll` nothing is cached. -/
theorem C36_flushAll_empties (r : Reach E cfg h s) (hs : step E cfg .flushAll s = .ok (s', out, fl)) :
    cachedSigs s' = [] ∧ pendingOps cfg s' = [] := by
  cases hc : s.cache with
  | none =>
    obtain ⟨out', h1, h2⟩ := step_none E cfg hc .flushAll
    rw [hs] at h1
    cases h1
    simp [cachedSigs, pendingOps, hc]
  | some c =>
    obtain ⟨c', L, L', G, G', _, _, _, hst, _, hc', hq', _⟩ := r.step hs hc
    simp only [aStep, Except.ok.injEq, Prod.mk.injEq] at hst
    obtain ⟨rfl, _⟩ := hst
    have := hq'.view
    simp only [List.map_eq_nil_iff] at this
    simp [cachedSigs, pendingOps, hc', this]

/-- A call other than `Check` does not put an operation into the aggregator. -/
theorem pendingOps_keep {x : Call D} (r : Reach E cfg h s) (hs : step E cfg x s = .ok (s', out, fl))
    (hx : ∀ q, x ≠ .check q) (he : pendingOps cfg s = []) : pendingOps cfg s' = [] := by
  cases hc : s.cache with
  | none =>
    obtain ⟨out', h1, h2⟩ := step_none E cfg hc x
    rw [hs] at h1
    cases h1
    exact he
  | some c =>
    obtain ⟨c', L, L', G, G', hq, _, _, hst, _, hc', hq', _⟩ := r.step hs hc
    have hpend : ∀ (s : AggState (Elem D)) (c : Cache (Elem D)) (L : List (CEnt D)), s.cache = some c →
        Quiet (params cfg) L c →
        (pendingOps cfg s = [] ↔ ∀ x ∈ L, x.val.agg = none) := by
      intro s c L hc q
      have : pendingOps cfg s = L.filterMap (fun x => x.val.agg.map (fun a => a.toProto cfg.U)) := by
        unfold pendingOps
        rw [hc, ← q.view, List.filterMap_map]
        rfl
      rw [this, List.filterMap_eq_nil_iff]
      simp
    rw [hpend s c L hc hq] at he
    rw [hpend s' c' L' hc' hq']
    have hk : ∀ x ∈ keepOf (params cfg) (E.clk s.tick) L, x.val.agg = none :=
      fun x hx => he x ((keep_sublist _ _ _).subset hx)
    cases x with
    | check q => exact absurd rfl (hx q)
    | cacheResponse q resp =>
      simp only [aStep] at hst
      split at hst
      · rename_i x hf
        simp only [Except.ok.injEq, Prod.mk.injEq] at hst
        obtain ⟨rfl, _⟩ := hst
        intro y hy
        rcases mem_putL hy with ⟨_, h2, _⟩ | ⟨h2, _⟩
        · rw [h2]
          exact hk x (List.mem_of_find?_eq_some hf)
        · exact hk y h2
      · simp only [Except.ok.injEq, Prod.mk.injEq] at hst
        obtain ⟨rfl, _⟩ := hst
        intro y hy
        rcases List.mem_cons.mp hy with rfl | hy
        · rfl
        · split at hy
          · exact hk y hy
          · exact hk y (List.dropLast_subset _ hy)
    | flush =>
      simp only [aStep, Except.ok.injEq, Prod.mk.injEq] at hst
      obtain ⟨rfl, _⟩ := hst
      exact hk
    | flushAll =>
      simp only [aStep, Except.ok.injEq, Prod.mk.injEq] at hst
      obtain ⟨rfl, _⟩ := hst
      simp

/-- Every flushed request is for the configured service and has an operation. -/
theorem C36_requests_well_formed (r : Reach E cfg h s) : ∀ ev ∈ h, ∀ q ∈ ev.flushed,
    q.serviceName = cfg.serviceName ∧ q.serviceConfigId = cfg.serviceConfigId ∧ q.operation.isSome := by
  induction r with
  | init _ => simp
  | @call h s c s' out fl r hs ih =>
    intro ev hev
    rcases List.mem_cons.mp hev with rfl | hev
    · intro q hq
      cases hc : s.cache with
      | none =>
        obtain ⟨out', h1, h2⟩ := step_none E cfg hc c
        rw [hs] at h1
        cases h1
        cases hq
      | some cc =>
        obtain ⟨c', L, L', G, G', _, _, _, _, _, _, _, hfl, _⟩ := r.step hs hc
        simp only [hfl, List.mem_filterMap] at hq
        obtain ⟨x, _, hx⟩ := hq
        unfold reqOf at hx
        cases hxa : x.val.agg with
        | none => simp [hxa] at hx
        | some a =>
          simp only [hxa, Option.map_some, Option.some.injEq] at hx
          subst hx
          simp [Elem.returnRequest, hxa]
    · exact ih ev hev

/-- C37: at most `num_entries` responses, of distinct signatures. -/
theorem C37_bounded (r : Reach E cfg h s) :
    (cachedSigs s).Nodup ∧ (0 < cfg.numEntries → ((cachedSigs s).length : Int) ≤ cfg.numEntries) ∧
      (cfg.numEntries ≤ 0 → cachedSigs s = []) := by
  cases hc : s.cache with
  | none =>
    refine ⟨by simp [cachedSigs, hc], fun _ => by simp [cachedSigs, hc]; omega, fun _ => by simp [cachedSigs, hc]⟩
  | some c =>
    obtain ⟨hn, L, q, _, _⟩ := r.inv.some c hc
    have := q.room
    rw [cachedSigs_eq hc q]
    refine ⟨q.keys, fun _ => ?_, fun hh => by omega⟩
    rw [List.length_map, ← q.view, List.length_map]
    exact this

/-- C68: with a clock that does not go backwards, or with assertions compiled out, a call returns
unless merging overflows an integer; only `Check` merges. -/
theorem C68_check_returns (r : Reach E cfg h s) (hm : E.dbg = true → Mono E.clk) (c : Call D) :
    (∃ res, step E cfg c s = .ok res) ∨ (∃ q, c = .check q) ∧ step E cfg c s = .error .signedOverflow := by
  rcases step_inv E cfg r.inv hm c with he | ⟨s', st, fl, h1, _⟩
  · right
    refine ⟨?_, he⟩
    cases hc : s.cache with
    | none => obtain ⟨out', h1, _⟩ := step_none E cfg hc c; rw [he] at h1; cases h1
    | some cc =>
      obtain ⟨_, L, q, ha, hs⟩ := r.inv.some cc hc
      have hv := step_view E cfg c s cc hc L q (fun hd => (hs (hm hd)).1)
      cases c with
      | check q => exact ⟨q, rfl⟩
      | cacheResponse q p =>
        simp only [aStep] at hv
        cases hf : findL (checkRequestSig cfg.H q) (keepOf (params cfg) (E.clk s.tick) L) with
        | none => rw [hf] at hv; obtain ⟨_, _, h2, _⟩ := hv; rw [he] at h2; cases h2
        | some x => rw [hf] at hv; obtain ⟨_, _, h2, _⟩ := hv; rw [he] at h2; cases h2
      | flush => obtain ⟨_, _, h2, _⟩ := hv; rw [he] at h2; cases h2
      | flushAll => obtain ⟨_, _, h2, _⟩ := hv; rw [he] at h2; cases h2
  · exact Or.inl ⟨_, h1⟩

/-! ### C66 -/

/-- The entry of `k` is not idle for too long at the next clock reading. -/
def Live (E : Env) (cfg : AggConfig) (k : Bytes) (h : Hist D) (t : Nat) : Prop :=
  cfg.expirationMs < 0 ∨ ∀ ev i, lastUse cfg k h = some ev → ev.reads i →
    E.clk t - E.clk i ≤ cfg.cyc cfg.expirationMs.toNat

theorem Live.keep {k : Bytes} {t : Nat} (hl : Live E cfg k h t) {L : List (CEnt D)} (ha : AInv E cfg h L) {x : CEnt D}
    (hx : x ∈ L) (hk : x.key = k) : x ∈ keepOf (params cfg) (E.clk t) L := by
  have hp := (keep_perm (params cfg) (E.clk t) L).mem_iff (a := x)
  rcases List.mem_append.mp (hp.mpr hx) with hg | hg
  · exfalso
    obtain ⟨h0, h1⟩ := mem_gone _ x hg
    obtain ⟨ev, i, he, hr, hu⟩ := (ha.ent x hx).used
    rcases hl with hn | hl
    · simp [params, AggConfig.timeout, hn] at h0
    · have hn : ¬ cfg.expirationMs < 0 := by
        intro hn
        simp [params, AggConfig.timeout, hn] at h0
      have h2 := hl ev i (by rw [← hk]; exact he) hr
      have hlim : (params cfg).limit = cfg.cyc cfg.expirationMs.toNat := by
        simp [params, AggConfig.timeout, hn]
      rw [hlim] at h1
      omega
  · exact hg

/-- C66: `CacheResponse` makes its signature cached. -/
theorem C66_stored (r : Reach E cfg h s) (hn : 0 < cfg.numEntries) (q : CheckRequest D) (p : CheckResponse)
    (hs : step E cfg (.cacheResponse q p) s = .ok (s', out, fl)) :
    checkRequestSig cfg.H q ∈ cachedSigs s' ∧ out.status = .ok := by
  cases hc : s.cache with
  | none => have := (r.inv.none hc).1; omega
  | some c =>
    obtain ⟨c', L, L', G, G', _, _, _, hst, _, hc', hq', _⟩ := r.step hs hc
    rw [cachedSigs_eq hc' hq']
    simp only [aStep] at hst
    cases hf : findL (checkRequestSig cfg.H q) (keepOf (params cfg) (E.clk s.tick) L) with
    | none =>
      rw [hf] at hst
      simp only [Except.ok.injEq, Prod.mk.injEq] at hst
      obtain ⟨rfl, _, rfl, _⟩ := hst
      simp [insL]
    | some x =>
      rw [hf] at hst
      simp only [Except.ok.injEq, Prod.mk.injEq] at hst
      obtain ⟨rfl, _, rfl, _⟩ := hst
      simp [putL]

/-- C66: a cached signature that is not idle for too long is answered from the cache while it is
fresh, and stays cached. -/
theorem C66_served (r : Reach E cfg h s) (q : CheckRequest D) (hca : Cacheable cfg q)
    (hin : checkRequestSig cfg.H q ∈ cachedSigs s) (hlive : Live E cfg (checkRequestSig cfg.H q) h s.tick)
    (hs : step E cfg (.check q) s = .ok (s', out, fl))
    (hfresh : ∀ ev i j, lastRefresh cfg (checkRequestSig cfg.H q) h = some ev → ev.reads i → s.tick ≤ j → j < s'.tick →
      E.clk j - E.clk i < 1000 * cfg.flushMs) :
    out.status = .ok ∧ out.response = lastCached cfg.H (checkRequestSig cfg.H q) h := by
  have hok : out.status = .ok := by
    rcases check_cases r q hs with ⟨_, h1, _, h2⟩ | ⟨_, c', L, L', o, ho, ⟨c, hc, hq⟩, ha, _, hc', hq', hcase⟩
    · rcases h2 with h2 | h2
      · exact absurd hca h2
      · simp [cachedSigs, h2] at hin
    · rw [cachedSigs_eq hc hq] at hin
      obtain ⟨y, hy, hyk⟩ := List.mem_map.mp hin
      have hyK := hlive.keep ha hy hyk
      rcases hcase with ⟨h1, _, _⟩ | ⟨x, v, t2, hx, hk, hce, _, ht⟩
      · exact absurd hyk (h1 y hyK)
      · obtain ⟨_, htt, hout, _⟩ := checkElem_spec E cfg o x.val v _ t2 out hce
        obtain ⟨ev, i, he, hr, hcl⟩ := (ha.ent x ((keep_sublist _ _ _).subset hx)).refreshed
        rw [hk] at he
        rcases hout with ⟨h1, _⟩ | ⟨_, _, _, h2⟩
        · rw [h1]
        · have := hfresh ev i (s.tick + ticksOf (params cfg)) he hr (by omega) (by omega)
          rw [← interval_eq, ← hcl] at this
          omega
  obtain ⟨p, h1, h2⟩ := C31_served_latest r q hs hok
  exact ⟨hok, by rw [h1, h2]⟩

/-- C66: a cached signature leaves the cache only by `FlushAll`, by idling, or if a response for a
new signature is stored while the cache is full and every signature that stays was used no earlier. -/
theorem C66_evicted_only (r : Reach E cfg h s) (c : Call D) (hs : step E cfg c s = .ok (s', out, fl)) (k : Bytes)
    (hin : k ∈ cachedSigs s) (hlive : Live E cfg k h s.tick) (hout : k ∉ cachedSigs s') :
    c = .flushAll ∨
    ∃ q p, c = .cacheResponse q p ∧ checkRequestSig cfg.H q ≠ k ∧
      ((cachedSigs s').length : Int) = cfg.numEntries ∧
      (Mono E.clk → ∀ k' ∈ cachedSigs s', k' ≠ checkRequestSig cfg.H q → ∃ ev i ev' i', lastUse cfg k h = some ev ∧ ev.reads i ∧
        lastUse cfg k' h = some ev' ∧ ev'.reads i' ∧ E.clk i ≤ E.clk i') := by
  cases hc : s.cache with
  | none => simp [cachedSigs, hc] at hin
  | some cc =>
    obtain ⟨c', L, L', G, G', hq, ha, hso, hst, _, hc', hq', _⟩ := r.step hs hc
    rw [cachedSigs_eq hc hq] at hin
    rw [cachedSigs_eq hc' hq'] at hout ⊢
    obtain ⟨y, hy, hyk⟩ := List.mem_map.mp hin
    have hyK := hlive.keep ha hy hyk
    have hput : ∀ k2 v t, k ∈ (putL true k2 v t (keepOf (params cfg) (E.clk s.tick) L)).map (·.key) := by
      intro k2 v t
      simp only [putL, if_true, List.map_cons, List.mem_cons, List.mem_map, List.mem_filter, Bool.not_eq_true',
        beq_eq_false_iff_ne]
      by_cases e : k = k2
      · exact Or.inl e
      · exact Or.inr ⟨y, ⟨hyK, by rw [hyk]; exact e⟩, hyk⟩
    cases c with
    | flushAll => exact Or.inl rfl
    | flush =>
      simp only [aStep, Except.ok.injEq, Prod.mk.injEq] at hst
      obtain ⟨rfl, _⟩ := hst
      exact absurd (List.mem_map.mpr ⟨y, hyK, hyk⟩) hout
    | check q =>
      exfalso
      rcases check_cases r q hs with ⟨_, h1, _, _⟩ | ⟨_, c2, L2, L2', o, ho, ⟨c3, hc3, hq3⟩, _, _, hc2, hq2, hcase⟩
      · subst h1
        rw [hc] at hc'; cases hc'
        rw [hq.view.symm, hq'.view] at hin
        exact hout hin
      · rw [hc] at hc3; cases hc3
        rw [hc'] at hc2; cases hc2
        have e1 : L = L2 := by rw [← hq.view, hq3.view]
        have e2 : L' = L2' := by rw [← hq'.view, hq2.view]
        subst e1 e2
        rcases hcase with ⟨_, _, h3⟩ | ⟨x, v, t2, hx, hk, hce, h3, ht⟩
        · rw [h3] at hout
          exact hout (List.mem_map.mpr ⟨y, hyK, hyk⟩)
        · rw [h3] at hout
          exact hout (hput _ _ _)
    | cacheResponse q p =>
      right
      simp only [aStep] at hst
      cases hf : findL (checkRequestSig cfg.H q) (keepOf (params cfg) (E.clk s.tick) L) with
      | some x =>
        rw [hf] at hst
        simp only [Except.ok.injEq, Prod.mk.injEq] at hst
        obtain ⟨rfl, _⟩ := hst
        exact absurd (hput _ _ _) hout
      | none =>
        rw [hf] at hst
        simp only [Except.ok.injEq, Prod.mk.injEq] at hst
        obtain ⟨rfl, _⟩ := hst
        generalize hK : keepOf (params cfg) (E.clk s.tick) L = K at *
        have hne := findL_none.mp hf
        have hroom : (K.length : Int) ≤ cfg.numEntries := by
          have h1 := hq.room
          have h2 : K.length ≤ L.length := by rw [← hK]; exact (keep_sublist _ _ _).length_le
          have h3 : L.length = cc.nodes.length := by rw [← hq.view, List.length_map]
          have h4 : (params cfg).cap = cfg.numEntries := rfl
          rw [h4] at h1
          omega
        by_cases hfull : (K.length : Int) < cfg.numEntries
        · exfalso
          apply hout
          simp only [insL, if_pos hfull, List.map_cons, List.mem_cons, List.mem_map]
          exact Or.inr ⟨y, hyK, hyk⟩
        · have hKne : K ≠ [] := List.ne_nil_of_mem hyK
          have hlast : y = K.getLast hKne := by
            by_contra hcon
            apply hout
            simp only [insL, if_neg hfull, List.map_cons, List.mem_cons, List.mem_map]
            refine Or.inr ⟨y, ?_, hyk⟩
            have := List.dropLast_append_getLast hKne
            rw [← this] at hyK
            rcases List.mem_append.mp hyK with h | h
            · exact h
            · exact absurd (by simpa using h) hcon
          refine ⟨q, p, rfl, fun e => hne y hyK (hyk.trans e.symm), ?_, ?_⟩
          · simp only [insL, if_neg hfull, List.map_cons, List.length_cons, List.length_map, List.length_dropLast]
            have : 0 < K.length := List.length_pos_of_ne_nil hKne
            omega
          · intro hm k' hk' hk'q
            simp only [insL, if_neg hfull, List.map_cons, List.mem_cons, List.mem_map] at hk'
            rcases hk' with hk' | ⟨z, hz, rfl⟩
            · exact absurd hk' hk'q
            · have hzK := (List.dropLast_sublist _).subset hz
              have hzL : z ∈ L := by rw [← hK] at hzK; exact (keep_sublist _ _ _).subset hzK
              obtain ⟨ev, i, he, hr, hu⟩ := (ha.ent y hy).used
              obtain ⟨ev', i', he', hr', hu'⟩ := (ha.ent z hzL).used
              refine ⟨ev, i, ev', i', by rw [← hyk]; exact he, hr, he', hr', ?_⟩
              rw [← hu, ← hu', hlast]
              have hsK : Sorted K := by
                rw [← hK]
                exact ⟨(hso hm).1.1.sublist (keep_sublist _ _ _), fun x hx => (hso hm).1.2 x ((keep_sublist _ _ _).subset hx)⟩
              have hpw := hsK.1
              rw [← List.dropLast_append_getLast hKne, List.pairwise_append] at hpw
              exact hpw.2.2 z hz _ (by simp)

/-- C67, the part that holds: a check for which nothing is cached adds nothing to what is flushed.
Missing: a check that is told to refresh a cached response, see `C67_false_counted_twice`. -/
theorem C67_cold_miss_partial (r : Reach E cfg h s) (q : CheckRequest D)
    (hs : step E cfg (.check q) s = .ok (s', out, fl)) (hnot : checkRequestSig cfg.H q ∉ cachedSigs s') :
    (fl.filterMap (·.operation) ++ pendingOps cfg s').Perm (pendingOps cfg s) := by
  cases hc : s.cache with
  | none =>
    obtain ⟨out', h1, h2⟩ := step_none E cfg hc (.check q)
    rw [hs] at h1
    cases h1
    exact .refl _
  | some c =>
    obtain ⟨c', L, L', G, G', hq, ha, _, hst, hp, hc', hq', hfl, _⟩ := r.step hs hc
    have hpend : ∀ (s : AggState (Elem D)) (c : Cache (Elem D)) (L : List (CEnt D)), s.cache = some c →
        Quiet (params cfg) L c →
        pendingOps cfg s = L.filterMap (fun x => x.val.agg.map (fun a => a.toProto cfg.U)) := by
      intro s c L hc q
      unfold pendingOps
      rw [hc, ← q.view, List.filterMap_map]
      rfl
    have hreq : fl.filterMap (·.operation) = G'.filterMap (fun x => x.val.agg.map (fun a => a.toProto cfg.U)) := by
      rw [hfl, List.filterMap_filterMap]
      congr 1
      funext x
      unfold reqOf
      cases hxa : x.val.agg <;> simp [Elem.returnRequest, hxa]
    rw [hreq, hpend s c L hc hq, hpend s' c' L' hc' hq', ← List.filterMap_append]
    refine List.Perm.filterMap _ ((hp.append_right _).trans ?_)
    rw [cachedSigs_eq hc' hq'] at hnot
    have hid : L' = L ∧ G = [] → (G ++ L').Perm L := by rintro ⟨rfl, rfl⟩; exact .refl _
    simp only [aStep] at hst
    by_cases h1 : q.serviceName ≠ cfg.serviceName
    · rw [if_pos h1] at hst
      simp only [Except.ok.injEq, Prod.mk.injEq] at hst
      exact hid ⟨hst.1.symm, hst.2.2.2.symm⟩
    rw [if_neg h1] at hst
    cases ho : q.operation with
    | none =>
      rw [ho] at hst
      simp only [Except.ok.injEq, Prod.mk.injEq] at hst
      exact hid ⟨hst.1.symm, hst.2.2.2.symm⟩
    | some o =>
      rw [ho] at hst
      simp only at hst
      by_cases h2 : o.importance ≠ importanceLow
      · rw [if_pos h2] at hst
        simp only [Except.ok.injEq, Prod.mk.injEq] at hst
        exact hid ⟨hst.1.symm, hst.2.2.2.symm⟩
      rw [if_neg h2] at hst
      cases hf : findL (checkRequestSig cfg.H q) (keepOf (params cfg) (E.clk s.tick) L) with
      | none =>
        rw [hf] at hst
        simp only [Except.ok.injEq, Prod.mk.injEq] at hst
        obtain ⟨rfl, _, _, rfl⟩ := hst
        exact keep_perm _ _ _
      | some x =>
        rw [hf] at hst
        simp only [bind, Except.bind] at hst
        cases hce : checkElem E cfg o x.val (s.tick + ticksOf (params cfg)) with
        | error e => rw [hce] at hst; cases hst
        | ok res =>
          obtain ⟨v, t2, out2⟩ := res
          rw [hce] at hst
          simp only [Except.ok.injEq, Prod.mk.injEq] at hst
          obtain ⟨rfl, _⟩ := hst
          simp [putL] at hnot

/-- C69: the options' constructor keeps the number of entries and the flush interval and makes the
expiration larger than the flush interval; it overflows exactly for the largest flush interval. -/
theorem C69_options (e f x : Int) (hf : f ≤ int32Max) :
    (f < int32Max → ∃ x', options e f x = .ok (e, f, x') ∧ f < x' ∧ x ≤ x' ∧ (f < x → x' = x)) ∧
    (options e f x = .error .signedOverflow ↔ f = int32Max) := by
  unfold options
  by_cases h : f + 1 > int32Max
  · rw [if_pos h]
    refine ⟨fun h' => by omega, ?_⟩
    simp only [bind, Except.bind, true_iff]
    omega
  · rw [if_neg h]
    simp only [bind, Except.bind]
    refine ⟨fun _ => ⟨_, rfl, by omega, by omega, fun _ => by omega⟩, ?_⟩
    simp only [reduceCtorEq, false_iff]
    omega

/-! ### Examples -/
section examples

def run (E : Env) (cfg : AggConfig) (cs : List (Call D)) : Res (Hist D × AggState (Elem D)) := do
  let s ← new E cfg
  cs.foldlM (fun p c => do
    let (s', st, fl) ← step E cfg c p.2
    .ok (⟨c, st, fl, p.2.tick, s'.tick, cachedSigs s'⟩ :: p.1, s')) ([], s.setFlushCallback true)

theorem run_reach (cs : List (Call D)) (h : Hist D) (s : AggState (Elem D)) (hr : run E cfg cs = .ok (h, s)) :
    Reach E cfg h s := by
  unfold run at hr
  cases hn : new (D := D) E cfg with
  | error e => simp [hn, bind, Except.bind] at hr
  | ok s0 =>
    rw [hn] at hr
    simp only [bind, Except.bind] at hr
    have hgen : ∀ (cs : List (Call D)) (h0 : Hist D) (s0 : AggState (Elem D)), Reach E cfg h0 s0 →
        cs.foldlM (fun (p : Hist D × AggState (Elem D)) c => do
          let (s', st, fl) ← step E cfg c p.2
          Except.ok (⟨c, st, fl, p.2.tick, s'.tick, cachedSigs s'⟩ :: p.1, s')) (h0, s0) = Except.ok (h, s) →
        Reach E cfg h s := by
      intro cs
      induction cs with
      | nil =>
        intro h0 s0 r hr
        simp only [List.foldlM_nil, pure, Except.pure] at hr
        cases hr; exact r
      | cons c cs ih =>
        intro h0 s0 r hr
        simp only [List.foldlM_cons, bind, Except.bind] at hr
        cases hst : step E cfg c s0 with
        | error e => rw [hst] at hr; cases hr
        | ok v =>
          obtain ⟨s', st, fl⟩ := v
          rw [hst] at hr
          exact ih _ _ (.call r hst) hr
    exact hgen cs [] _ (.init hn) hr

/-- Service "s", two entries, flush interval 5 ms, expiration 12 ms; clock readings are 1 ms apart
(`Report.exEnv`). -/
def exCfg : AggConfig := ⟨[115], [49], 2, 5, 12, none, fun b => b, .insertion, fun ms => 1000 * ms⟩

/-- A check of the operation named `n`, reporting `i`. -/
def exReq (n : UInt8) (i : Int) : CheckRequest Int := ⟨[115], some (Report.exNamed n i), [49], []⟩

/-- A response that allows, marked `n`, and one that denies. -/
def exYes (n : UInt8) : CheckResponse := ⟨[], [n]⟩
def exNo : CheckResponse := ⟨[[1]], []⟩

/-- Two signatures: both are answered from the cache, denials included; the operation of the one
that was allowed is merged and flushed once a third response evicts its entry. -/
theorem example_two : ∃ h s, run Report.exEnv exCfg
      [.check (exReq 1 5), .cacheResponse (exReq 1 5) (exYes 7), .check (exReq 1 6),
        .cacheResponse (exReq 2 1) exNo, .check (exReq 2 1)] = .ok (h, s) ∧
    Reach Report.exEnv exCfg h s ∧
    h.map (fun ev => (ev.out.status, ev.out.response)) =
      [(.ok, some exNo), (.ok, none), (.ok, some (exYes 7)), (.ok, none), (.notFound, none)] ∧
    (absorbed exCfg h).map (fun a => a.2.operationName) = [[1]] ∧ flushedOps h = [] ∧
    ∃ s' fl, step Report.exEnv exCfg (.cacheResponse (exReq 3 1) (exYes 8)) s = .ok (s', ⟨.ok, none⟩, fl) ∧
      fl.map (fun q => (q.serviceName, q.operation.map (·.operationName))) = [([115], some [1])] ∧
      cachedSigs s' = [checkRequestSig (fun b => b) (exReq 3 1), checkRequestSig (fun b => b) (exReq 2 1)] := by
  have : ∃ h s, run Report.exEnv exCfg
      [.check (exReq 1 5), .cacheResponse (exReq 1 5) (exYes 7), .check (exReq 1 6),
        .cacheResponse (exReq 2 1) exNo, .check (exReq 2 1)] = .ok (h, s) ∧
    h.map (fun ev => (ev.out.status, ev.out.response)) =
      [(.ok, some exNo), (.ok, none), (.ok, some (exYes 7)), (.ok, none), (.notFound, none)] ∧
    (absorbed exCfg h).map (fun a => a.2.operationName) = [[1]] ∧ flushedOps h = [] ∧
    ∃ s' fl, step Report.exEnv exCfg (.cacheResponse (exReq 3 1) (exYes 8)) s = .ok (s', ⟨.ok, none⟩, fl) ∧
      fl.map (fun q => (q.serviceName, q.operation.map (·.operationName))) = [([115], some [1])] ∧
      cachedSigs s' = [checkRequestSig (fun b => b) (exReq 3 1), checkRequestSig (fun b => b) (exReq 2 1)] := by
    refine ⟨_, _, rfl, ?_, ?_, ?_, _, _, rfl, ?_, ?_⟩ <;> decide
  obtain ⟨h, s, h1, h2⟩ := this
  exact ⟨h, s, h1, run_reach _ _ _ h1, h2⟩

/-- C35 is false: the only response ever stored is still served 15 ms after the call that stored it
returned, though the expiration is 12 ms; every check in between kept the entry from idling and
nothing came back from the server. -/
theorem C35_false_stale_response : ∃ h s, run Report.exEnv exCfg
      [.cacheResponse (exReq 1 5) (exYes 7), .check (exReq 1 5), .check (exReq 1 5), .check (exReq 1 5),
        .check (exReq 1 5)] = .ok (h, s) ∧ Reach Report.exEnv exCfg h s ∧
    (∃ s' fl, step Report.exEnv exCfg (.check (exReq 1 5)) s = .ok (s', ⟨.ok, some (exYes 7)⟩, fl)) ∧
    (h.getLast?.map (fun ev => Report.exEnv.clk s.tick - Report.exEnv.clk (ev.last - 1))) = some 15000 ∧
    exCfg.cyc exCfg.expirationMs.toNat = 12000 := by
  have : ∃ h s, run Report.exEnv exCfg
      [.cacheResponse (exReq 1 5) (exYes 7), .check (exReq 1 5), .check (exReq 1 5), .check (exReq 1 5),
        .check (exReq 1 5)] = .ok (h, s) ∧
    (∃ s' fl, step Report.exEnv exCfg (.check (exReq 1 5)) s = .ok (s', ⟨.ok, some (exYes 7)⟩, fl)) ∧
    (h.getLast?.map (fun ev => Report.exEnv.clk s.tick - Report.exEnv.clk (ev.last - 1))) = some 15000 ∧
    exCfg.cyc exCfg.expirationMs.toNat = 12000 := by
    refine ⟨_, _, rfl, ⟨_, _, rfl⟩, ?_, ?_⟩ <;> decide
  obtain ⟨h, s, h1, h2⟩ := this
  exact ⟨h, s, h1, run_reach _ _ _ h1, h2⟩

/-- C67 is false: the second check is told NOT_FOUND, so its caller sends it, and its operation is
also part of what is flushed: the metric total flushed is 11 though only the 5 of the first check
was answered from the cache. -/
theorem C67_false_counted_twice : ∃ h s, run Report.exEnv exCfg
      [.cacheResponse (exReq 1 0) (exYes 7), .check (exReq 1 5), .check (exReq 1 6), .flushAll] = .ok (h, s) ∧
    Reach Report.exEnv exCfg h s ∧
    h.map (fun ev => (ev.out.status, ev.out.response)) =
      [(.ok, none), (.notFound, none), (.ok, some (exYes 7)), (.ok, none)] ∧
    intTotal (fun b => b) (flushedOps h) [109] (metricValueSig (fun b => b) (exVal 5 1 2)) = 11 := by
  have : ∃ h s, run Report.exEnv exCfg
      [.cacheResponse (exReq 1 0) (exYes 7), .check (exReq 1 5), .check (exReq 1 6), .flushAll] = .ok (h, s) ∧
    h.map (fun ev => (ev.out.status, ev.out.response)) =
      [(.ok, none), (.notFound, none), (.ok, some (exYes 7)), (.ok, none)] ∧
    intTotal (fun b => b) (flushedOps h) [109] (metricValueSig (fun b => b) (exVal 5 1 2)) = 11 := by
    refine ⟨_, _, rfl, ?_, ?_⟩ <;> decide
  obtain ⟨h, s, h1, h2⟩ := this
  exact ⟨h, s, h1, run_reach _ _ _ h1, h2⟩

/-- The hypotheses of C31, C33, C35 and of C34 occur. -/
example : ∃ h s, Reach Report.exEnv exCfg h s ∧ Mono Report.exEnv.clk ∧ 0 ≤ exCfg.expirationMs ∧
    Cacheable exCfg (exReq 1 5) ∧ checkRequestSig exCfg.H (exReq 1 5) ∈ cachedSigs s ∧
    (∃ s' out fl, step Report.exEnv exCfg (.check (exReq 1 5)) s = .ok (s', out, fl) ∧ out.status = .ok) ∧
    ∃ h2 s2, Reach Report.exEnv exCfg h2 s2 ∧
      ∃ s' out fl, step Report.exEnv exCfg (.check (exReq 1 5)) s2 = .ok (s', out, fl) ∧ out.status = .notFound ∧
        checkRequestSig exCfg.H (exReq 1 5) ∈ cachedSigs s' := by
  have h1 : ∃ h s, run Report.exEnv exCfg [.cacheResponse (exReq 1 5) (exYes 7)] = .ok (h, s) ∧
      checkRequestSig exCfg.H (exReq 1 5) ∈ cachedSigs s ∧
      (∃ s' out fl, step Report.exEnv exCfg (.check (exReq 1 5)) s = .ok (s', out, fl) ∧ out.status = .ok) := by
    refine ⟨_, _, rfl, ?_, _, _, _, rfl, ?_⟩ <;> decide
  have h2 : ∃ h s, run Report.exEnv exCfg [.cacheResponse (exReq 1 5) (exYes 7), .check (exReq 1 5)] = .ok (h, s) ∧
      ∃ s' out fl, step Report.exEnv exCfg (.check (exReq 1 5)) s = .ok (s', out, fl) ∧ out.status = .notFound ∧
        checkRequestSig exCfg.H (exReq 1 5) ∈ cachedSigs s' := by
    refine ⟨_, _, rfl, _, _, _, rfl, ?_, ?_⟩ <;> decide
  obtain ⟨h, s, r, a, b⟩ := h1
  obtain ⟨h', s', r', b'⟩ := h2
  exact ⟨h, s, run_reach _ _ _ r, Report.exEnv_mono, by decide, ⟨rfl, _, rfl, rfl⟩, a, b, h', s', run_reach _ _ _ r', b'⟩

example : options 10 (int32Max) 5 = .error .signedOverflow ∧ options 10 500 100 = .ok (10, 500, 501) := by decide
end examples

end Verif.Check
