import Verif.Props.ReportAggregator
import Verif.Props.Threads
import Verif.Props.ThreadExamples
import Verif.Props.DoubleMerge
import Verif.Props.DoubleSsd
/-
C116, C117, C118: what becomes of double and distribution values of delta metrics in the report cache, with IEEE-754 doubles.
-/
set_option linter.unusedSectionVars false
namespace Verif

section
variable {D : Type} [DoubleOps D]

/-- Anything that holds for the values merged into one, that is additive, and that does not depend on the order, holds for groups of
operations and their aggregates. -/
theorem carry_groups {cfg : AggConfig} (R : List (MetricValue D) → List (MetricValue D) → Prop) (Good : MetricValue D → Prop)
    (h0 : R [] []) (h1 : ∀ w ws r, (∀ v ∈ w :: ws, Good v) → foldValues .delta w ws = .ok r → R (w :: ws) [r])
    (h2 : ∀ vs rs vs' rs', R vs rs → R vs' rs' → R (vs ++ vs') (rs ++ rs')) {n k : Bytes} (hk : IsDelta cfg.kinds n)
    {gs : List (Report.Group D)} {os : List (Operation D)} (hf : List.Forall₂ (Report.Group.Sum cfg) gs os)
    (hg : ∀ v ∈ reported cfg.H (gs.flatMap (·.ops)) n k, Good v) :
    R (reported cfg.H (gs.flatMap (·.ops)) n k) (reported cfg.H os n k) := by
  induction hf with
  | nil => exact h0
  | @cons g o gs os hs _ ih =>
    rw [List.flatMap_cons, Report.reported_append] at hg ⊢
    rw [show o :: os = [o] ++ os from rfl, Report.reported_append]
    refine h2 _ _ _ _ ?_ (ih fun v hv => hg v (List.mem_append_right _ hv))
    obtain ⟨x, xs, a, hgo, hagg, rfl, _⟩ := hs
    rw [Report.reported_one, hgo]
    rw [hgo] at hg
    rcases listed_fold cfg.H cfg.U cfg.kinds x xs a hagg n k with ⟨e1, e2⟩ | ⟨w, ws, r, e1, e2, e3⟩
    · rw [e1, e2]; exact h0
    · rw [(isDelta_iff _ _).mp hk] at e2
      rw [e3, e1]
      exact h1 w ws r (fun v hv => hg v (List.mem_append_left _ (by rw [e1]; exact hv))) e2

/-- The same for the accepted operations of a report aggregator and what it flushed and caches. -/
theorem Report.carry {E : Lru.Env} {cfg : AggConfig} {h : Report.Hist D} {s : AggState (OpAgg D)}
    (R : List (MetricValue D) → List (MetricValue D) → Prop) (Good : MetricValue D → Prop)
    (h0 : R [] []) (h1 : ∀ w ws r, (∀ v ∈ w :: ws, Good v) → foldValues .delta w ws = .ok r → R (w :: ws) [r])
    (h2 : ∀ vs rs vs' rs', R vs rs → R vs' rs' → R (vs ++ vs') (rs ++ rs'))
    (h3 : ∀ vs vs' rs, vs.Perm vs' → R vs rs → R vs' rs) (r : Report.Reach E cfg h s) {n k : Bytes}
    (hk : IsDelta cfg.kinds n) (hg : ∀ v ∈ reported cfg.H (acceptedOps h) n k, Good v) :
    R (reported cfg.H (acceptedOps h) n k) (reported cfg.H (flushedOps h ++ cachedOps cfg s) n k) := by
  obtain ⟨arr, out, pend, ha, hp, _⟩ := C41_groups r
  have hacc : ((out ++ pend).flatMap (·.ops)).Perm (acceptedOps h) := by
    rw [← arrivals_ops ha]
    have : (out ++ pend).flatMap (·.ops) = ((out ++ pend).flatMap (·.members)).map (·.op) := by
      rw [List.map_flatMap]; rfl
    rw [this]
    exact (hp.perm.map _).symm
  have hperm := reported_perm cfg.H _ _ hacc n k
  exact h3 _ _ _ hperm (carry_groups R Good h0 h1 h2 hk (List.rel_append hp.out_sum hp.pend_sum)
    fun v hv => hg v (hperm.mem_iff.mp hv))

/-- The same for the client and any number of threads: what was answered OK at once, or is about to be, and what flushes sent, what is on
its way to the flush callback, what was passed on after the callback was unset, and what is cached. -/
theorem Threads.carry {K : Client.Setup} {stops : Bool} {s : Threads.Sys D}
    (R : List (MetricValue D) → List (MetricValue D) → Prop) (Good : MetricValue D → Prop)
    (h0 : R [] []) (h1 : ∀ w ws r, (∀ v ∈ w :: ws, Good v) → foldValues .delta w ws = .ok r → R (w :: ws) [r])
    (h2 : ∀ vs rs vs' rs', R vs rs → R vs' rs' → R (vs ++ vs') (rs ++ rs'))
    (h3 : ∀ vs vs' rs, vs.Perm vs' → R vs rs → R vs' rs) (h4 : ∀ vs rs rs', rs.Perm rs' → R vs rs → R vs rs')
    (r : Threads.Reach K stops s) {n k : Bytes}
    (hk : IsDelta K.cfgR.kinds n) (hg : ∀ v ∈ reported K.cfgR.H (Client.acceptedOps s.c.trace ++ promised s) n k, Good v) :
    R (reported K.cfgR.H (Client.acceptedOps s.c.trace ++ promised s) n k)
      (reported K.cfgR.H ((Client.flushedReports s.c.trace ++ carried s ++ lost s).flatMap (·.operations) ++
        Report.cachedOps K.cfgR s.c.report) n k) := by
  obtain ⟨hc, hq, hr, l⟩ := r.links
  have e1 := sent_perm rfl l
  have e2 := l.acc
  rw [promised_eq] at e2
  have p2 := reported_perm K.cfgR.H _ _ e2 n k
  refine h3 _ _ _ p2.symm (h4 _ _ _ (reported_perm K.cfgR.H _ _ (e1.symm.append_right _) n k) ?_)
  exact Report.carry R Good h0 h1 h2 h3 l.r.reach hk (fun v hv => hg v (p2.mem_iff.mpr hv))

end

namespace Ieee
open Dist

/-! ### C116 -/

/-- A finite double. -/
def IsFinite (v : MetricValue F64) : Prop := ∃ q, v.value = .double (.fin q) ∧ IsDouble q

/-- The number a double value carries. -/
def numberOf (v : MetricValue F64) : ℚ :=
  match v.value with
  | .double (.fin q) => q
  | _ => 0

/-- The sum of the numbers, computed exactly. -/
def exactTotal (vs : List (MetricValue F64)) : ℚ := (vs.map numberOf).sum
/-- The sum of their absolute values. -/
def exactSize (vs : List (MetricValue F64)) : ℚ := (vs.map fun v => |numberOf v|).sum

theorem exactSize_nonneg (vs : List (MetricValue F64)) : 0 ≤ exactSize vs :=
  List.sum_nonneg fun y hy => by
    obtain ⟨x, _, rfl⟩ := List.mem_map.mp hy
    exact abs_nonneg _

theorem exactTotal_le (vs : List (MetricValue F64)) : |exactTotal vs| ≤ exactSize vs := by
  induction vs with
  | nil => simp [exactTotal, exactSize]
  | cons v vs ih =>
    simp only [exactTotal, exactSize, List.map_cons, List.sum_cons] at ih ⊢
    exact (abs_add_le _ _).trans (by linarith)

/-- What holds of values and those they were merged into. -/
def TotalKept (vs rs : List (MetricValue F64)) : Prop :=
  vs.length ≤ 2 ^ 40 → exactSize vs ≤ pow2 1000 →
    (∀ r ∈ rs, IsFinite r) ∧ |exactTotal rs - exactTotal vs| ≤ 2 * vs.length * exactSize vs * pow2 (-53)

theorem isDouble_neg {q : ℚ} (h : IsDouble q) : IsDouble (-q) := by
  obtain ⟨m, k, h1, h2, h3, h4, h5⟩ := h
  exact ⟨-m, k, h1, by rwa [Int.natAbs_neg], by rw [h3]; push_cast; ring, by linarith, by linarith⟩

theorem merged_number {lg : F64 → F64} {x r r' : MetricValue F64} {p q : ℚ} (hx : x.value = .double (.fin q)) (hr : r.value = .double (.fin p))
    (h : @mergeMetricValue F64 (ops lg) .delta x r = .ok r') : r'.value = .double (F64.add (.fin p) (.fin q)) := by
  simp only [mergeMetricValue, if_true, mergeDelta, hx, hr, valueCase, ne_eq, not_true, if_false, mergeDeltaValue, bind, Except.bind] at h
  cases h
  rfl

theorem fold_total {lg : F64 → F64} (w : MetricValue F64) (ws : List (MetricValue F64)) (r : MetricValue F64)
    (hg : ∀ v ∈ w :: ws, IsFinite v) (h : @foldValues F64 (ops lg) .delta w ws = .ok r) : TotalKept (w :: ws) [r] := by
  have u1 : pow2 (-53) = 1 / 2 ^ 53 := by decide +kernel
  have key := @foldValues_induction F64 (ops lg) .delta w
    (fun vs r => (∀ v ∈ vs, IsFinite v) → vs.length ≤ 2 ^ 40 → exactSize vs ≤ pow2 1000 →
      IsFinite r ∧ |numberOf r - exactTotal vs| ≤ 2 * vs.length * exactSize vs * (1 / 2 ^ 53)) ?_ ?_ ws r h hg
  · intro h1 h2
    obtain ⟨k1, k2⟩ := key h1 h2
    refine ⟨fun x hx => ?_, ?_⟩
    · rw [List.mem_singleton.mp hx]; exact k1
    · rw [u1]
      have : exactTotal [r] = numberOf r := by simp [exactTotal]
      rw [this]; exact k2
  · intro hw _ _
    refine ⟨hw w (List.mem_singleton.mpr rfl), ?_⟩
    have : numberOf w - exactTotal [w] = 0 := by simp [exactTotal]
    rw [this, abs_zero]
    have := exactSize_nonneg [w]
    exact mul_nonneg (mul_nonneg (by simp) this) (by norm_num)
  · intro vs r x r' ih hr hv hlen hsize
    have es : exactSize (vs ++ [x]) = exactSize vs + |numberOf x| := by simp [exactSize]
    have et : exactTotal (vs ++ [x]) = exactTotal vs + numberOf x := by simp [exactTotal]
    rw [List.length_append, List.length_singleton] at hlen
    have s0 := exactSize_nonneg vs
    have a0 := abs_nonneg (numberOf x)
    obtain ⟨⟨p, hp, dp⟩, ie⟩ := ih (fun v h => hv v (List.mem_append_left _ h)) (by omega) (by rw [es] at hsize; linarith)
    obtain ⟨q, hq, dq⟩ := hv x (List.mem_append_right _ (List.mem_singleton.mpr rfl))
    have hv' := merged_number hq hp hr
    have np : numberOf r = p := by simp [numberOf, hp]
    have nq : numberOf x = q := by simp [numberOf, hq]
    rw [np] at ie
    rw [es, nq] at hsize
    rw [nq] at a0
    rw [es, et, nq, List.length_append, List.length_singleton]
    have hn0 : (0 : ℚ) ≤ vs.length := Nat.cast_nonneg _
    have hn : (vs.length : ℚ) ≤ 2 ^ 40 := by exact_mod_cast (show vs.length ≤ 2 ^ 40 by omega)
    have ht := exactTotal_le vs
    have b1 : 2 * vs.length * exactSize vs * (1 / 2 ^ 53) ≤ exactSize vs := by
      have := mul_le_mul_of_nonneg_right hn s0
      linarith
    have b2 : |p + q| ≤ 2 * (exactSize vs + |q|) := by
      have c1 := abs_add_le (p - exactTotal vs) (exactTotal vs + q)
      rw [show p - exactTotal vs + (exactTotal vs + q) = p + q by ring] at c1
      have c2 := abs_add_le (exactTotal vs) q
      linarith
    have b3 : |rnd (p + q) - (p + q)| ≤ |p + q| * pow2 (-53) := by
      have := rnd_sub_rel dp (isDouble_neg dq)
      rwa [sub_neg_eq_add] at this
    rw [u1] at b3
    have hfl : fl (p + q) = .fin (rnd (p + q)) := fl_within (by
      have : 2 * pow2 1000 ≤ pow2 1023 := by decide +kernel
      linarith)
    have hr' : r'.value = .double (.fin (rnd (p + q))) := by rw [hv']; exact congrArg _ hfl
    have hd : IsDouble (rnd (p + q)) := by
      have := fl_ok (p + q)
      rw [hfl] at this
      exact this
    refine ⟨⟨_, hr', hd⟩, ?_⟩
    have nr : numberOf r' = rnd (p + q) := by simp [numberOf, hr']
    rw [nr]
    have c1 := abs_add_le (rnd (p + q) - (p + q)) (p - exactTotal vs)
    rw [show rnd (p + q) - (p + q) + (p - exactTotal vs) = rnd (p + q) - (exactTotal vs + q) by ring] at c1
    have c2 : |p + q| * (1 / 2 ^ 53) ≤ 2 * (exactSize vs + |q|) * (1 / 2 ^ 53) := mul_le_mul_of_nonneg_right b2 (by norm_num)
    have c3 : 0 ≤ vs.length * |q| := mul_nonneg hn0 a0
    push_cast
    linarith

theorem TotalKept.append {vs rs vs' rs' : List (MetricValue F64)} (a : TotalKept vs rs) (b : TotalKept vs' rs') :
    TotalKept (vs ++ vs') (rs ++ rs') := by
  intro hl hs
  rw [List.length_append] at hl
  have es : exactSize (vs ++ vs') = exactSize vs + exactSize vs' := by simp [exactSize]
  rw [es] at hs
  have s0 := exactSize_nonneg vs
  have s1 := exactSize_nonneg vs'
  obtain ⟨a1, a2⟩ := a (by omega) (by linarith)
  obtain ⟨b1, b2⟩ := b (by omega) (by linarith)
  refine ⟨fun r hr => (List.mem_append.mp hr).elim (a1 r) (b1 r), ?_⟩
  have et : exactTotal (rs ++ rs') - exactTotal (vs ++ vs') = (exactTotal rs - exactTotal vs) + (exactTotal rs' - exactTotal vs') := by
    simp only [exactTotal, List.map_append, List.sum_append]; ring
  rw [et, es, List.length_append]
  have u := (pow2_pos (-53)).le
  have m1 := mul_nonneg (mul_nonneg (Nat.cast_nonneg (α := ℚ) vs.length) s1) u
  have m2 := mul_nonneg (mul_nonneg (Nat.cast_nonneg (α := ℚ) vs'.length) s0) u
  have := abs_add_le (exactTotal rs - exactTotal vs) (exactTotal rs' - exactTotal vs')
  push_cast
  linarith

theorem TotalKept.perm_left {vs vs' rs : List (MetricValue F64)} (p : vs.Perm vs') (a : TotalKept vs rs) : TotalKept vs' rs := by
  have e1 : exactTotal vs' = exactTotal vs := ((p.map _).sum_eq).symm
  have e2 : exactSize vs' = exactSize vs := ((p.map _).sum_eq).symm
  unfold TotalKept
  rw [e1, e2, ← p.length_eq]
  exact a

theorem TotalKept.perm_right {vs rs rs' : List (MetricValue F64)} (p : rs.Perm rs') (a : TotalKept vs rs) : TotalKept vs rs' := by
  have e1 : exactTotal rs' = exactTotal rs := ((p.map _).sum_eq).symm
  intro h1 h2
  obtain ⟨a1, a2⟩ := a h1 h2
  rw [e1]
  exact ⟨fun r hr => a1 r (p.mem_iff.mpr hr), a2⟩

theorem TotalKept.nil : TotalKept [] [] := fun _ _ => ⟨by simp, by simp [exactTotal]⟩

/-- C116: the total of a delta metric with double values is kept by the report cache except for rounding: what was flushed and what is
cached add up, exactly, to a number next to the exact total of what was accepted. -/
theorem C116_double_totals {lg : F64 → F64} {E : Lru.Env} {cfg : AggConfig} {h : Report.Hist F64} {s : AggState (OpAgg F64)}
    (r : @Report.Reach F64 (ops lg) E cfg h s) (n k : Bytes) (hk : IsDelta cfg.kinds n)
    (hg : ∀ v ∈ reported cfg.H (Report.acceptedOps h) n k, IsFinite v)
    (hlen : (reported cfg.H (Report.acceptedOps h) n k).length ≤ 2 ^ 40)
    (hsize : exactSize (reported cfg.H (Report.acceptedOps h) n k) ≤ pow2 1000) :
    (∀ v ∈ reported cfg.H (Report.flushedOps h ++ Report.cachedOps cfg s) n k, IsFinite v) ∧
    |exactTotal (reported cfg.H (Report.flushedOps h ++ Report.cachedOps cfg s) n k) - exactTotal (reported cfg.H (Report.acceptedOps h) n k)| ≤
      2 * (reported cfg.H (Report.acceptedOps h) n k).length * exactSize (reported cfg.H (Report.acceptedOps h) n k) * pow2 (-53) :=
  @Report.carry F64 (ops lg) E cfg h s TotalKept IsFinite .nil fold_total (fun _ _ _ _ => .append) (fun _ _ _ => .perm_left) r n k hk hg
    hlen hsize

/-- C116 for the client used by any number of threads. -/
theorem C116_threads {lg : F64 → F64} {K : Client.Setup} {stops : Bool} {s : Threads.Sys F64}
    (r : @Threads.Reach F64 (ops lg) K stops s) (n k : Bytes) (hk : IsDelta K.cfgR.kinds n)
    (hg : ∀ v ∈ reported K.cfgR.H (Client.acceptedOps s.c.trace ++ Threads.promised s) n k, IsFinite v)
    (hlen : (reported K.cfgR.H (Client.acceptedOps s.c.trace ++ Threads.promised s) n k).length ≤ 2 ^ 40)
    (hsize : exactSize (reported K.cfgR.H (Client.acceptedOps s.c.trace ++ Threads.promised s) n k) ≤ pow2 1000) :
    (∀ v ∈ reported K.cfgR.H ((Client.flushedReports s.c.trace ++ Threads.carried s ++ Threads.lost s).flatMap (·.operations) ++
        Report.cachedOps K.cfgR s.c.report) n k, IsFinite v) ∧
    |exactTotal (reported K.cfgR.H ((Client.flushedReports s.c.trace ++ Threads.carried s ++ Threads.lost s).flatMap (·.operations) ++
        Report.cachedOps K.cfgR s.c.report) n k) -
      exactTotal (reported K.cfgR.H (Client.acceptedOps s.c.trace ++ Threads.promised s) n k)| ≤
      2 * (reported K.cfgR.H (Client.acceptedOps s.c.trace ++ Threads.promised s) n k).length *
        exactSize (reported K.cfgR.H (Client.acceptedOps s.c.trace ++ Threads.promised s) n k) * pow2 (-53) :=
  @Threads.carry F64 (ops lg) K stops s TotalKept IsFinite .nil fold_total (fun _ _ _ _ => .append) (fun _ _ _ => .perm_left)
    (fun _ _ _ => .perm_right) r n k hk hg hlen hsize

/-- C116: once the destructor has returned, the values sent add up to nearly the total of what was accepted. -/
theorem C116_all_sent {lg : F64 → F64} {K : Client.Setup} {s : Threads.Sys F64}
    (r : @Threads.Reach F64 (ops lg) K true s) (hd : Client.Ev.destroyed ∈ s.c.trace) (n k : Bytes) (hk : IsDelta K.cfgR.kinds n)
    (hg : ∀ v ∈ reported K.cfgR.H (Client.acceptedOps s.c.trace) n k, IsFinite v)
    (hlen : (reported K.cfgR.H (Client.acceptedOps s.c.trace) n k).length ≤ 2 ^ 40)
    (hsize : exactSize (reported K.cfgR.H (Client.acceptedOps s.c.trace) n k) ≤ pow2 1000) :
    (∀ v ∈ reported K.cfgR.H ((Client.flushedReports s.c.trace).flatMap (·.operations)) n k, IsFinite v) ∧
    |exactTotal (reported K.cfgR.H ((Client.flushedReports s.c.trace).flatMap (·.operations)) n k) -
      exactTotal (reported K.cfgR.H (Client.acceptedOps s.c.trace) n k)| ≤
      2 * (reported K.cfgR.H (Client.acceptedOps s.c.trace) n k).length *
        exactSize (reported K.cfgR.H (Client.acceptedOps s.c.trace) n k) * pow2 (-53) := by
  obtain ⟨h1, h2, h3, h4⟩ := @Threads.nothing_left F64 (ops lg) K s r hd
  have := C116_threads r n k hk
  rw [h1, h2, h3, h4, List.append_nil, List.append_nil, List.append_nil, List.append_nil] at this
  exact this hg hlen hsize

/-! ### C117, C118 -/

theorem layout_self {lg : F64 → F64} {b : BucketOption F64} (h : FiniteLayout b) : @bucketsApproxEqual F64 (ops lg) b b = true := by
  revert h
  cases b with
  | linear n w o =>
    rintro ⟨hw, ho⟩
    simp only [bucketsApproxEqual, beq_self_eq_true, Bool.true_and, Bool.and_eq_true]
    exact ⟨close_self hw, close_self ho⟩
  | exponential n w o =>
    rintro ⟨hw, ho⟩
    simp only [bucketsApproxEqual, beq_self_eq_true, Bool.true_and, Bool.and_eq_true]
    exact ⟨close_self hw, close_self ho⟩
  | explicit bs =>
    intro hbs
    simp only [bucketsApproxEqual, beq_self_eq_true, Bool.true_and, List.all_eq_true]
    rintro ⟨x, y⟩ hxy
    have this := List.of_mem_zip hxy
    have e : x = y := by
      clear hbs this
      induction bs with
      | nil => cases hxy
      | cons z l ih =>
        rw [List.zip_cons_cons] at hxy
        rcases List.mem_cons.mp hxy with h | h
        · cases h; rfl
        · exact ih h
    subst e
    exact close_self (hbs _ this.1)
  | unset => exact False.elim

theorem merged_distribution {lg : F64 → F64} {x r r' : MetricValue F64} {f t : Distribution F64} (hx : x.value = .distribution f)
    (hr : r.value = .distribution t) (h : @mergeMetricValue F64 (ops lg) .delta x r = .ok r') :
    ∃ st d, @Dist.merge F64 (ops lg) f t = .ok (st, d) ∧ r'.value = .distribution d := by
  simp only [mergeMetricValue, if_true, mergeDelta, hx, hr, valueCase, ne_eq, not_true, if_false, mergeDeltaValue, bind, Except.bind] at h
  split at h
  · cases h
  · rename_i v hv
    cases h
    split at hv
    · cases hv
    · rename_i y hy
      cases hv
      exact ⟨y.1, y.2, hy, rfl⟩

/-- A distribution with the layout `b` and `m` counters, which are zero if its count is. -/
def Histogram (b : BucketOption F64) (m : Nat) (v : MetricValue F64) : Prop :=
  ∃ d, v.value = .distribution d ∧ d.buckets = b ∧ d.bucketCounts.length = m ∧ 0 ≤ d.count ∧ (d.count = 0 → ∀ c ∈ d.bucketCounts, c = 0)

/-- The number of samples. -/
def countOf (v : MetricValue F64) : Int :=
  match v.value with
  | .distribution d => d.count
  | _ => 0

/-- The number of samples in bucket `i`. -/
def bucketOf (i : Nat) (v : MetricValue F64) : Int :=
  match v.value with
  | .distribution d => d.bucketCounts[i]?.getD 0
  | _ => 0

/-- What holds of histograms and those they were merged into. -/
def CountsKept (b : BucketOption F64) (m : Nat) (vs rs : List (MetricValue F64)) : Prop :=
  (∀ r ∈ rs, Histogram b m r) ∧ (rs.map countOf).sum = (vs.map countOf).sum ∧
    ∀ i, (rs.map (bucketOf i)).sum = (vs.map (bucketOf i)).sum

theorem getD_zero {l : List Int} (h : ∀ c ∈ l, c = 0) (i : Nat) : l[i]?.getD 0 = 0 := by
  cases he : l[i]? with
  | none => rfl
  | some c => exact h c (List.mem_of_getElem? he)

theorem merge_counts {lg : F64 → F64} {b : BucketOption F64} {m : Nat} (hb : FiniteLayout b) {x r r' : MetricValue F64}
    (hx : Histogram b m x) (hr : Histogram b m r) (h : @mergeMetricValue F64 (ops lg) .delta x r = .ok r') :
    Histogram b m r' ∧ countOf r' = countOf r + countOf x ∧ ∀ i, bucketOf i r' = bucketOf i r + bucketOf i x := by
  obtain ⟨f, hf, f1, f2, f3, f4⟩ := hx
  obtain ⟨t, ht, t1, t2, t3, t4⟩ := hr
  obtain ⟨st, d, hm, hd⟩ := merged_distribution hf ht h
  have cx : countOf x = f.count := by simp [countOf, hf]
  have cr : countOf r = t.count := by simp [countOf, ht]
  have cd : countOf r' = d.count := by simp [countOf, hd]
  have bx : ∀ i, bucketOf i x = f.bucketCounts[i]?.getD 0 := fun i => by simp [bucketOf, hf]
  have br : ∀ i, bucketOf i r = t.bucketCounts[i]?.getD 0 := fun i => by simp [bucketOf, ht]
  have bd : ∀ i, bucketOf i r' = d.bucketCounts[i]?.getD 0 := fun i => by simp [bucketOf, hd]
  simp only [cx, cr, cd, bx, br, bd]
  rcases @merge_ok_cases F64 (ops lg) _ _ _ _ hm with ⟨_, _, h1 | h1⟩ | ⟨_, _, hl, ⟨h0, rfl⟩ | ⟨_, h0, rfl⟩ | ⟨g0, _, g1, g2, g3⟩⟩
  · rw [f1, t1, layout_self hb] at h1; cases h1
  · exact absurd (f2.trans t2.symm) h1
  · have e : f.count = 0 := by omega
    exact ⟨⟨_, hd, t1, t2, t3, t4⟩, by omega, fun i => by rw [getD_zero (f4 e) i, add_zero]⟩
  · have e : t.count = 0 := by omega
    exact ⟨⟨_, hd, f1, f2, f3, f4⟩, by omega, fun i => by rw [getD_zero (t4 e) i, zero_add]⟩
  · obtain ⟨a1, _, a3⟩ := addCounts_ok hl g3
    refine ⟨⟨_, hd, g2.trans t1, a1.trans t2, by omega, fun e => by omega⟩, g1, fun i => ?_⟩
    by_cases hi : i < m
    · obtain ⟨c1, h1⟩ : ∃ c, t.bucketCounts[i]? = some c := ⟨_, List.getElem?_eq_getElem (by omega)⟩
      obtain ⟨c2, h2⟩ : ∃ c, f.bucketCounts[i]? = some c := ⟨_, List.getElem?_eq_getElem (by omega)⟩
      rw [a3 i c1 c2 h1 h2, h1, h2]; rfl
    · rw [List.getElem?_eq_none (by omega), List.getElem?_eq_none (by omega), List.getElem?_eq_none (by omega)]; rfl

theorem fold_counts {lg : F64 → F64} {b : BucketOption F64} {m : Nat} (hb : FiniteLayout b) (w : MetricValue F64)
    (ws : List (MetricValue F64)) (r : MetricValue F64) (hg : ∀ v ∈ w :: ws, Histogram b m v)
    (h : @foldValues F64 (ops lg) .delta w ws = .ok r) : CountsKept b m (w :: ws) [r] := by
  have key := @foldValues_induction F64 (ops lg) .delta w
    (fun vs r => (∀ v ∈ vs, Histogram b m v) → Histogram b m r ∧ countOf r = (vs.map countOf).sum ∧
      ∀ i, bucketOf i r = (vs.map (bucketOf i)).sum) ?_ ?_ ws r h hg
  · obtain ⟨k1, k2, k3⟩ := key
    refine ⟨fun x hx => ?_, ?_, fun i => ?_⟩
    · rw [List.mem_singleton.mp hx]; exact k1
    · rw [← k2]; simp
    · rw [← k3 i]; simp
  · intro hw
    exact ⟨hw w (List.mem_singleton.mpr rfl), by simp, fun i => by simp⟩
  · intro vs r x r' ih hr hv
    obtain ⟨k1, k2, k3⟩ := ih fun v h => hv v (List.mem_append_left _ h)
    obtain ⟨j1, j2, j3⟩ := merge_counts hb (hv x (List.mem_append_right _ (List.mem_singleton.mpr rfl))) k1 hr
    refine ⟨j1, ?_, fun i => ?_⟩
    · rw [j2, k2]; simp
    · rw [j3, k3]; simp

theorem CountsKept.append {b : BucketOption F64} {m : Nat} {vs rs vs' rs' : List (MetricValue F64)} (x : CountsKept b m vs rs)
    (y : CountsKept b m vs' rs') : CountsKept b m (vs ++ vs') (rs ++ rs') := by
  refine ⟨fun r hr => (List.mem_append.mp hr).elim (x.1 r) (y.1 r), ?_, fun i => ?_⟩
  · rw [List.map_append, List.sum_append, List.map_append, List.sum_append, x.2.1, y.2.1]
  · rw [List.map_append, List.sum_append, List.map_append, List.sum_append, x.2.2 i, y.2.2 i]

theorem CountsKept.perm_left {b : BucketOption F64} {m : Nat} {vs vs' rs : List (MetricValue F64)} (p : vs.Perm vs')
    (x : CountsKept b m vs rs) : CountsKept b m vs' rs :=
  ⟨x.1, x.2.1.trans (p.map _).sum_eq, fun i => (x.2.2 i).trans (p.map _).sum_eq⟩

theorem CountsKept.perm_right {b : BucketOption F64} {m : Nat} {vs rs rs' : List (MetricValue F64)} (p : rs.Perm rs')
    (x : CountsKept b m vs rs) : CountsKept b m vs rs' :=
  ⟨fun r hr => x.1 r (p.mem_iff.mpr hr), (p.map _).sum_eq.symm.trans x.2.1, fun i => (p.map _).sum_eq.symm.trans (x.2.2 i)⟩

theorem CountsKept.nil {b : BucketOption F64} {m : Nat} : CountsKept b m [] [] := ⟨by simp, rfl, fun _ => rfl⟩

/-- C117: if all distributions reported for a delta metric have one finite layout, what was flushed and what is cached counts exactly the
samples accepted, in total and in each bucket. -/
theorem C117_samples_kept_partial {lg : F64 → F64} {E : Lru.Env} {cfg : AggConfig} {h : Report.Hist F64} {s : AggState (OpAgg F64)}
    (r : @Report.Reach F64 (ops lg) E cfg h s) (n k : Bytes) (hk : IsDelta cfg.kinds n) (b : BucketOption F64) (m : Nat)
    (hb : FiniteLayout b) (hg : ∀ v ∈ reported cfg.H (Report.acceptedOps h) n k, Histogram b m v) :
    ((reported cfg.H (Report.flushedOps h ++ Report.cachedOps cfg s) n k).map countOf).sum =
      ((reported cfg.H (Report.acceptedOps h) n k).map countOf).sum ∧
    ∀ i, ((reported cfg.H (Report.flushedOps h ++ Report.cachedOps cfg s) n k).map (bucketOf i)).sum =
      ((reported cfg.H (Report.acceptedOps h) n k).map (bucketOf i)).sum :=
  (@Report.carry F64 (ops lg) E cfg h s (CountsKept b m) (Histogram b m) .nil (fold_counts hb) (fun _ _ _ _ => .append)
    (fun _ _ _ => .perm_left) r n k hk hg).2

/-- C117 for the client used by any number of threads. -/
theorem C117_threads_partial {lg : F64 → F64} {K : Client.Setup} {stops : Bool} {s : Threads.Sys F64}
    (r : @Threads.Reach F64 (ops lg) K stops s) (n k : Bytes) (hk : IsDelta K.cfgR.kinds n) (b : BucketOption F64) (m : Nat)
    (hb : FiniteLayout b)
    (hg : ∀ v ∈ reported K.cfgR.H (Client.acceptedOps s.c.trace ++ Threads.promised s) n k, Histogram b m v) :
    ((reported K.cfgR.H ((Client.flushedReports s.c.trace ++ Threads.carried s ++ Threads.lost s).flatMap (·.operations) ++
        Report.cachedOps K.cfgR s.c.report) n k).map countOf).sum =
      ((reported K.cfgR.H (Client.acceptedOps s.c.trace ++ Threads.promised s) n k).map countOf).sum ∧
    ∀ i, ((reported K.cfgR.H ((Client.flushedReports s.c.trace ++ Threads.carried s ++ Threads.lost s).flatMap (·.operations) ++
        Report.cachedOps K.cfgR s.c.report) n k).map (bucketOf i)).sum =
      ((reported K.cfgR.H (Client.acceptedOps s.c.trace ++ Threads.promised s) n k).map (bucketOf i)).sum :=
  (@Threads.carry F64 (ops lg) K stops s (CountsKept b m) (Histogram b m) .nil (fold_counts hb) (fun _ _ _ _ => .append)
    (fun _ _ _ => .perm_left) (fun _ _ _ => .perm_right) r n k hk hg).2

/-- C117: once the destructor has returned, the distributions sent count exactly the samples accepted. -/
theorem C117_all_sent_partial {lg : F64 → F64} {K : Client.Setup} {s : Threads.Sys F64}
    (r : @Threads.Reach F64 (ops lg) K true s) (hd : Client.Ev.destroyed ∈ s.c.trace) (n k : Bytes) (hk : IsDelta K.cfgR.kinds n)
    (b : BucketOption F64) (m : Nat) (hb : FiniteLayout b)
    (hg : ∀ v ∈ reported K.cfgR.H (Client.acceptedOps s.c.trace) n k, Histogram b m v) :
    ((reported K.cfgR.H ((Client.flushedReports s.c.trace).flatMap (·.operations)) n k).map countOf).sum =
      ((reported K.cfgR.H (Client.acceptedOps s.c.trace) n k).map countOf).sum ∧
    ∀ i, ((reported K.cfgR.H ((Client.flushedReports s.c.trace).flatMap (·.operations)) n k).map (bucketOf i)).sum =
      ((reported K.cfgR.H (Client.acceptedOps s.c.trace) n k).map (bucketOf i)).sum := by
  obtain ⟨h1, h2, h3, h4⟩ := @Threads.nothing_left F64 (ops lg) K s r hd
  have := C117_threads_partial r n k hk b m hb
  rw [h1, h2, h3, h4, List.append_nil, List.append_nil, List.append_nil, List.append_nil] at this
  exact this hg

/-- A distribution with the layout `b` and `m` counters, filled with the samples `xs` by `AddSample` and `Merge`. -/
def Samples (lg : F64 → F64) (b : BucketOption F64) (m : Nat) (xs : List ℚ) (v : MetricValue F64) : Prop :=
  ∃ d, v.value = .distribution d ∧ d.buckets = b ∧ d.bucketCounts.length = m ∧ Filled lg xs d

/-- Values split into groups, each of which was merged into one. -/
def Grouped (lg : F64 → F64) (b : BucketOption F64) (m : Nat) (f : MetricValue F64 → List ℚ) (vs rs : List (MetricValue F64)) : Prop :=
  ∃ gs : List (List (MetricValue F64)), gs.flatten.Perm vs ∧
    List.Forall₂ (fun g r => g ≠ [] ∧ Samples lg b m (g.flatMap f) r) gs rs

theorem fold_samples {lg : F64 → F64} {b : BucketOption F64} {m : Nat} {f : MetricValue F64 → List ℚ} (hb : FiniteLayout b)
    (w : MetricValue F64) (ws : List (MetricValue F64)) (r : MetricValue F64) (hg : ∀ v ∈ w :: ws, Samples lg b m (f v) v)
    (h : @foldValues F64 (ops lg) .delta w ws = .ok r) : Grouped lg b m f (w :: ws) [r] := by
  have key := @foldValues_induction F64 (ops lg) .delta w
    (fun vs r => (∀ v ∈ vs, Samples lg b m (f v) v) → Samples lg b m (vs.flatMap f) r) ?_ ?_ ws r h hg
  · exact ⟨[w :: ws], by simp, .cons ⟨by simp, key⟩ .nil⟩
  · intro hw
    have := hw w (List.mem_singleton.mpr rfl)
    rwa [List.flatMap_cons, List.flatMap_nil, List.append_nil]
  · intro vs r x r' ih hr hv
    obtain ⟨t, ht, t1, t2, t3⟩ := ih fun v h => hv v (List.mem_append_left _ h)
    obtain ⟨y, hy, y1, y2, y3⟩ := hv x (List.mem_append_right _ (List.mem_singleton.mpr rfl))
    obtain ⟨st, d, hm, hd⟩ := merged_distribution hy ht hr
    have hst : st = .ok ∧ d.buckets = b ∧ d.bucketCounts.length = m := by
      rcases @merge_ok_cases F64 (ops lg) _ _ _ _ hm with ⟨_, _, h1 | h1⟩ | ⟨rfl, _, hl, ⟨h0, rfl⟩ | ⟨_, h0, rfl⟩ | ⟨g0, _, g1, g2, g3⟩⟩
      · rw [y1, t1, layout_self hb] at h1; cases h1
      · exact absurd (y2.trans t2.symm) h1
      · exact ⟨rfl, t1, t2⟩
      · exact ⟨rfl, y1, y2⟩
      · exact ⟨rfl, g2.trans t1, (addCounts_ok hl g3).1.trans t2⟩
    obtain ⟨rfl, e1, e2⟩ := hst
    refine ⟨d, hd, e1, e2, ?_⟩
    rw [List.flatMap_append, List.flatMap_cons, List.flatMap_nil, List.append_nil]
    exact .merge y3 t3 hm

theorem Grouped.append {lg : F64 → F64} {b : BucketOption F64} {m : Nat} {f : MetricValue F64 → List ℚ}
    {vs rs vs' rs' : List (MetricValue F64)} (x : Grouped lg b m f vs rs) (y : Grouped lg b m f vs' rs') :
    Grouped lg b m f (vs ++ vs') (rs ++ rs') := by
  obtain ⟨g, h1, h2⟩ := x
  obtain ⟨g', h1', h2'⟩ := y
  exact ⟨g ++ g', by rw [List.flatten_append]; exact h1.append h1', List.rel_append h2 h2'⟩

theorem Grouped.perm_right {lg : F64 → F64} {b : BucketOption F64} {m : Nat} {f : MetricValue F64 → List ℚ}
    {vs rs rs' : List (MetricValue F64)} (p : rs.Perm rs') (x : Grouped lg b m f vs rs) : Grouped lg b m f vs rs' := by
  obtain ⟨g, h1, h2⟩ := x
  obtain ⟨g', h3, h4⟩ := List.perm_comp_forall₂ p.symm h2.flip
  exact ⟨g', h4.flatten.trans h1, h3.flip⟩

/-- What a distribution should say about the samples `xs`, of at most `M`: their number, the extremes exactly, the mean and the sum of
squared deviation as nearly as C103 and C115 say. -/
def Describes (M : ℚ) (xs : List ℚ) (d : Distribution F64) : Prop :=
  d.count = xs.length ∧
  (∃ m, d.mean = .fin m ∧ |m - exactMean xs| ≤ 4 * (xs.length + 1) * (M * pow2 (-53) + pow2 (-1074))) ∧
  (∃ s, d.ssd = .fin s ∧ |s - exactSsd xs| ≤ 128 * xs.length ^ 2 * (M ^ 2 * pow2 (-53) + pow2 (-1074))) ∧
  (∃ a ∈ xs, d.minimum = .fin a ∧ ∀ x ∈ xs, a ≤ x) ∧ (∃ a ∈ xs, d.maximum = .fin a ∧ ∀ x ∈ xs, x ≤ a)

/-- The values `vs` split into groups, one for each of `rs`, which describes the samples of its group. -/
def Described (M : ℚ) (f : MetricValue F64 → List ℚ) (vs rs : List (MetricValue F64)) : Prop :=
  ∃ gs : List (List (MetricValue F64)), gs.flatten.Perm vs ∧
    List.Forall₂ (fun g r => g ≠ [] ∧ ∃ d, r.value = .distribution d ∧ Describes M (g.flatMap f) d) gs rs

/-- What is asked of the reported values: each is filled with the samples `f` says, at least one and none above `M`, and they are not too
many. -/
structure Sampled (lg : F64 → F64) (M : ℚ) (f : MetricValue F64 → List ℚ) (vs : List (MetricValue F64)) : Prop where
  low : pow2 (-1021) ≤ M
  high : M ≤ pow2 480
  some : ∀ v ∈ vs, f v ≠ []
  bound : ∀ v ∈ vs, ∀ x ∈ f v, |x| ≤ M
  len : (vs.flatMap f).length ≤ 2 ^ 40
  layout : ∃ b m, FiniteLayout b ∧ ∀ v ∈ vs, Samples lg b m (f v) v

theorem Grouped.described {lg : F64 → F64} {b : BucketOption F64} {m : Nat} {f : MetricValue F64 → List ℚ} {M : ℚ}
    {vs rs : List (MetricValue F64)} (x : Grouped lg b m f vs rs) (h : Sampled lg M f vs) : Described M f vs rs := by
  obtain ⟨gs, h1, h2⟩ := x
  refine ⟨gs, h1, ?_⟩
  have hin : ∀ g ∈ gs, (∀ v ∈ g, v ∈ vs) ∧ (g.flatMap f).length ≤ 2 ^ 40 := by
    intro g hg
    refine ⟨fun v hv => h1.mem_iff.mp (List.mem_flatten.mpr ⟨g, hg, hv⟩), ?_⟩
    have e : (gs.flatten.flatMap f).length = (vs.flatMap f).length := (h1.flatMap_right f).length_eq
    have := ((List.sublist_flatten_of_mem hg).map f).flatten.length_le
    rw [← List.flatMap_def, ← List.flatMap_def] at this
    exact this.trans (e.le.trans h.len)
  have hM9 : M ≤ pow2 900 := h.high.trans (pow2_le (by norm_num))
  clear h1
  induction h2 with
  | nil => exact .nil
  | @cons g r gs rs hgr _ ih =>
    refine .cons ⟨hgr.1, ?_⟩ (ih fun g hg => hin g (List.mem_cons_of_mem _ hg))
    obtain ⟨hv, hl⟩ := hin g (List.mem_cons_self)
    obtain ⟨hne, d, hd, _, _, hf⟩ := hgr
    have n1 : g.flatMap f ≠ [] := by
      obtain ⟨v, g', rfl⟩ := List.exists_cons_of_ne_nil hne
      intro e
      rw [List.flatMap_cons] at e
      exact h.some v (hv v List.mem_cons_self) (List.append_eq_nil_iff.mp e).1
    have n2 : ∀ y ∈ g.flatMap f, |y| ≤ M := by
      intro y hy
      obtain ⟨v, hv', hy'⟩ := List.mem_flatMap.mp hy
      exact h.bound v (hv v hv') y hy'
    obtain ⟨c1, c2, c3, c4⟩ := C103_merged_error_partial hM9 hf n1 hl n2
    exact ⟨d, hd, c1, c2, C115_ssd_error_partial hf h.low h.high n1 hl n2, c3, c4⟩

/-- C118: the distributions flushed and cached for a delta metric describe the samples of the reported ones. -/
theorem C118_statistics {lg : F64 → F64} {E : Lru.Env} {cfg : AggConfig} {h : Report.Hist F64} {s : AggState (OpAgg F64)}
    (r : @Report.Reach F64 (ops lg) E cfg h s) (n k : Bytes) (hk : IsDelta cfg.kinds n) (f : MetricValue F64 → List ℚ) (M : ℚ)
    (hg : Sampled lg M f (reported cfg.H (Report.acceptedOps h) n k)) :
    Described M f (reported cfg.H (Report.acceptedOps h) n k)
      (reported cfg.H (Report.flushedOps h ++ Report.cachedOps cfg s) n k) := by
  obtain ⟨b, m, hb, hs⟩ := hg.layout
  exact (@Report.carry F64 (ops lg) E cfg h s (Grouped lg b m f) (fun v => Samples lg b m (f v) v) ⟨[], .nil, .nil⟩ (fold_samples hb)
    (fun _ _ _ _ => .append) (fun _ _ _ p x => x.imp fun _ y => ⟨y.1.trans p, y.2⟩) r n k hk hs).described hg

/-- C118 for the client used by any number of threads. -/
theorem C118_threads {lg : F64 → F64} {K : Client.Setup} {stops : Bool} {s : Threads.Sys F64}
    (r : @Threads.Reach F64 (ops lg) K stops s) (n k : Bytes) (hk : IsDelta K.cfgR.kinds n) (f : MetricValue F64 → List ℚ) (M : ℚ)
    (hg : Sampled lg M f (reported K.cfgR.H (Client.acceptedOps s.c.trace ++ Threads.promised s) n k)) :
    Described M f (reported K.cfgR.H (Client.acceptedOps s.c.trace ++ Threads.promised s) n k)
      (reported K.cfgR.H ((Client.flushedReports s.c.trace ++ Threads.carried s ++ Threads.lost s).flatMap (·.operations) ++
        Report.cachedOps K.cfgR s.c.report) n k) := by
  obtain ⟨b, m, hb, hs⟩ := hg.layout
  exact (@Threads.carry F64 (ops lg) K stops s (Grouped lg b m f) (fun v => Samples lg b m (f v) v) ⟨[], .nil, .nil⟩ (fold_samples hb)
    (fun _ _ _ _ => .append) (fun _ _ _ p x => x.imp fun _ y => ⟨y.1.trans p, y.2⟩) (fun _ _ _ => .perm_right) r n k hk hs).described hg

/-- C118: once the destructor has returned, the distributions sent describe all samples accepted. -/
theorem C118_all_sent {lg : F64 → F64} {K : Client.Setup} {s : Threads.Sys F64}
    (r : @Threads.Reach F64 (ops lg) K true s) (hd : Client.Ev.destroyed ∈ s.c.trace) (n k : Bytes) (hk : IsDelta K.cfgR.kinds n)
    (f : MetricValue F64 → List ℚ) (M : ℚ) (hg : Sampled lg M f (reported K.cfgR.H (Client.acceptedOps s.c.trace) n k)) :
    Described M f (reported K.cfgR.H (Client.acceptedOps s.c.trace) n k)
      (reported K.cfgR.H ((Client.flushedReports s.c.trace).flatMap (·.operations)) n k) := by
  obtain ⟨h1, h2, h3, h4⟩ := @Threads.nothing_left F64 (ops lg) K s r hd
  have := C118_threads r n k hk f M
  rw [h1, h2, h3, h4, List.append_nil, List.append_nil, List.append_nil, List.append_nil] at this
  exact this hg

/-! ### Cases -/

/-- An operation named `c` with one metric. -/
def caseOp (c : UInt8) (v : Value F64) : Operation F64 :=
  ⟨[], [c], [99], some ⟨1, 0⟩, some ⟨2, 0⟩, [], [⟨[109], [⟨[([107], [118])], some ⟨1, 0⟩, some ⟨2, 0⟩, v⟩]⟩], [], 0, []⟩

def caseKey : Bytes := metricValueSig Report.exCfg.H (D := F64) ⟨[([107], [118])], some ⟨1, 0⟩, some ⟨2, 0⟩, .bool true⟩

/-- One report for each operation. -/
def caseRun (os : List (Operation F64)) : Res (Report.Hist F64 × AggState (OpAgg F64)) :=
  @Report.run F64 (ops id) Report.exEnv Report.exCfg (os.map fun o => .report ⟨[115], [o], [49]⟩)

theorem case_reach {os : List (Operation F64)} {p : Report.Hist F64 × AggState (OpAgg F64) → Bool} (h : okWith (caseRun os) p = true) :
    ∃ h s, @Report.Reach F64 (ops id) Report.exEnv Report.exCfg h s ∧ p (h, s) = true := by
  obtain ⟨⟨h, s⟩, hr, hp⟩ := of_okWith h
  exact ⟨h, s, @Report.run_reach F64 (ops id) _ _ _ _ _ hr, hp⟩

def caseIn (h : Report.Hist F64) : List (MetricValue F64) := reported Report.exCfg.H (Report.acceptedOps h) [109] caseKey
def caseOut (h : Report.Hist F64) (s : AggState (OpAgg F64)) : List (MetricValue F64) :=
  reported Report.exCfg.H (Report.flushedOps h ++ Report.cachedOps Report.exCfg s) [109] caseKey

/-- C116: 0.1, 0.2 and 0.3 meet the hypotheses; the total is not exact. -/
theorem C116_false_exact : ∃ h s, @Report.Reach F64 (ops id) Report.exEnv Report.exCfg h s ∧
    (caseIn h).map (·.value) = [.double (fl (1 / 10)), .double (fl (2 / 10)), .double (fl (3 / 10))] ∧
    (∀ v ∈ caseIn h, IsFinite v) ∧ exactSize (caseIn h) ≤ pow2 1000 ∧ (caseOut h s).length = 1 ∧
    exactTotal (caseOut h s) ≠ exactTotal (caseIn h) := by
  obtain ⟨h, s, r, hp⟩ := case_reach (os := [fl (1 / 10), fl (2 / 10), fl (3 / 10)].map fun x => caseOp 1 (.double x))
    (p := fun p => (caseIn p.1).map (·.value) == [.double (fl (1 / 10)), .double (fl (2 / 10)), .double (fl (3 / 10))] &&
      decide (exactSize (caseIn p.1) ≤ pow2 1000) && (caseOut p.1 p.2).length == 1 &&
      exactTotal (caseOut p.1 p.2) != exactTotal (caseIn p.1)) (by decide +kernel)
  simp only [Bool.and_eq_true, beq_iff_eq, decide_eq_true_eq, bne_iff_ne] at hp
  obtain ⟨⟨⟨h1, h2⟩, h3⟩, h4⟩ := hp
  refine ⟨h, s, r, h1, fun v hv => ?_, h2, h3, h4⟩
  have : v.value ∈ (caseIn h).map (·.value) := List.mem_map_of_mem hv
  rw [h1] at this
  have e : ∀ q, |q| ≤ 1 → IsFinite v ∨ v.value ≠ .double (fl q) := by
    intro q hq
    by_cases e : v.value = .double (fl q)
    · left
      have b := fl_within (q := q) (hq.trans (by decide +kernel))
      have o := fl_ok q
      rw [b] at o e
      exact ⟨_, e, o⟩
    · exact .inr e
  simp only [List.mem_cons, List.not_mem_nil, or_false] at this
  rcases this with e1 | e1 | e1
  · exact (e _ (by norm_num [abs_le])).resolve_right (not_not.mpr e1)
  · exact (e _ (by norm_num [abs_le])).resolve_right (not_not.mpr e1)
  · exact (e _ (by norm_num [abs_le])).resolve_right (not_not.mpr e1)

/-- C116: without a bound on the total, finite values add up to infinity. -/
theorem C116_false_overflow : ∃ h s, @Report.Reach F64 (ops id) Report.exEnv Report.exCfg h s ∧
    (caseIn h).map (·.value) = [.double (fl (10 ^ 308)), .double (fl (10 ^ 308))] ∧
    (caseOut h s).map (·.value) = [.double (.inf false)] := by
  obtain ⟨h, s, r, hp⟩ := case_reach (os := [fl (10 ^ 308), fl (10 ^ 308)].map fun x => caseOp 1 (.double x))
    (p := fun p => (caseIn p.1).map (·.value) == [.double (fl (10 ^ 308)), .double (fl (10 ^ 308))] &&
      (caseOut p.1 p.2).map (·.value) == [.double (.inf false)]) (by decide +kernel)
  simp only [Bool.and_eq_true, beq_iff_eq] at hp
  exact ⟨h, s, r, hp.1, hp.2⟩

/-- One sample, between the bounds 0 and infinity. -/
def infinite : Distribution F64 := ⟨1, .fin 1, .fin 1, .fin 1, .fin 0, [0, 1, 0], .explicit [.fin 0, .inf false]⟩

/-- C117: of two reports, both answered OK and equal to the last bit, one is lost if the layout has an infinite bound. -/
theorem C117_false_infinite : ∃ h s, @Report.Reach F64 (ops id) Report.exEnv Report.exCfg h s ∧
    (caseIn h).map (·.value) = [.distribution infinite, .distribution infinite] ∧
    (caseOut h s).map (·.value) = [.distribution infinite] := by
  obtain ⟨h, s, r, hp⟩ := case_reach (os := [infinite, infinite].map fun x => caseOp 1 (.distribution x))
    (p := fun p => (caseIn p.1).map (·.value) == [.distribution infinite, .distribution infinite] &&
      (caseOut p.1 p.2).map (·.value) == [.distribution infinite]) (by decide +kernel)
  simp only [Bool.and_eq_true, beq_iff_eq] at hp
  exact ⟨h, s, r, hp.1, hp.2⟩

/-- Two samples, 1 and 2. -/
def twoSamples : Distribution F64 := ⟨2, .fin (3 / 2), .fin 1, .fin 2, .fin (1 / 2), [0, 2], .explicit [.fin 0]⟩
/-- One sample, -3. -/
def oneSample : Distribution F64 := ⟨1, .fin (-3), .fin (-3), .fin (-3), .fin 0, [1, 0], .explicit [.fin 0]⟩

theorem twoSamples_filled : Filled id [1, 2] twoSamples := by
  obtain ⟨d, hd, h⟩ := of_okWith (r := @Dist.addSamples F64 (ops id) twoBuckets ([1, 2].map .fin)) (p := fun d => d == twoSamples) (by decide +kernel)
  rw [beq_iff_eq] at h
  subst h
  exact addSamples_filled [1, 2] (by intro h; cases h) (.init rfl) hd

theorem oneSample_filled : Filled id [-3] oneSample := by
  obtain ⟨d, hd, h⟩ := of_okWith (r := @Dist.addSamples F64 (ops id) twoBuckets ([-3].map .fin)) (p := fun d => d == oneSample) (by decide +kernel)
  rw [beq_iff_eq] at h
  subst h
  exact addSamples_filled [-3] (by intro h; cases h) (.init rfl) hd

/-- A case of C117 and C118: two of three reports are merged. -/
example : ∃ h s f, @Report.Reach F64 (ops id) Report.exEnv Report.exCfg h s ∧ (caseIn h).length = 3 ∧
    (∀ v ∈ caseIn h, Histogram (.explicit [.fin 0]) 2 v) ∧ Sampled id 3 f (caseIn h) ∧
    (caseOut h s).map countOf = [2, 3] ∧ (caseOut h s).map (bucketOf 0) = [0, 1] := by
  obtain ⟨h, s, r, hp⟩ := case_reach
    (os := [caseOp 1 (.distribution twoSamples), caseOp 2 (.distribution twoSamples), caseOp 1 (.distribution oneSample)])
    (p := fun p => (caseIn p.1).map (·.value) == [.distribution twoSamples, .distribution twoSamples, .distribution oneSample] &&
      (caseOut p.1 p.2).map countOf == [2, 3] && (caseOut p.1 p.2).map (bucketOf 0) == [0, 1]) (by decide +kernel)
  simp only [Bool.and_eq_true, beq_iff_eq] at hp
  obtain ⟨⟨h1, h2⟩, h3⟩ := hp
  let f : MetricValue F64 → List ℚ := fun v => if v.value = .distribution twoSamples then [1, 2] else [-3]
  have hv : ∀ v ∈ caseIn h, (v.value = .distribution twoSamples ∧ f v = [1, 2]) ∨ (v.value = .distribution oneSample ∧ f v = [-3]) := by
    intro v hv
    have : v.value ∈ (caseIn h).map (·.value) := List.mem_map_of_mem hv
    rw [h1] at this
    simp only [List.mem_cons, List.not_mem_nil, or_false] at this
    rcases this with e | e | e
    · exact .inl ⟨e, by simp only [f, e, if_true]⟩
    · exact .inl ⟨e, by simp only [f, e, if_true]⟩
    · refine .inr ⟨e, ?_⟩
      have : ¬ Value.distribution oneSample = Value.distribution twoSamples := by decide +kernel
      simp only [f, e, this, if_false]
  have hl : (caseIn h).length = 3 := by rw [← List.length_map (f := (·.value)), h1]; rfl
  refine ⟨h, s, f, r, hl, fun v h => ?_, ⟨by decide +kernel, by decide +kernel, fun v h => ?_, fun v h => ?_, ?_,
    .explicit [.fin 0], 2, ?_, fun v h => ?_⟩, h2, h3⟩
  · rcases hv v h with ⟨e, _⟩ | ⟨e, _⟩
    · exact ⟨_, e, rfl, rfl, by decide +kernel, by decide +kernel⟩
    · exact ⟨_, e, rfl, rfl, by decide +kernel, by decide +kernel⟩
  · rcases hv v h with ⟨_, e⟩ | ⟨_, e⟩ <;> rw [e] <;> simp
  · rcases hv v h with ⟨_, e⟩ | ⟨_, e⟩ <;> rw [e] <;> intro x hx <;>
      simp only [List.mem_cons, List.not_mem_nil, or_false] at hx
    · rcases hx with rfl | rfl <;> norm_num [abs_le]
    · subst hx; norm_num [abs_le]
  · have : ∀ l : List (MetricValue F64), (l.flatMap f).length ≤ 2 * l.length := by
      intro l
      induction l with
      | nil => simp
      | cons v l ih =>
        have e : (f v).length ≤ 2 := by simp only [f]; split <;> simp
        simp only [List.flatMap_cons, List.length_append, List.length_cons]
        omega
    have := this (caseIn h)
    omega
  · intro x hx
    rw [List.mem_singleton.mp hx]
    exact ⟨_, rfl⟩
  · rcases hv v h with ⟨e, e'⟩ | ⟨e, e'⟩
    · exact ⟨_, e, rfl, rfl, by rw [e']; exact twoSamples_filled⟩
    · exact ⟨_, e, rfl, rfl, by rw [e']; exact oneSample_filled⟩

/-- A case of `C117_all_sent_partial`, and of `C117_threads_partial` and C118: two threads report samples of one metric, the destructor sends one
distribution. -/
example : ∃ s, @Threads.Reach F64 (ops id) Client.exK true s ∧ Client.Ev.destroyed ∈ s.c.trace ∧
    (reported Client.exK.cfgR.H (Client.acceptedOps s.c.trace) [109] caseKey).map (·.value) =
      [.distribution twoSamples, .distribution oneSample] ∧
    (∀ v ∈ reported Client.exK.cfgR.H (Client.acceptedOps s.c.trace) [109] caseKey, Histogram (.explicit [.fin 0]) 2 v) ∧
    (reported Client.exK.cfgR.H ((Client.flushedReports s.c.trace).flatMap (·.operations)) [109] caseKey).map countOf = [3] := by
  obtain ⟨s, r, h1, h2, h3⟩ := @Threads.schedule_case F64 (ops id) Client.exK true
    ([.spawn, .spawn, .call 0 (.report ⟨[115], [caseOp 1 (.distribution twoSamples)], [49]⟩) .default,
      .call 1 (.report ⟨[115], [caseOp 1 (.distribution oneSample)], [49]⟩) .default, .work 0, .work 1] ++ Threads.steps 0 4 ++ Threads.steps 1 4 ++
      [.destroy 0] ++ Threads.steps 0 15)
    (fun s => Client.Ev.destroyed ∈ s.c.trace ∧ (reported Client.exK.cfgR.H (Client.acceptedOps s.c.trace) [109] caseKey).map (·.value) =
      [.distribution twoSamples, .distribution oneSample] ∧
    (reported Client.exK.cfgR.H ((Client.flushedReports s.c.trace).flatMap (·.operations)) [109] caseKey).map countOf = [3]) inferInstance
    (by decide +kernel)
  refine ⟨s, r, h1, h2, fun v hv => ?_, h3⟩
  have := List.mem_map_of_mem (f := (·.value)) hv
  rw [h2] at this
  simp only [List.mem_cons, List.not_mem_nil, or_false] at this
  rcases this with e | e
  · exact ⟨_, e, rfl, rfl, by decide +kernel, by decide +kernel⟩
  · exact ⟨_, e, rfl, rfl, by decide +kernel, by decide +kernel⟩

end Ieee
end Verif
