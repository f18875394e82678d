import Verif.Props.ReportDoubles
import Verif.Props.ThreadChecks
/-
C119: what becomes of double and distribution values of delta metrics in checks answered from the cache, with IEEE-754 doubles.
-/
set_option linter.unusedSectionVars false
namespace Verif

section
variable {D : Type} [DoubleOps D]

/-- Anything that holds for the values merged into one, that is additive, and that does not depend on the order, holds for the operations
the check cache absorbed and those it sent or still holds. -/
theorem Check.carry {E : Lru.Env} {cfg : AggConfig} {h : Check.Hist D} {s : AggState (Check.Elem D)}
    (R : List (MetricValue D) → List (MetricValue D) → Prop) (Good : MetricValue D → Prop)
    (h0 : R [] []) (h1 : ∀ w ws r, (∀ v ∈ w :: ws, Good v) → foldValues .delta w ws = .ok r → R (w :: ws) [r])
    (h2 : ∀ vs rs vs' rs', R vs rs → R vs' rs' → R (vs ++ vs') (rs ++ rs'))
    (h3 : ∀ vs vs' rs, vs.Perm vs' → R vs rs → R vs' rs) (r : Check.Reach E cfg h s) {n k : Bytes}
    (hk : IsDelta cfg.kinds n) (hg : ∀ v ∈ reported cfg.H ((absorbed cfg h).map (·.2)) n k, Good v) :
    R (reported cfg.H ((absorbed cfg h).map (·.2)) n k) (reported cfg.H (flushedOps h ++ pendingOps cfg s) n k) := by
  obtain ⟨outg, pend, hp, _⟩ := C36_groups r
  have hall : List.Forall₂ (Group.Sum cfg) (outg ++ pend) (flushedOps h ++ pendingOps cfg s) :=
    List.rel_append hp.out_sum hp.pend_sum
  have hrp := reported_perm cfg.H _ _ hp.perm n k
  have hstep : ∀ (gs : List (Group D)) (os : List (Operation D)), List.Forall₂ (Group.Sum cfg) gs os →
      (∀ v ∈ reported cfg.H (gs.flatMap (·.ops)) n k, Good v) →
      R (reported cfg.H (gs.flatMap (·.ops)) n k) (reported cfg.H os n k) := by
    intro gs os hf
    induction hf with
    | nil => intro _; exact h0
    | @cons g o gs os hs _ ih =>
      intro hg
      rw [List.flatMap_cons, Report.reported_append] at hg ⊢
      rw [show o :: os = [o] ++ os from rfl, Report.reported_append]
      refine h2 _ _ _ _ ?_ (ih fun v hv => hg v (List.mem_append_right _ hv))
      obtain ⟨x, xs, a, hgo, hagg, rfl⟩ := hs
      rw [Report.reported_one, hgo]
      rw [hgo] at hg
      rcases listed_fold cfg.H cfg.U cfg.kinds x xs a hagg n k with ⟨e1, e2⟩ | ⟨w, ws, r, e1, e2, e3⟩
      · rw [e1, e2]; exact h0
      · rw [(isDelta_iff _ _).mp hk] at e2
        rw [e3, e1]
        exact h1 w ws r (fun v hv => hg v (List.mem_append_left _ (by rw [e1]; exact hv))) e2
  exact h3 _ _ _ hrp.symm (hstep _ _ hall fun v hv => hg v (hrp.mem_iff.mpr hv))

end

namespace Ieee

/-- What the values `sent` keep of the values `held`: the total of doubles except for rounding, the samples of distributions of one
layout, and their statistics. -/
def Kept (lg : F64 → F64) (held sent : List (MetricValue F64)) : Prop :=
  ((∀ v ∈ held, IsFinite v) → held.length ≤ 2 ^ 40 → exactSize held ≤ pow2 1000 →
    (∀ v ∈ sent, IsFinite v) ∧ |exactTotal sent - exactTotal held| ≤ 2 * held.length * exactSize held * pow2 (-53)) ∧
  (∀ b m, FiniteLayout b → (∀ v ∈ held, Histogram b m v) →
    (sent.map countOf).sum = (held.map countOf).sum ∧ ∀ i, (sent.map (bucketOf i)).sum = (held.map (bucketOf i)).sum) ∧
  ∀ f M, Sampled lg M f held → Described M f held sent

theorem Kept.perm {lg : F64 → F64} {a a' b b' : List (MetricValue F64)} (p : a.Perm a') (q : b.Perm b') (h : Kept lg a b) :
    Kept lg a' b' := by
  obtain ⟨h1, h2, h3⟩ := h
  have e1 : exactTotal a' = exactTotal a := ((p.map _).sum_eq).symm
  have e2 : exactSize a' = exactSize a := ((p.map _).sum_eq).symm
  have e3 : exactTotal b' = exactTotal b := ((q.map _).sum_eq).symm
  refine ⟨fun g1 g2 g3 => ?_, fun l m hl g => ?_, fun f M g => ?_⟩
  · rw [← p.length_eq] at g2
    rw [e2] at g3
    obtain ⟨k1, k2⟩ := h1 (fun v hv => g1 v (p.mem_iff.mp hv)) g2 g3
    rw [e1, e2, e3, ← p.length_eq]
    exact ⟨fun v hv => k1 v (q.mem_iff.mpr hv), k2⟩
  · obtain ⟨k1, k2⟩ := h2 l m hl (fun v hv => g v (p.mem_iff.mp hv))
    exact ⟨(q.map _).sum_eq.symm.trans (k1.trans (p.map _).sum_eq), fun i => (q.map _).sum_eq.symm.trans ((k2 i).trans (p.map _).sum_eq)⟩
  · obtain ⟨l, m, hl, hs⟩ := g.layout
    have g' : Sampled lg M f a :=
      ⟨g.low, g.high, fun v hv => g.some v (p.mem_iff.mp hv), fun v hv => g.bound v (p.mem_iff.mp hv),
        by rw [(p.flatMap_right f).length_eq]; exact g.len, l, m, hl, fun v hv => hs v (p.mem_iff.mp hv)⟩
    obtain ⟨gs, k1, k2⟩ := h3 f M g'
    obtain ⟨gs', k3, k4⟩ := List.perm_comp_forall₂ q.symm k2.flip
    exact ⟨gs', (k4.flatten.trans k1).trans p, k3.flip⟩

/-- C119: whatever the check cache absorbed is kept in what it sent and what it holds. -/
theorem C119_absorbed {lg : F64 → F64} {E : Lru.Env} {cfg : AggConfig} {h : Check.Hist F64} {s : AggState (Check.Elem F64)}
    (r : @Check.Reach F64 (ops lg) E cfg h s) (n k : Bytes) (hk : IsDelta cfg.kinds n) :
    Kept lg (reported cfg.H ((Check.absorbed cfg h).map (·.2)) n k)
      (reported cfg.H (Check.flushedOps h ++ @Check.pendingOps F64 (ops lg) cfg s) n k) := by
  refine ⟨fun hg hlen hsize => ?_, fun b m hb hg => ?_, fun f M hg => ?_⟩
  · exact @Check.carry F64 (ops lg) E cfg h s TotalKept IsFinite .nil fold_total (fun _ _ _ _ => .append) (fun _ _ _ => .perm_left) r n k
      hk hg hlen hsize
  · exact (@Check.carry F64 (ops lg) E cfg h s (CountsKept b m) (Histogram b m) .nil (fold_counts hb) (fun _ _ _ _ => .append)
      (fun _ _ _ => .perm_left) r n k hk hg).2
  · obtain ⟨b, m, hb, hs⟩ := hg.layout
    exact (@Check.carry F64 (ops lg) E cfg h s (Grouped lg b m f) (fun v => Samples lg b m (f v) v) ⟨[], .nil, .nil⟩ (fold_samples hb)
      (fun _ _ _ _ => .append) (fun _ _ _ p x => x.imp fun _ y => ⟨y.1.trans p, y.2⟩) r n k hk hs).described hg

/-- C119 under every schedule: the values of the checks answered positively from the cache, or about to be, together with those of some
checks that were also given to a transport, are kept in what flushes sent, what is on its way to the flush callback, what was
passed on after it was unset, and what is still cached. -/
theorem C119_conserved {lg : F64 → F64} {K : Client.Setup} {stops : Bool} {s : Threads.Sys F64} (r : @Threads.Reach F64 (ops lg) K stops s) :
    ∃ again : List (CheckRequest F64), again.Subperm (Threads.passedChecks s.c.trace ++ Threads.passedSoon s) ∧
      (∀ q ∈ again, Threads.Approved K.cfgC.H (checkRequestSig K.cfgC.H q) s.c.trace) ∧
      ∀ n k, IsDelta K.cfgC.kinds n →
        Kept lg (reported K.cfgC.H (Threads.heldOps s.c.trace ++ Threads.heldSoon s ++ again.filterMap (·.operation)) n k)
          (reported K.cfgC.H ((Client.flushedChecks s.c.trace ++ Threads.carriedChecks s ++ Threads.lostChecks s).filterMap (·.operation) ++
            @Check.pendingOps F64 (ops lg) K.cfgC s.c.check) n k) := by
  let _ := ops lg
  obtain ⟨hc, hq, hr, l⟩ := @Threads.Reach.links F64 (ops lg) _ _ _ r
  obtain ⟨again, h1, h2, h3⟩ := @Threads.absorbed_from F64 (ops lg) _ _ _ _ _ l
  have h4 := @Threads.sentC_perm F64 (ops lg) _ _ _ _ _ l
  refine ⟨again, h1, h2, fun n k hk => ?_⟩
  exact (C119_absorbed l.c.reach n k hk).perm (reported_perm K.cfgC.H _ _ h3 n k)
    (reported_perm K.cfgC.H _ _ (h4.symm.append_right _) n k)

/-- C119: when the destructor has returned and no thread has a check of the cache in its hands, nor was one dropped, then the values held
back are kept in what was sent.  What is missing: as for C98. -/
theorem C119_all_sent_partial {lg : F64 → F64} {K : Client.Setup} {stops : Bool} {s : Threads.Sys F64}
    (r : @Threads.Reach F64 (ops lg) K stops s) (hd : Client.Ev.destroyed ∈ s.c.trace) (h1 : Threads.carriedChecks s = [])
    (h2 : Threads.lostChecks s = []) :
    ∃ again : List (CheckRequest F64), again.Subperm (Threads.passedChecks s.c.trace) ∧
      (∀ q ∈ again, Threads.Approved K.cfgC.H (checkRequestSig K.cfgC.H q) s.c.trace) ∧
      ∀ n k, IsDelta K.cfgC.kinds n →
        Kept lg (reported K.cfgC.H (Threads.heldOps s.c.trace ++ again.filterMap (·.operation)) n k)
          (reported K.cfgC.H ((Client.flushedChecks s.c.trace).filterMap (·.operation)) n k) := by
  obtain ⟨g1, g2, g3⟩ := @Threads.no_checks_left F64 (ops lg) _ _ _ r hd
  obtain ⟨again, k1, k2, k3⟩ := C119_conserved r
  rw [g1, g2, h1, h2, List.append_nil, List.append_nil, List.append_nil, List.append_nil] at k3
  rw [g3, List.append_nil] at k1
  exact ⟨again, k1, k2, k3⟩

/-- A check with one double value. -/
def caseCheck (x : F64) : Client.Call F64 := .check ⟨[115], some (caseOp 1 (.double x)), [49], []⟩

/-- A client that keeps one response for long. -/
def caseK : Client.Setup := { Client.exK with cfgC := { Check.exCfg with numEntries := 1, flushMs := 100, expirationMs := 200 } }

/-- A case of C119: one check is answered by its transport, two from the cache; the destructor sends the sum of the two, rounded. -/
example : ∃ s, @Threads.Reach F64 (ops id) caseK true s ∧ Client.Ev.destroyed ∈ s.c.trace ∧ Threads.carriedChecks s = [] ∧
    Threads.lostChecks s = [] ∧
    (reported caseK.cfgC.H (Threads.heldOps s.c.trace) [109] caseKey).map (·.value) = [.double (fl (1 / 10)), .double (fl (2 / 10))] ∧
    (reported caseK.cfgC.H ((Client.flushedChecks s.c.trace).filterMap (·.operation)) [109] caseKey).map (·.value) =
      [.double (F64.add (fl (1 / 10)) (fl (2 / 10)))] :=
  @Threads.schedule_case F64 (ops id) caseK true
    ([.spawn, .spawn, .call 0 (caseCheck (fl (5 / 10))) .default] ++ Threads.steps 0 6 ++ [.complete 1 0 Client.exOk] ++ Threads.steps 1 4 ++
      [.call 0 (caseCheck (fl (1 / 10))) .default] ++ Threads.steps 0 5 ++ [.call 0 (caseCheck (fl (2 / 10))) .default] ++ Threads.steps 0 5 ++
      [.destroy 0] ++ Threads.steps 0 14) _ (fun _ => inferInstance) (by decide +kernel)

end Ieee
end Verif
