import Verif.Lemmas.AggregatorPointers3
import Verif.Lemmas.LruCalm
/-
Calls that overflow an integer do so with and without objects on a heap.
-/
set_option linter.unusedSectionVars false

namespace Verif
open Lru Lru.Ptr

theorem pureDel_calm {σ β : Type} (f : Lru.Elem β → σ → σ) (e : Lru.Elem β) (w : World σ β) : Calm (pureDel f e w) := by
  intro h; cases h

section
variable {R ν : Type} {good : Bytes → ν → Prop}

theorem buffer_err {α : Type} {ps : PAggState ν} {s : AggState ν} {d : α} {x : Fault}
    {body : World (Slot R) ν → Res (World (Slot R) ν × α)} {pbody : PAgg R ν → Res (PAgg R ν × α)}
    (hS : Stands (R := R) good ps s)
    (hb : ∀ {pw : PAgg R ν} {w : World (Slot R) ν}, Sim (owns R good) [] [] pw w → body w = .error x → pbody pw = .error x)
    (h : withBuffer s d body = .error x) : withBufferP ps d pbody = .error x := by
  unfold withBuffer at h
  unfold withBufferP
  cases hc : s.cache with
  | none => rw [hc] at h; cases h
  | some c =>
    rw [hc] at h
    obtain ⟨pc, h1, h2⟩ := hS.some c hc
    rw [h1]
    simp only [bind, Except.bind] at h ⊢
    cases hx : body { cache := c, tick := s.tick, ext := Option.some [] } with
    | ok y => rw [hx] at h; cases h
    | error e =>
      rw [hx] at h
      cases h
      rw [hb (h2 (Option.some [])) hx]
end

namespace Check
variable {D : Type} [DoubleOps D] {E : Env} {cfg : AggConfig} {ps : PAggState (Elem D)} {s : AggState (Elem D)}

theorem pCheck_err {r : CheckRequest D} (hS : St ps s) (h : check E cfg r s = .error .signedOverflow) :
    pCheck E cfg r ps = .error .signedOverflow := by
  have hcalm : ∀ e w, Calm (onDelete (D := D) cfg e w) := by rw [onDelete_pure]; exact pureDel_calm _
  unfold check at h
  unfold pCheck
  split at h
  · cases h
  rename_i h1
  rw [if_neg h1]
  cases ho : r.operation with
  | none => rw [ho] at h; cases h
  | some o =>
    rw [ho] at h
    simp only at h ⊢
    have hc : ps.cache.isNone = s.cache.isNone := by
      cases hsc : s.cache with
      | none => rw [(hS.none hsc).1]; rfl
      | some c => obtain ⟨pc, h2, _⟩ := hS.some c hsc; rw [h2]; rfl
    rw [hc]
    split at h
    · cases h
    rename_i h2
    rw [if_neg h2]
    refine buffer_err hS ?_ h
    intro pw w sm hb
    simp only [bind, Except.bind] at hb ⊢
    cases hl : Lru.lookup E (onDelete cfg) true (checkRequestSig cfg.H r) w with
    | error e => rw [hl] at hb; cases hb; exact absurd hl (lookup_calm hcalm _ _ _)
    | ok y =>
      obtain ⟨w1, found⟩ := y
      rw [hl] at hb
      obtain ⟨pw1, b1, b2⟩ := lookup_sim (del_follows cfg) sm hl
      rw [b1]
      have hlc := lookup_cases hl
      cases found with
      | none => cases hb
      | some e =>
        obtain ⟨he, hk⟩ := hlc
        simp only [Option.map_some] at hb ⊢
        have hg : PAgg.get e.ptr pw1 = .ok e.val :=
          sim_get b2 (i := itemOf e) (List.mem_append_left _ (List.mem_map.mpr ⟨e, List.mem_append_left _ he, rfl⟩))
        rw [hg]
        simp only
        rw [b2.tick]
        cases hce : checkElem E cfg o e.val w1.tick with
        | error x => rw [hce] at hb; cases hb; rfl
        | ok z =>
          obtain ⟨v, t, o1⟩ := z
          rw [hce] at hb
          simp only at hb
          cases hr : Lru.release E (onDelete cfg) true (checkRequestSig cfg.H r) e.ptr { Lru.setVal e.ptr v w1 with tick := t } with
          | error x => rw [hr] at hb; cases hb; exact absurd hr (release_calm hcalm _ _ _ _)
          | ok w2 => rw [hr] at hb; cases hb

end Check

namespace Report
variable {D : Type} [DoubleOps D] {E : Env} {cfg : AggConfig} {ps : PAggState (OpAgg D)} {s : AggState (OpAgg D)}

theorem pReportOp_err {pw : PW D} {w : World (Slot (ReportRequest D)) (OpAgg D)} {o : Operation D}
    (sm : Sim (J D) [] [] pw w) (hb : reportOp E cfg w o = .error .signedOverflow) :
    pReportOp E cfg pw o = .error .signedOverflow := by
  have hcalm : ∀ e w, Calm (onDelete (D := D) cfg e w) := by rw [onDelete_pure]; exact pureDel_calm _
  unfold reportOp at hb
  unfold pReportOp
  simp only [bind, Except.bind] at hb ⊢
  cases hl : Lru.lookup E (onDelete cfg) true (reportOperationSig cfg.H o) w with
  | error e => rw [hl] at hb; cases hb; exact absurd hl (lookup_calm hcalm _ _ _)
  | ok y =>
    obtain ⟨w1, found⟩ := y
    rw [hl] at hb
    obtain ⟨pw1, b1, b2⟩ := lookup_sim (del_follows cfg) sm hl
    rw [b1]
    have hlc := lookup_cases hl
    cases found with
    | none =>
      simp only [Option.map_none] at hb ⊢
      split at hb
      · rename_i x hx; cases hb; rfl
      · exact absurd hb (insert_calm hcalm _ _ _ _ _)
    | some e =>
      obtain ⟨he, hk⟩ := hlc
      simp only [Option.map_some] at hb ⊢
      have hg : PAgg.get e.ptr pw1 = .ok e.val :=
        sim_get b2 (i := itemOf e) (List.mem_append_left _ (List.mem_map.mpr ⟨e, List.mem_append_left _ he, rfl⟩))
      rw [hg]
      simp only
      split at hb
      · rename_i x hx; cases hb; rfl
      · split at hb
        · rename_i x hr; cases hb; exact absurd hr (release_calm hcalm _ _ _ _)
        · split at hb
          · exact absurd hb (remove_calm hcalm _ _)
          · cases hb

theorem pReportOps_err : ∀ (ops : List (Operation D)) {pw : PW D} {w : World (Slot (ReportRequest D)) (OpAgg D)},
    Sim (J D) [] [] pw w → ops.foldlM (reportOp E cfg) w = .error .signedOverflow →
    ops.foldlM (pReportOp E cfg) pw = .error .signedOverflow
  | [], pw, w, sm, h => by cases h
  | o :: ops, pw, w, sm, h => by
    rw [List.foldlM_cons] at h ⊢
    simp only [bind, Except.bind] at h ⊢
    split at h
    · rename_i x hx
      cases h
      rw [pReportOp_err sm hx]
    · rename_i w1 h1
      obtain ⟨pw1, b1, b2⟩ := pReportOp_sim sm h1
      rw [b1]
      exact pReportOps_err ops b2 h

theorem pReport_err {r : ReportRequest D} (hS : St ps s) (h : report E cfg r s = .error .signedOverflow) :
    pReport E cfg r ps = .error .signedOverflow := by
  unfold report at h
  unfold pReport
  split at h
  · cases h
  rename_i h1
  rw [if_neg h1]
  have hc : ps.cache.isNone = s.cache.isNone := by
    cases hsc : s.cache with
    | none => rw [(hS.none hsc).1]; rfl
    | some c => obtain ⟨pc, h2, _⟩ := hS.some c hsc; rw [h2]; rfl
  rw [hc]
  split at h
  · cases h
  rename_i h2
  rw [if_neg h2]
  refine buffer_err hS ?_ h
  intro pw w sm hb
  simp only [bind, Except.bind] at hb ⊢
  split at hb
  · rename_i x hx
    cases hb
    rw [pReportOps_err _ sm hx]
  · cases hb

end Report

namespace Quota
variable {D : Type} {E : Env} {cfg : AggConfig} {ps : PState D} {s : State D} {d : Nat}

/-- The lookup of `Quota` succeeds and merging fails. -/
theorem pQuota_err {r : AllocateQuotaRequest D} {x : Fault} (hS : St ps s) (h : quota E cfg d r s = .error x)
    (hw : ∀ w : World (Slot (AllocateQuotaRequest D)) (Elem D), s.base.cache = some w.cache → w.tick = s.base.tick → w.ext = some [] →
      ∃ w1 e, Lru.lookup E (onDelete E cfg s.inFlushAll d) true (allocateQuotaSig cfg.H r) w = .ok (w1, some e) ∧
        (refresh E cfg e.val w1.tick).1.positive ∧ (refresh E cfg e.val w1.tick).1.aggregate E r = .error x) :
    pQuota E cfg d r ps = .error x := by
  unfold quota at h
  unfold pQuota
  split at h
  · cases h
  rename_i h1
  rw [if_neg h1]
  split at h
  · cases h
  rename_i h2
  rw [if_neg h2]
  rw [hS.all]
  cases hc : s.base.cache with
  | none =>
    rw [show withBuffer s.base (⟨.notFound, none⟩ : Out) _ = .ok (s.base, ⟨.notFound, none⟩, []) by
      unfold withBuffer; rw [hc]] at h
    cases h
  | some c =>
    obtain ⟨pc, k1, k2⟩ := hS.base.some c hc
    unfold withBufferP
    rw [k1]
    obtain ⟨w1, e, hl, hpos, hag⟩ := hw { cache := c, tick := s.base.tick, ext := some [] } hc rfl rfl
    obtain ⟨pw1, b1, b2⟩ := lookup_sim (del_follows E cfg s.inFlushAll d) (k2 (some [])) hl
    simp only [bind, Except.bind]
    rw [b1]
    obtain ⟨he, hk⟩ := lookup_cases hl
    simp only [Option.map_some]
    have hg : PAgg.get e.ptr pw1 = .ok e.val :=
      sim_get b2 (i := itemOf e) (List.mem_append_left _ (List.mem_map.mpr ⟨e, List.mem_append_left _ he, rfl⟩))
    rw [hg]
    simp only
    rw [b2.tick]
    generalize refresh E cfg e.val w1.tick = rf at hpos hag ⊢
    obtain ⟨v, t, qs⟩ := rf
    simp only at hpos hag ⊢
    rw [if_pos hpos, hag]

end Quota
end Verif
