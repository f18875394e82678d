import Verif.Lemmas.AggregatorPointers
import Verif.Spec.CheckAggregator
import Verif.Spec.ReportAggregator
import Verif.Spec.QuotaAggregator
/-
Each method of the aggregators does the same with and without objects on a heap.
-/
set_option linter.unusedSectionVars false

namespace Verif
open Lru Lru.Ptr

/-! ### Check -/
namespace Check
variable {D : Type} [DoubleOps D] {E : Env} {cfg : AggConfig}

abbrev J (D : Type) : Joint (Mem (CheckRequest D) (Elem D)) (Slot (CheckRequest D)) (Elem D) Unit :=
  owns (CheckRequest D) (fun _ _ => True)

def delF (cfg : AggConfig) (e : Lru.Elem (Elem D)) (x : Slot (CheckRequest D)) : Slot (CheckRequest D) :=
  match e.val.agg with
  | none => x
  | some _ => addRemovedItem noMerge (e.val.returnRequest cfg) x

def delG (cfg : AggConfig) (c : Cell Unit) (m : Mem (CheckRequest D) (Elem D)) : Res (Mem (CheckRequest D) (Elem D)) := do
  let v ← m.get c.ptr
  match v.agg with
  | none => m.delete c.ptr
  | some _ => do
    let m ← m.put c.ptr { v with agg := none }
    (m.add noMerge (v.returnRequest cfg)).delete c.ptr

theorem onDelete_pure (cfg : AggConfig) : onDelete (D := D) cfg = pureDel (delF cfg) := by
  funext e w
  unfold onDelete pureDel delF
  split <;> rename_i h <;> simp [h]

theorem pOnDelete_ext (cfg : AggConfig) : pOnDelete (D := D) cfg = extDel (delG cfg) := by
  funext c w
  unfold pOnDelete extDel delG PAgg.get PAgg.put PAgg.delete PAgg.add
  simp only [bind, Except.bind]
  cases w.ext.get c.ptr with
  | error e => rfl
  | ok v =>
    cases ha : v.agg with
    | none => simp only [ha]
    | some a =>
      simp only [ha]
      cases w.ext.put c.ptr { v with agg := none } with
      | error e => rfl
      | ok m => rfl

theorem del_quiet (cfg : AggConfig) : Quiet (J D) (delF cfg) (delG cfg) := by
  refine ⟨?_⟩
  intro x y n l e h
  have h : Owns (fun _ _ => True) x y n (itemOf e :: l) := h
  unfold delG
  rw [show (cellOf (J D).view e).ptr = (itemOf e).ptr from rfl, h.get (by simp)]
  simp only [bind, Except.bind]
  unfold delF
  cases ha : e.val.agg with
  | none =>
    simp only [itemOf, ha]
    exact h.delete
  | some a =>
    simp only [itemOf, ha]
    obtain ⟨m1, b1, b2⟩ := h.put (i := itemOf e) (by simp) { e.val with agg := none } trivial
    simp only [itemOf] at b1
    rw [b1]
    have hs : setItem (itemOf e).ptr { e.val with agg := none } (itemOf e) = ⟨e.key, e.ptr, { e.val with agg := none }⟩ := by
      simp [setItem, itemOf]
    have ho : l.map (setItem (itemOf e).ptr { e.val with agg := none }) = l := by
      apply setItem_other
      intro i hi he
      have hp := h.ptrs
      rw [List.map_cons, List.nodup_cons] at hp
      exact hp.1 (List.mem_map.mpr ⟨i, hi, he⟩)
    rw [List.map_cons, hs, ho] at b2
    exact (b2.add noMerge (e.val.returnRequest cfg)).delete

theorem del_follows (cfg : AggConfig) : Follows (J D) (onDelete cfg) (pOnDelete cfg) := by
  rw [onDelete_pure, pOnDelete_ext]
  exact (del_quiet cfg).follows

abbrev St (ps : PAggState (Elem D)) (s : AggState (Elem D)) : Prop := Stands (R := CheckRequest D) (fun _ _ => True) ps s

theorem pNew_sim {s : AggState (Elem D)} (h : new E cfg = .ok s) : ∃ ps, pNew (D := D) E cfg = .ok ps ∧ St ps s :=
  newP_sim (del_follows cfg) h

variable {ps : PAggState (Elem D)} {s s' : AggState (Elem D)} {out : Out} {fl : List (CheckRequest D)}

theorem pCheck_sim {r : CheckRequest D} (hS : St ps s) (h : check E cfg r s = .ok (s', out, fl)) :
    ∃ ps', pCheck E cfg r ps = .ok (ps', out, fl) ∧ St ps' s' := by
  unfold check at h
  unfold pCheck
  split at h
  · rename_i h1
    rw [if_pos h1]
    cases h
    exact ⟨_, rfl, hS⟩
  rename_i h1
  rw [if_neg h1]
  cases ho : r.operation with
  | none =>
    rw [ho] at h
    cases h
    exact ⟨_, rfl, hS⟩
  | some o =>
    rw [ho] at h
    simp only at h ⊢
    have hc : ps.cache.isNone = s.cache.isNone := by
      cases hsc : s.cache with
      | none => rw [(hS.none hsc).1]; rfl
      | some c => obtain ⟨pc, h2, _⟩ := hS.some c hsc; rw [h2]; rfl
    rw [hc]
    split at h
    · rename_i h2
      rw [if_pos h2]
      cases h
      exact ⟨_, rfl, hS⟩
    rename_i h2
    rw [if_neg h2]
    refine buffer_sim hS ?_ h
    intro pw w w' a sm hb
    simp only [bind, Except.bind] at hb ⊢
    cases hl : Lru.lookup E (onDelete cfg) true (checkRequestSig cfg.H r) w with
    | error e => rw [hl] at hb; cases hb
    | ok y =>
      obtain ⟨w1, found⟩ := y
      rw [hl] at hb
      obtain ⟨pw1, b1, b2⟩ := lookup_sim (del_follows cfg) sm hl
      rw [b1]
      have hlc := lookup_cases hl
      cases found with
      | none => cases hb; exact ⟨_, rfl, b2⟩
      | some e =>
        obtain ⟨he, hk⟩ := hlc
        simp only [Option.map_some] at hb ⊢
        cases hce : checkElem E cfg o e.val w1.tick with
        | error x => rw [hce] at hb; cases hb
        | ok z =>
          obtain ⟨v, t, o1⟩ := z
          rw [hce] at hb
          simp only at hb
          cases hr : Lru.release E (onDelete cfg) true (checkRequestSig cfg.H r) e.ptr { Lru.setVal e.ptr v w1 with tick := t } with
          | error x => rw [hr] at hb; cases hb
          | ok w2 =>
            rw [hr] at hb
            cases hb
            obtain ⟨pw2, pw3, c1, c2, c3, _, c4, c5⟩ := write_release (del_follows cfg) b2 he trivial hr
            rw [c1]
            simp only
            rw [b2.tick, hce]
            simp only
            rw [c2]
            simp only
            rw [c4]
            exact ⟨_, rfl, c5⟩

theorem pCacheResponse_sim {r : CheckRequest D} {resp : CheckResponse} (hS : St ps s)
    (h : cacheResponse E cfg r resp s = .ok (s', out, fl)) :
    ∃ ps', pCacheResponse E cfg r resp ps = .ok (ps', out, fl) ∧ St ps' s' := by
  refine buffer_sim hS ?_ h
  intro pw w w' a sm hb
  simp only [bind, Except.bind] at hb ⊢
  cases hl : Lru.lookup E (onDelete cfg) true (checkRequestSig cfg.H r) w with
  | error e => rw [hl] at hb; cases hb
  | ok y =>
    obtain ⟨w1, found⟩ := y
    rw [hl] at hb
    obtain ⟨pw1, b1, b2⟩ := lookup_sim (del_follows cfg) sm hl
    rw [b1]
    have hlc := lookup_cases hl
    cases found with
    | none =>
      simp only [Option.map_none] at hb ⊢
      split at hb
      · cases hb
      · rename_i w2 hi
        cases hb
        rw [b2.tick]
        obtain ⟨pw2, pw3, c1, c2, c3⟩ := insert_new (del_follows cfg) (sim_ticked b2) hlc trivial hi
        rw [c1]
        simp only
        rw [c2]
        exact ⟨_, rfl, c3⟩
    | some e =>
      obtain ⟨he, hk⟩ := hlc
      simp only [Option.map_some] at hb ⊢
      split at hb
      · cases hb
      · rename_i w2 hr
        cases hb
        obtain ⟨pw2, pw3, c1, c2, c3, _, c4, c5⟩ := write_release (t := w1.ticked.tick) (del_follows cfg) (sim_ticked b2) he trivial hr
        rw [c1]
        simp only
        rw [b2.tick, c2]
        simp only
        rw [show w1.ticked.tick = pw2.tick by rw [c3]; simp only [World.ticked, PWorld.ticked, b2.tick]] at c4
        rw [c4]
        exact ⟨_, rfl, c5⟩

theorem pFlush_sim (hS : St ps s) (h : flush E cfg s = .ok (s', out, fl)) :
    ∃ ps', pFlush E cfg ps = .ok (ps', out, fl) ∧ St ps' s' := by
  refine buffer_sim hS ?_ h
  intro pw w w' a sm hb
  simp only [bind, Except.bind] at hb ⊢
  split at hb
  · cases hb
  · rename_i w1 hr
    cases hb
    obtain ⟨pw1, b1, b2⟩ := removeExpired_sim (del_follows cfg) sm hr
    rw [b1]
    exact ⟨_, rfl, b2⟩

theorem pFlushAll_sim (hS : St ps s) (h : flushAll E cfg s = .ok (s', out, fl)) :
    ∃ ps', pFlushAll E cfg ps = .ok (ps', out, fl) ∧ St ps' s' := by
  refine buffer_sim hS ?_ h
  intro pw w w' a sm hb
  simp only [bind, Except.bind] at hb ⊢
  split at hb
  · cases hb
  · rename_i w1 hr
    cases hb
    rw [onDelete_pure] at hr
    obtain ⟨pw1, b1, b2⟩ := removeAll_sim (del_quiet cfg) sm hr
    rw [pOnDelete_ext, b1]
    exact ⟨_, rfl, b2⟩

end Check

/-! ### Report -/
namespace Report
variable {D : Type} [DoubleOps D] {E : Env} {cfg : AggConfig}

abbrev J (D : Type) : Joint (Mem (ReportRequest D) (OpAgg D)) (Slot (ReportRequest D)) (OpAgg D) Unit :=
  owns (ReportRequest D) (fun _ _ => True)

def delF (cfg : AggConfig) (e : Lru.Elem (OpAgg D)) (x : Slot (ReportRequest D)) : Slot (ReportRequest D) :=
  addRemovedItem mergeItem ⟨cfg.serviceName, [e.val.toProto cfg.U], cfg.serviceConfigId⟩ x

def delG (cfg : AggConfig) (c : Cell Unit) (m : Mem (ReportRequest D) (OpAgg D)) : Res (Mem (ReportRequest D) (OpAgg D)) := do
  let v ← m.get c.ptr
  let m ← m.delete c.ptr
  .ok (m.add mergeItem ⟨cfg.serviceName, [v.toProto cfg.U], cfg.serviceConfigId⟩)

theorem onDelete_pure (cfg : AggConfig) : onDelete (D := D) cfg = pureDel (delF cfg) := rfl

theorem pOnDelete_ext (cfg : AggConfig) : pOnDelete (D := D) cfg = extDel (delG cfg) := by
  funext c w
  unfold pOnDelete extDel delG PAgg.get PAgg.delete PAgg.add
  simp only [bind, Except.bind]
  cases w.ext.get c.ptr with
  | error e => rfl
  | ok v =>
    simp only
    cases w.ext.delete c.ptr <;> rfl

theorem del_quiet (cfg : AggConfig) : Quiet (J D) (delF cfg) (delG cfg) := by
  refine ⟨?_⟩
  intro x y n l e h
  have h : Owns (fun _ _ => True) x y n (itemOf e :: l) := h
  unfold delG
  rw [show (cellOf (J D).view e).ptr = (itemOf e).ptr from rfl, h.get (by simp)]
  simp only [bind, Except.bind]
  obtain ⟨m1, b1, b2⟩ := h.delete
  rw [b1]
  exact ⟨_, rfl, b2.add _ _⟩

theorem del_follows (cfg : AggConfig) : Follows (J D) (onDelete cfg) (pOnDelete cfg) := by
  rw [onDelete_pure, pOnDelete_ext]
  exact (del_quiet cfg).follows

abbrev St (ps : PAggState (OpAgg D)) (s : AggState (OpAgg D)) : Prop := Stands (R := ReportRequest D) (fun _ _ => True) ps s

theorem pNew_sim {s : AggState (OpAgg D)} (h : new E cfg = .ok s) : ∃ ps, pNew (D := D) E cfg = .ok ps ∧ St ps s :=
  newP_sim (del_follows cfg) h

theorem pReportOp_sim {pw : PW D} {w w' : World (Slot (ReportRequest D)) (OpAgg D)} {o : Operation D}
    (sm : Sim (J D) [] [] pw w) (hb : reportOp E cfg w o = .ok w') :
    ∃ pw', pReportOp E cfg pw o = .ok pw' ∧ Sim (J D) [] [] pw' w' := by
  unfold reportOp at hb
  unfold pReportOp
  simp only [bind, Except.bind] at hb ⊢
  cases hl : Lru.lookup E (onDelete cfg) true (reportOperationSig cfg.H o) w with
  | error e => rw [hl] at hb; cases hb
  | ok y =>
    obtain ⟨w1, found⟩ := y
    rw [hl] at hb
    obtain ⟨pw1, b1, b2⟩ := lookup_sim (del_follows cfg) sm hl
    rw [b1]
    have hlc := lookup_cases hl
    cases found with
    | none =>
      simp only [Option.map_none] at hb ⊢
      split at hb
      · cases hb
      · rename_i a ha
        obtain ⟨pw2, pw3, c1, c2, c3⟩ := insert_new (del_follows cfg) b2 hlc trivial hb
        rw [c1]
        exact ⟨_, c2, c3⟩
    | some e =>
      obtain ⟨he, hk⟩ := hlc
      simp only [Option.map_some] at hb ⊢
      split at hb
      · cases hb
      · rename_i a ha
        split at hb
        · cases hb
        · rename_i w2 hr
          obtain ⟨pw2, pw3, c1, c2, c3, c6, c4, c5⟩ := write_release (t := w1.tick) (del_follows cfg) b2 he trivial hr
          rw [c1]
          simp only
          rw [ha]
          simp only
          rw [c2]
          simp only
          rw [c6]
          simp only
          rw [show w1.tick = pw2.tick by rw [c3, b2.tick]] at c4
          rw [c4]
          simp only
          split at hb
          · rename_i hbig
            rw [if_pos hbig]
            obtain ⟨pw4, d1, d2, _⟩ := remove_sim (del_follows cfg) c5 hb
            exact ⟨pw4, d1, d2⟩
          · rename_i hbig
            rw [if_neg hbig]
            cases hb
            exact ⟨_, rfl, c5⟩

theorem pReportOps_sim : ∀ (ops : List (Operation D)) {pw : PW D} {w w' : World (Slot (ReportRequest D)) (OpAgg D)},
    Sim (J D) [] [] pw w → ops.foldlM (reportOp E cfg) w = .ok w' →
    ∃ pw', ops.foldlM (pReportOp E cfg) pw = .ok pw' ∧ Sim (J D) [] [] pw' w'
  | [], pw, w, w', sm, h => by
    cases h
    exact ⟨_, rfl, sm⟩
  | o :: ops, pw, w, w', sm, h => by
    rw [List.foldlM_cons] at h ⊢
    simp only [bind, Except.bind] at h ⊢
    split at h
    · cases h
    · rename_i w1 h1
      obtain ⟨pw1, b1, b2⟩ := pReportOp_sim sm h1
      rw [b1]
      exact pReportOps_sim ops b2 h

variable {ps : PAggState (OpAgg D)} {s s' : AggState (OpAgg D)} {st : Status} {fl : List (ReportRequest D)}

theorem pReport_sim {r : ReportRequest D} (hS : St ps s) (h : report E cfg r s = .ok (s', st, fl)) :
    ∃ ps', pReport E cfg r ps = .ok (ps', st, fl) ∧ St ps' s' := by
  unfold report at h
  unfold pReport
  split at h
  · rename_i h1
    rw [if_pos h1]
    cases h
    exact ⟨_, rfl, hS⟩
  rename_i h1
  rw [if_neg h1]
  have hc : ps.cache.isNone = s.cache.isNone := by
    cases hsc : s.cache with
    | none => rw [(hS.none hsc).1]; rfl
    | some c => obtain ⟨pc, h2, _⟩ := hS.some c hsc; rw [h2]; rfl
  rw [hc]
  split at h
  · rename_i h2
    rw [if_pos h2]
    cases h
    exact ⟨_, rfl, hS⟩
  rename_i h2
  rw [if_neg h2]
  refine buffer_sim hS ?_ h
  intro pw w w' a sm hb
  simp only [bind, Except.bind] at hb ⊢
  split at hb
  · cases hb
  · rename_i w1 hr
    cases hb
    obtain ⟨pw1, b1, b2⟩ := pReportOps_sim r.operations sm hr
    rw [b1]
    exact ⟨_, rfl, b2⟩

theorem pFlush_sim (hS : St ps s) (h : flush E cfg s = .ok (s', st, fl)) :
    ∃ ps', pFlush E cfg ps = .ok (ps', st, fl) ∧ St ps' s' := by
  refine buffer_sim hS ?_ h
  intro pw w w' a sm hb
  simp only [bind, Except.bind] at hb ⊢
  split at hb
  · cases hb
  · rename_i w1 hr
    cases hb
    obtain ⟨pw1, b1, b2⟩ := removeExpired_sim (del_follows cfg) sm hr
    rw [b1]
    exact ⟨_, rfl, b2⟩

theorem pFlushAll_sim (hS : St ps s) (h : flushAll E cfg s = .ok (s', st, fl)) :
    ∃ ps', pFlushAll E cfg ps = .ok (ps', st, fl) ∧ St ps' s' := by
  refine buffer_sim hS ?_ h
  intro pw w w' a sm hb
  simp only [bind, Except.bind] at hb ⊢
  split at hb
  · cases hb
  · rename_i w1 hr
    cases hb
    rw [onDelete_pure] at hr
    obtain ⟨pw1, b1, b2⟩ := removeAll_sim (del_quiet cfg) sm hr
    rw [pOnDelete_ext, b1]
    exact ⟨_, rfl, b2⟩

end Report
end Verif
