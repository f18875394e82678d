import Verif.Lemmas.ClientBooks
import Verif.Spec.CheckAggregator
import Verif.Spec.QuotaAggregator
import Verif.Spec.ReportAggregator
/-
The aggregators inside the client: a call on an aggregator without a flush callback does what it does
with one, except that nothing is passed on.
-/
set_option linter.unusedSectionVars false
namespace Verif
open Lru

/-- The result without a flush callback, from the result with one. -/
def mute {β α R : Type} (b : Bool) (x : AggState β × α × List R) : AggState β × α × List R :=
  (x.1.setFlushCallback b, x.2.1, if b then x.2.2 else [])

theorem withBuffer_mute {R β α : Type} (s : AggState β) (nc : α)
    (body : Lru.World (Slot R) β → Res (Lru.World (Slot R) β × α)) (b : Bool) :
    withBuffer (s.setFlushCallback b) nc body = (withBuffer (s.setFlushCallback true) nc body).map (mute b) := by
  unfold withBuffer
  cases hc : s.cache with
  | none => simp [AggState.setFlushCallback, hc, mute, Except.map]
  | some c =>
    simp only [AggState.setFlushCallback, hc]
    cases body _ with
    | error e => rfl
    | ok x => cases b <;> rfl

variable {D : Type}

theorem Check.step_mute [DoubleOps D] (E : Env) (cfg : AggConfig) (c : Check.Call D) (s : AggState (Check.Elem D)) (b : Bool) :
    Check.step E cfg c (s.setFlushCallback b) = (Check.step E cfg c (s.setFlushCallback true)).map (mute b) := by
  cases c with
  | check r =>
    simp only [Check.step, Check.check]
    split
    · simp [Except.map, mute, AggState.setFlushCallback]
    · split
      · simp [Except.map, mute, AggState.setFlushCallback]
      · have : (s.setFlushCallback b).cache = (s.setFlushCallback true).cache := rfl
        rw [this]
        split
        · simp [Except.map, mute, AggState.setFlushCallback]
        · exact withBuffer_mute s _ _ b
  | cacheResponse r p => simp only [Check.step, Check.cacheResponse]; exact withBuffer_mute s _ _ b
  | flush => simp only [Check.step, Check.flush]; exact withBuffer_mute s _ _ b
  | flushAll => simp only [Check.step, Check.flushAll]; exact withBuffer_mute s _ _ b

theorem Report.step_mute [DoubleOps D] (E : Env) (cfg : AggConfig) (c : Report.Call D) (s : AggState (OpAgg D)) (b : Bool) :
    Report.step E cfg c (s.setFlushCallback b) = (Report.step E cfg c (s.setFlushCallback true)).map (mute b) := by
  cases c with
  | report r =>
    simp only [Report.step, Report.report]
    split
    · simp [Except.map, mute, AggState.setFlushCallback]
    · have : (s.setFlushCallback b).cache = (s.setFlushCallback true).cache := rfl
      rw [this]
      split
      · simp [Except.map, mute, AggState.setFlushCallback]
      · exact withBuffer_mute s _ _ b
  | flush => simp only [Report.step, Report.flush]; exact withBuffer_mute s _ _ b
  | flushAll => simp only [Report.step, Report.flushAll]; exact withBuffer_mute s _ _ b

/-- The quota aggregator with its flush callback set or not. -/
def Quota.State.setCallback (s : Quota.State D) (b : Bool) : Quota.State D := { s with base := s.base.setFlushCallback b }

def Quota.mute (b : Bool) (x : Quota.State D × Quota.Out × List (AllocateQuotaRequest D)) :
    Quota.State D × Quota.Out × List (AllocateQuotaRequest D) :=
  (x.1.setCallback b, x.2.1, if b then x.2.2 else [])

theorem Quota.step_mute (E : Env) (cfg : AggConfig) (d : Nat) (c : Quota.Call D) (s : Quota.State D) (b : Bool) :
    Quota.step E cfg d c (s.setCallback b) = (Quota.step E cfg d c (s.setCallback true)).map (Quota.mute b) := by
  cases c with
  | quota r =>
    simp only [Quota.step, Quota.quota]
    split
    · simp [Except.map, Quota.mute, Quota.State.setCallback, AggState.setFlushCallback]
    · split
      · simp [Except.map, Quota.mute, Quota.State.setCallback, AggState.setFlushCallback]
      · rw [show (s.setCallback b).base = s.base.setFlushCallback b from rfl, withBuffer_mute]
        rw [show (s.setCallback true).base = s.base.setFlushCallback true from rfl]
        simp only [Quota.State.setCallback]
        cases withBuffer (s.base.setFlushCallback true) _ _ <;> rfl
  | cacheResponse r p =>
    simp only [Quota.step, Quota.cacheResponse]
    rw [show (s.setCallback b).base = s.base.setFlushCallback b from rfl, withBuffer_mute]
    rw [show (s.setCallback true).base = s.base.setFlushCallback true from rfl]
    simp only [Quota.State.setCallback]
    cases withBuffer (s.base.setFlushCallback true) _ _ <;> rfl
  | flush =>
    simp only [Quota.step, Quota.flush]
    rw [show (s.setCallback b).base = s.base.setFlushCallback b from rfl, withBuffer_mute]
    rw [show (s.setCallback true).base = s.base.setFlushCallback true from rfl]
    simp only [Quota.State.setCallback]
    cases withBuffer (s.base.setFlushCallback true) _ _ <;> rfl
  | flushAll =>
    simp only [Quota.step, Quota.flushAll]
    rw [show (s.setCallback b).base = s.base.setFlushCallback b from rfl, withBuffer_mute]
    rw [show (s.setCallback true).base = s.base.setFlushCallback true from rfl]
    cases withBuffer (s.base.setFlushCallback true) _ _ <;> rfl

/-! ### The aggregator of a client, with the history of its calls -/

/-- The check aggregator has had the calls `h`; its flush callback is set or not. -/
structure CheckIs [DoubleOps D] (K : Client.Setup) (h : Check.Hist D) (b : Bool) (s : AggState (Check.Elem D)) : Prop where
  reach : Check.Reach K.envC K.cfgC h (s.setFlushCallback true)
  callback : s.callback = b

structure ReportIs [DoubleOps D] (K : Client.Setup) (h : Report.Hist D) (b : Bool) (s : AggState (OpAgg D)) : Prop where
  reach : Report.Reach K.envR K.cfgR h (s.setFlushCallback true)
  callback : s.callback = b

structure QuotaIs (K : Client.Setup) (h : Quota.Hist D) (b : Bool) (s : Quota.State D) : Prop where
  reach : Quota.Reach K.envQ K.cfgQ h (s.setCallback true)
  callback : s.base.callback = b

theorem CheckIs.step [DoubleOps D] {K : Client.Setup} {h : Check.Hist D} {b : Bool} {s s' : AggState (Check.Elem D)}
    (i : CheckIs K h b s) {c : Check.Call D} {out : Check.Out} {fl : List (CheckRequest D)}
    (hs : Check.step K.envC K.cfgC c s = .ok (s', out, fl)) :
    ∃ ev : Check.Event D, CheckIs K (ev :: h) b s' ∧ ev.call = c ∧ ev.out = out ∧ (b = true → ev.flushed = fl) ∧ (b = false → fl = []) ∧
      Check.step K.envC K.cfgC c (s.setFlushCallback true) = .ok (s'.setFlushCallback true, out, ev.flushed) := by
  have hb : s = s.setFlushCallback b := by rw [← i.callback]; rfl
  rw [hb, Check.step_mute] at hs
  cases hx : Check.step K.envC K.cfgC c (s.setFlushCallback true) with
  | error e => rw [hx] at hs; cases hs
  | ok x =>
    obtain ⟨s1, o1, f1⟩ := x
    rw [hx] at hs
    simp only [Except.map, mute, Except.ok.injEq, Prod.mk.injEq] at hs
    obtain ⟨rfl, rfl, rfl⟩ := hs
    have hr := i.reach.call hx
    have hcb : s1.callback = true := by
      have : ∀ (h : Check.Hist D) s, Check.Reach K.envC K.cfgC h s → s.callback = true := by
        intro h s r
        induction r with
        | init h0 => rfl
        | call r hs ih =>
          rename_i s c s' out fl
          have he : s = s.setFlushCallback true := by rw [← ih]; rfl
          have := Check.step_mute K.envC K.cfgC c s true
          rw [← he, hs] at this
          simp only [Except.map, mute, Except.ok.injEq, Prod.mk.injEq] at this
          rw [this.1]; rfl
      exact this _ _ hr
    have he : s1 = (s1.setFlushCallback b).setFlushCallback true := by
      have : s1 = s1.setFlushCallback true := by rw [← hcb]; rfl
      exact this
    rw [he] at hr
    refine ⟨_, ⟨hr, rfl⟩, rfl, rfl, ?_, ?_, ?_⟩
    · intro h; rw [h]; rfl
    · intro h; rw [h]; rfl
    · rw [← he]

theorem ReportIs.step_at [DoubleOps D] {K : Client.Setup} {h : Report.Hist D} {b : Bool} {s s' : AggState (OpAgg D)}
    (i : ReportIs K h b s) {c : Report.Call D} {out : Status} {fl : List (ReportRequest D)}
    (hs : Report.step K.envR K.cfgR c s = .ok (s', out, fl)) :
    ∃ ev : Report.Event D, ReportIs K (ev :: h) b s' ∧ ev.call = c ∧ ev.status = out ∧ (b = true → ev.flushed = fl) ∧ (b = false → fl = []) ∧
      Report.step K.envR K.cfgR c (s.setFlushCallback true) = .ok (s'.setFlushCallback true, out, ev.flushed) ∧ ev.first = s.tick := by
  have hb : s = s.setFlushCallback b := by rw [← i.callback]; rfl
  rw [hb, Report.step_mute] at hs
  cases hx : Report.step K.envR K.cfgR c (s.setFlushCallback true) with
  | error e => rw [hx] at hs; cases hs
  | ok x =>
    obtain ⟨s1, o1, f1⟩ := x
    rw [hx] at hs
    simp only [Except.map, mute, Except.ok.injEq, Prod.mk.injEq] at hs
    obtain ⟨rfl, rfl, rfl⟩ := hs
    have hr := i.reach.call hx
    have hcb : s1.callback = true := by
      have : ∀ (h : Report.Hist D) s, Report.Reach K.envR K.cfgR h s → s.callback = true := by
        intro h s r
        induction r with
        | init h0 => rfl
        | call r hs ih =>
          rename_i s c s' out fl
          have he : s = s.setFlushCallback true := by rw [← ih]; rfl
          have := Report.step_mute K.envR K.cfgR c s true
          rw [← he, hs] at this
          simp only [Except.map, mute, Except.ok.injEq, Prod.mk.injEq] at this
          rw [this.1]; rfl
      exact this _ _ hr
    have he : s1 = (s1.setFlushCallback b).setFlushCallback true := by
      have : s1 = s1.setFlushCallback true := by rw [← hcb]; rfl
      exact this
    rw [he] at hr
    refine ⟨_, ⟨hr, rfl⟩, rfl, rfl, ?_, ?_, ?_, rfl⟩
    · intro h; rw [h]; rfl
    · intro h; rw [h]; rfl
    · rw [← he]

theorem ReportIs.step [DoubleOps D] {K : Client.Setup} {h : Report.Hist D} {b : Bool} {s s' : AggState (OpAgg D)}
    (i : ReportIs K h b s) {c : Report.Call D} {out : Status} {fl : List (ReportRequest D)}
    (hs : Report.step K.envR K.cfgR c s = .ok (s', out, fl)) :
    ∃ ev : Report.Event D, ReportIs K (ev :: h) b s' ∧ ev.call = c ∧ ev.status = out ∧ (b = true → ev.flushed = fl) ∧ (b = false → fl = []) ∧
      Report.step K.envR K.cfgR c (s.setFlushCallback true) = .ok (s'.setFlushCallback true, out, ev.flushed) := by
  obtain ⟨ev, h1, h2, h3, h4, h5, h6, _⟩ := i.step_at hs
  exact ⟨ev, h1, h2, h3, h4, h5, h6⟩

theorem QuotaIs.step {K : Client.Setup} {h : Quota.Hist D} {b : Bool} {s s' : Quota.State D}
    (i : QuotaIs K h b s) {c : Quota.Call D} {d : Nat} {out : Quota.Out} {fl : List (AllocateQuotaRequest D)}
    (hs : Quota.step K.envQ K.cfgQ (d + 1) c s = .ok (s', out, fl)) :
    ∃ ev : Quota.Event D, QuotaIs K (ev :: h) b s' ∧ ev.call = c ∧ ev.out = out ∧ (b = true → ev.flushed = fl) ∧ (b = false → fl = []) ∧
      Quota.step K.envQ K.cfgQ (d + 1) c (s.setCallback true) = .ok (s'.setCallback true, out, ev.flushed) ∧
      ev.first = s.base.tick := by
  have hb : s = s.setCallback b := by rw [← i.callback]; rfl
  rw [hb, Quota.step_mute] at hs
  cases hx : Quota.step K.envQ K.cfgQ (d + 1) c (s.setCallback true) with
  | error e => rw [hx] at hs; cases hs
  | ok x =>
    obtain ⟨s1, o1, f1⟩ := x
    rw [hx] at hs
    simp only [Except.map, Quota.mute, Except.ok.injEq, Prod.mk.injEq] at hs
    obtain ⟨rfl, rfl, rfl⟩ := hs
    have hr := i.reach.call hx
    have hcb : s1.base.callback = true := by
      have : ∀ (h : Quota.Hist D) s, Quota.Reach K.envQ K.cfgQ h s → s.base.callback = true := by
        intro h s r
        induction r with
        | init h0 => rfl
        | call r hs ih =>
          rename_i s d c s' out fl
          have he : s = s.setCallback true := by rw [← ih]; rfl
          have := Quota.step_mute K.envQ K.cfgQ (d + 1) c s true
          rw [← he, hs] at this
          simp only [Except.map, Quota.mute, Except.ok.injEq, Prod.mk.injEq] at this
          rw [this.1]; rfl
      exact this _ _ hr
    have he : s1 = (s1.setCallback b).setCallback true := by
      have : s1 = s1.setCallback true := by rw [← hcb]; rfl
      exact this
    rw [he] at hr
    refine ⟨_, ⟨hr, rfl⟩, rfl, rfl, ?_, ?_, ?_, rfl⟩
    · intro h; rw [h]; rfl
    · intro h; rw [h]; rfl
    · rw [← he]

end Verif
