import Verif.Spec.CheckAggregator
import Verif.Spec.QuotaAggregator
import Verif.Spec.ReportAggregator
/-
The aggregators call no transport and lock no mutex twice: whatever they are asked to do, they do not fail
with `badFunctionCall` or `deadlock`.
-/
namespace Verif
variable {D : Type}

/-- The call does not fail because of an empty function or a mutex held by its own thread. -/
def Tame {α : Type} (x : Res α) : Prop := x ≠ .error .badFunctionCall ∧ x ≠ .error .deadlock

theorem Tame.ok {α : Type} (a : α) : Tame (.ok a : Res α) := ⟨by simp, by simp⟩

theorem Tame.error {α : Type} {e : Fault} (h1 : e ≠ .badFunctionCall) (h2 : e ≠ .deadlock) : Tame (.error e : Res α) :=
  ⟨by simpa using h1, by simpa using h2⟩

theorem Tame.errorIf {α : Type} (p : Prop) [Decidable p] {e f : Fault} (h1 : e ≠ .badFunctionCall) (h2 : e ≠ .deadlock)
    (h3 : f ≠ .badFunctionCall) (h4 : f ≠ .deadlock) : Tame (.error (if p then e else f) : Res α) := by
  split
  · exact .error h1 h2
  · exact .error h3 h4

theorem Tame.bind {α β : Type} {x : Res α} {f : α → Res β} (hx : Tame x) (hf : ∀ a, Tame (f a)) : Tame (x >>= f) := by
  cases x with
  | ok a => exact hf a
  | error e =>
    have h1 : e ≠ .badFunctionCall := by simpa using hx.1
    have h2 : e ≠ .deadlock := by simpa using hx.2
    exact .error h1 h2

theorem Tame.foldlM {α β : Type} {f : β → α → Res β} (hf : ∀ b a, Tame (f b a)) : ∀ (l : List α) (b : β), Tame (l.foldlM f b)
  | [], b => .ok b
  | a :: l, b => by
    rw [List.foldlM_cons]
    exact (hf b a).bind (fun b => Tame.foldlM hf l b)

/-- Closes `Tame` goals by walking through the program. -/
macro "tame" "[" ls:Lean.Parser.Tactic.simpLemma,* "]" : tactic =>
  `(tactic| repeat' (first
    | exact Tame.ok _
    | exact Tame.errorIf _ (by decide) (by decide) (by decide) (by decide)
    | exact Tame.error (by decide) (by decide)
    | assumption
    | (simp only [$ls,*]; done)
    | refine Tame.bind ?_ ?_
    | intro _
    | split
    | dsimp only))

theorem addI64_tame (a b : Int) : Tame (addI64 a b) := by unfold addI64; tame []

/-! ### The cache -/

namespace Lru
variable {σ β : Type} {E : Env} {del : Deleter σ β}

/-- The deleter does not fail in these ways. -/
def TameDel (del : Deleter σ β) : Prop := ∀ e w, Tame (del e w)

theorem assertThat_tame (p : Prop) [Decidable p] : Tame (assertThat E p) := by unfold assertThat; tame []

theorem discard_tame (hd : TameDel del) (e : Elem β) (w : World σ β) : Tame (discard E del e w) := by
  unfold discard
  exact (assertThat_tame _).bind (fun _ => hd _ _)

theorem removeElem_tame (hd : TameDel del) (e : Elem β) (w : World σ β) : Tame (removeElem E del e w) := by
  unfold removeElem; tame [discard_tame hd]

theorem remove_tame (hd : TameDel del) (k : Bytes) (w : World σ β) : Tame (remove E del k w) := by
  unfold remove; tame [removeElem_tame hd]

theorem gcStep_tame (hd : TameDel del) (e : Elem β) (w : World σ β) : Tame (gcStep E del e w) := by
  unfold gcStep; tame [discard_tame hd, assertThat_tame]

theorem gcLoop_tame (hd : TameDel del) : ∀ (n : Nat) (c : Option Nat) (w : World σ β), Tame (gcLoop E del n c w)
  | n, none, w => by unfold gcLoop; exact .ok _
  | 0, some _, w => by unfold gcLoop; tame []
  | n + 1, some i, w => by unfold gcLoop; tame [gcStep_tame hd, gcLoop_tame hd n]

theorem garbageCollect_tame (hd : TameDel del) (w : World σ β) : Tame (garbageCollect E del w) := gcLoop_tame hd _ _ _

theorem idleLoop_tame (hd : TameDel del) (t : Int) : ∀ (n : Nat) (c : Option Nat) (l : Int) (w : World σ β), Tame (idleLoop E del t n c l w)
  | n, none, l, w => by unfold idleLoop; exact .ok _
  | 0, some _, l, w => by unfold idleLoop; tame []
  | n + 1, some i, l, w => by unfold idleLoop; tame [assertThat_tame, remove_tame hd, idleLoop_tame hd t n]

theorem discardIdle_tame (hd : TameDel del) (m : Int) (w : World σ β) : Tame (discardIdle E del m w) := by
  unfold discardIdle; tame [idleLoop_tame hd]

theorem removeExpired_tame (hd : TameDel del) (w : World σ β) : Tame (removeExpired E del w) := by
  unfold removeExpired; tame [discardIdle_tame hd]

theorem setTimeout_tame (hd : TameDel del) (c : Option Int) (l : Bool) (w : World σ β) : Tame (setTimeout E del c l w) := by
  unfold setTimeout; tame [discardIdle_tame hd, assertThat_tame]

theorem lookup_tame (hd : TameDel del) (u : Bool) (k : Bytes) (w : World σ β) : Tame (lookup E del u k w) := by
  unfold lookup; tame [removeExpired_tame hd]

theorem releaseDeferred_tame (hd : TameDel del) (e : Elem β) (w : World σ β) : Tame (releaseDeferred E del e w) := by
  unfold releaseDeferred; tame [assertThat_tame, discard_tame hd]

theorem linkFront_tame (e : Elem β) (c : Cache β) : Tame (linkFront e c) := by unfold linkFront; tame []

theorem releaseTable_tame (hd : TameDel del) (u : Bool) (k : Bytes) (p : Nat) (e : Elem β) (w : World σ β) :
    Tame (releaseTable E del u k p e w) := by
  unfold releaseTable; tame [assertThat_tame, remove_tame hd, linkFront_tame]

theorem release_tame (hd : TameDel del) (u : Bool) (k : Bytes) (p : Nat) (w : World σ β) : Tame (release E del u k p w) := by
  unfold release; tame [releaseDeferred_tame hd, releaseTable_tame hd]

theorem insert_tame (hd : TameDel del) (k : Bytes) (p : Nat) (v : β) (n : Nat) (w : World σ β) : Tame (insert E del k p v n w) := by
  unfold insert insertPinned; tame [remove_tame hd, garbageCollect_tame hd, release_tame hd]

theorem removeAll_tame (hd : TameDel del) (w : World σ β) : Tame (removeAll E del w) := by
  unfold removeAll
  exact (Tame.foldlM (fun w e => removeElem_tame hd e w) _ _).bind (fun _ => .ok _)

end Lru

theorem withBuffer_tame {R β α : Type} (s : AggState β) (nc : α) {body : Lru.World (Slot R) β → Res (Lru.World (Slot R) β × α)}
    (h : ∀ w, Tame (body w)) : Tame (withBuffer s nc body) := by
  unfold withBuffer; tame [h]

/-! ### Operations -/

section
variable [DoubleOps D]

theorem addCounts_tame : ∀ a b : List Int, Tame (Dist.addCounts a b)
  | [], _ => by unfold Dist.addCounts; exact .ok _
  | _ :: _, [] => by unfold Dist.addCounts; exact .ok _
  | t :: ts, f :: fs => by unfold Dist.addCounts; tame [addI64_tame, addCounts_tame ts fs]

theorem mergeDelta_tame (f t : MetricValue D) : Tame (mergeDelta f t) := by
  unfold mergeDelta mergeDeltaValue Dist.merge; tame [addI64_tame, addCounts_tame]

theorem mergeMetricValue_tame (k : MetricKind) (f t : MetricValue D) : Tame (mergeMetricValue k f t) := by
  unfold mergeMetricValue; tame [mergeDelta_tame]

theorem mergeValues_tame (H : Bytes → Bytes) (k : MetricKind) : ∀ (l : List (MetricValue D)) (m : List (Bytes × MetricValue D)), Tame (mergeValues H k l m)
  | [], _ => by unfold mergeValues; exact .ok _
  | v :: vs, m => by unfold mergeValues; tame [mergeMetricValue_tame, mergeValues_tame H k vs]

theorem mergeSets_tame (H : Bytes → Bytes) (k : MetricKinds) : ∀ (l : List (MetricValueSet D)) (m : List (Bytes × List (Bytes × MetricValue D))),
    Tame (mergeSets H k l m)
  | [], _ => by unfold mergeSets; exact .ok _
  | v :: vs, m => by unfold mergeSets; tame [mergeValues_tame, mergeSets_tame H k vs]

theorem OpAgg.new_tame (H : Bytes → Bytes) (k : MetricKinds) (o : Operation D) : Tame (OpAgg.new H k o) := by
  unfold OpAgg.new; tame [mergeSets_tame]

theorem OpAgg.mergeOperation_tame (H : Bytes → Bytes) (k : MetricKinds) (a : OpAgg D) (o : Operation D) : Tame (a.mergeOperation H k o) := by
  unfold OpAgg.mergeOperation; tame [mergeSets_tame]
end

theorem quotaMergeDelta_tame (f t : MetricValue D) : Tame (quotaMergeDelta f t) := by
  unfold quotaMergeDelta; tame [addI64_tame]

theorem quotaFirstValue_tame (d : Bool) (s : MetricValueSet D) : Tame (quotaFirstValue d s) := by
  unfold quotaFirstValue; tame []

theorem quotaMergeSets_tame (d : Bool) : ∀ (l : List (MetricValueSet D)) (m : List (Bytes × MetricValue D)), Tame (quotaMergeSets d l m)
  | [], _ => by unfold quotaMergeSets; exact .ok _
  | v :: vs, m => by unfold quotaMergeSets; tame [quotaFirstValue_tame, quotaMergeDelta_tame, quotaMergeSets_tame d vs]

/-! ### The aggregators -/

section
variable [DoubleOps D]

omit [DoubleOps D] in
theorem Report.onDelete_tame (cfg : AggConfig) : Lru.TameDel (Report.onDelete (D := D) cfg) := by
  intro e w; unfold Report.onDelete; exact .ok _

theorem Report.step_tame (E : Lru.Env) (cfg : AggConfig) (c : Report.Call D) (s : AggState (OpAgg D)) : Tame (Report.step E cfg c s) := by
  have hd := Report.onDelete_tame (D := D) cfg
  cases c with
  | report r =>
    simp only [Report.step, Report.report]
    split
    · exact .ok _
    split
    · exact .ok _
    refine withBuffer_tame _ _ (fun w => (Tame.foldlM ?_ _ _).bind (fun _ => .ok _))
    intro w o
    unfold Report.reportOp
    refine (Lru.lookup_tame hd _ _ _).bind ?_
    tame [Lru.release_tame hd, Lru.remove_tame hd, Lru.insert_tame hd, OpAgg.new_tame, OpAgg.mergeOperation_tame]
  | flush =>
    simp only [Report.step, Report.flush]
    exact withBuffer_tame _ _ (fun w => (Lru.removeExpired_tame hd _).bind (fun _ => .ok _))
  | flushAll =>
    simp only [Report.step, Report.flushAll]
    exact withBuffer_tame _ _ (fun w => (Lru.removeAll_tame hd _).bind (fun _ => .ok _))

omit [DoubleOps D] in
theorem Check.onDelete_tame (cfg : AggConfig) : Lru.TameDel (Check.onDelete (D := D) cfg) := by
  intro e w; unfold Check.onDelete; tame []

theorem Check.checkElem_tame (E : Lru.Env) (cfg : AggConfig) (o : Operation D) (v : Check.Elem D) (t : Nat) :
    Tame (Check.checkElem E cfg o v t) := by
  unfold Check.checkElem Check.Elem.aggregate; tame [OpAgg.new_tame, OpAgg.mergeOperation_tame]

theorem Check.step_tame (E : Lru.Env) (cfg : AggConfig) (c : Check.Call D) (s : AggState (Check.Elem D)) : Tame (Check.step E cfg c s) := by
  have hd := Check.onDelete_tame (D := D) cfg
  cases c with
  | check r =>
    simp only [Check.step, Check.check]
    split
    · exact .ok _
    split
    · exact .ok _
    split
    · exact .ok _
    refine withBuffer_tame _ _ (fun w => (Lru.lookup_tame hd _ _ _).bind ?_)
    tame [Lru.release_tame hd, Check.checkElem_tame]
  | cacheResponse r p =>
    simp only [Check.step, Check.cacheResponse]
    refine withBuffer_tame _ _ (fun w => (Lru.lookup_tame hd _ _ _).bind ?_)
    tame [Lru.release_tame hd, Lru.insert_tame hd]
  | flush =>
    simp only [Check.step, Check.flush]
    exact withBuffer_tame _ _ (fun w => (Lru.removeExpired_tame hd _).bind (fun _ => .ok _))
  | flushAll =>
    simp only [Check.step, Check.flushAll]
    exact withBuffer_tame _ _ (fun w => (Lru.removeAll_tame hd _).bind (fun _ => .ok _))
end

theorem Quota.deref_tame {σ β : Type} (p : Nat) (w : Lru.World σ β) : Tame (Quota.deref p w) := by unfold Quota.deref; tame []

theorem Quota.aggregate_tame (E : Lru.Env) (v : Quota.Elem D) (r : AllocateQuotaRequest D) : Tame (v.aggregate E r) := by
  unfold Quota.Elem.aggregate QuotaAgg.new QuotaAgg.mergeOperation; tame [quotaMergeSets_tame]

theorem Quota.onDelete_tame (E : Lru.Env) (cfg : AggConfig) (b : Bool) : ∀ d, Lru.TameDel (Quota.onDelete (D := D) E cfg b d)
  | 0 => by intro e w; unfold Quota.onDelete; tame []
  | d + 1 => by
    intro e w
    unfold Quota.onDelete
    have hd := Quota.onDelete_tame E cfg b d
    tame [Lru.insert_tame hd, Quota.deref_tame]

theorem Quota.step_tame (E : Lru.Env) (cfg : AggConfig) (d : Nat) (c : Quota.Call D) (s : Quota.State D) : Tame (Quota.step E cfg d c s) := by
  have hd := Quota.onDelete_tame (D := D) E cfg s.inFlushAll d
  cases c with
  | quota r =>
    simp only [Quota.step, Quota.quota]
    split
    · exact .ok _
    split
    · exact .ok _
    refine Tame.bind (withBuffer_tame _ _ (fun w => (Lru.lookup_tame hd _ _ _).bind ?_)) (fun _ => .ok _)
    tame [Lru.release_tame hd, Lru.insert_tame hd, Quota.deref_tame, Quota.aggregate_tame]
  | cacheResponse r p =>
    simp only [Quota.step, Quota.cacheResponse]
    refine Tame.bind (withBuffer_tame _ _ (fun w => (Lru.lookup_tame hd _ _ _).bind ?_)) (fun _ => .ok _)
    tame [Lru.release_tame hd, Lru.insert_tame hd]
  | flush =>
    simp only [Quota.step, Quota.flush]
    exact Tame.bind (withBuffer_tame _ _ (fun w => (Lru.removeExpired_tame hd _).bind (fun _ => .ok _))) (fun _ => .ok _)
  | flushAll =>
    simp only [Quota.step, Quota.flushAll]
    exact Tame.bind (withBuffer_tame _ _ (fun w => (Lru.removeAll_tame (Quota.onDelete_tame E cfg true d) _).bind (fun _ => .ok _))) (fun _ => .ok _)

end Verif
