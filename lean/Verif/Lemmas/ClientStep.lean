import Verif.Lemmas.ClientLink
import Verif.Spec.LruCache
/-
The operations of the client keep the books and the links between the trace and the histories of the
aggregators; what can go wrong in them.
-/
set_option linter.unusedSectionVars false
namespace Verif.Client
open Lru
variable {D : Type} [DoubleOps D]

/-! ### Links between the trace and the histories -/

def reqsC (h : Check.Hist D) : List (CheckRequest D) := h.reverse.flatMap (·.flushed)
def reqsQ (h : Quota.Hist D) : List (AllocateQuotaRequest D) := h.reverse.flatMap (·.flushed)
def reqsR (h : Report.Hist D) : List (ReportRequest D) := h.reverse.flatMap (·.flushed)

omit [DoubleOps D] in
theorem reqsC_cons (ev : Check.Event D) (h : Check.Hist D) : reqsC (ev :: h) = reqsC h ++ ev.flushed := by
  simp [reqsC]
omit [DoubleOps D] in
theorem reqsQ_cons (ev : Quota.Event D) (h : Quota.Hist D) : reqsQ (ev :: h) = reqsQ h ++ ev.flushed := by
  simp [reqsQ]
omit [DoubleOps D] in
theorem reqsR_cons (ev : Report.Event D) (h : Report.Hist D) : reqsR (ev :: h) = reqsR h ++ ev.flushed := by
  simp [reqsR]

/-- The response a check completion delivers. -/
def replyEv (H : Bytes → Bytes) (k : Bytes) (e : Ev D) : Option CheckResponse :=
  match e with
  | .completed _ (some _) (.check r) a => if checkRequestSig H r = k ∧ a.status = .ok then some a.check else none
  | _ => none

omit [DoubleOps D] in
theorem lastReply_eq (H : Bytes → Bytes) (k : Bytes) (tr : List (Ev D)) :
    lastReply H k tr = tr.reverse.findSome? (replyEv H k) := rfl

omit [DoubleOps D] in
theorem lastReply_quiet (H : Bytes → Bytes) (k : Bytes) (tr evs : List (Ev D)) (h : ∀ e ∈ evs, replyEv H k e = none) :
    lastReply H k (tr ++ evs) = lastReply H k tr := by
  rw [lastReply_eq, lastReply_eq, List.reverse_append, List.findSome?_append]
  rw [List.findSome?_eq_none_iff.mpr (fun e he => h e (List.mem_reverse.mp he))]
  rfl

omit [DoubleOps D] in
theorem lastReply_one (H : Bytes → Bytes) (k : Bytes) (tr : List (Ev D)) (e : Ev D) :
    lastReply H k (tr ++ [e]) = (replyEv H k e).or (lastReply H k tr) := by
  rw [lastReply_eq, lastReply_eq, List.reverse_append, List.findSome?_append]
  simp only [List.reverse_cons, List.reverse_nil, List.nil_append, List.findSome?_cons, List.findSome?_nil]
  cases replyEv H k e <;> rfl

/-- What a quota completion grants. -/
def grantEv (H : Bytes → Bytes) (k : Bytes) (e : Ev D) : Option AllocateQuotaResponse :=
  match e with
  | .completed _ _ (.quota r) a => if allocateQuotaSig H r = k then some (granted a) else none
  | _ => none

omit [DoubleOps D] in
theorem lastGrant_eq (H : Bytes → Bytes) (k : Bytes) (tr : List (Ev D)) :
    lastGrant H k tr = tr.reverse.findSome? (grantEv H k) := rfl

omit [DoubleOps D] in
theorem lastGrant_quiet (H : Bytes → Bytes) (k : Bytes) (tr evs : List (Ev D)) (h : ∀ e ∈ evs, grantEv H k e = none) :
    lastGrant H k (tr ++ evs) = lastGrant H k tr := by
  rw [lastGrant_eq, lastGrant_eq, List.reverse_append, List.findSome?_append]
  rw [List.findSome?_eq_none_iff.mpr (fun e he => h e (List.mem_reverse.mp he))]
  rfl

omit [DoubleOps D] in
theorem lastGrant_one (H : Bytes → Bytes) (k : Bytes) (tr : List (Ev D)) (e : Ev D) :
    lastGrant H k (tr ++ [e]) = (grantEv H k e).or (lastGrant H k tr) := by
  rw [lastGrant_eq, lastGrant_eq, List.reverse_append, List.findSome?_append]
  simp only [List.reverse_cons, List.reverse_nil, List.nil_append, List.findSome?_cons, List.findSome?_nil]
  cases grantEv H k e <;> rfl

/-- The assumptions on the environment of the quota aggregator. -/
abbrev SaneQ (K : Setup) : Prop := Mono K.envQ.clk ∧ 0 < K.envQ.extraFuel

/-- An event is as it should be, given the ones before it. -/
structure Ev.Ok (K : Setup) (e : Ev D) (before : List (Ev D)) : Prop where
  check : e.CheckOk K.cfgC.H before
  quota : SaneQ K → e.QuotaOk K.cfgQ.H before
  late : .destroyed ∈ before → e.late = true

def TraceOk (K : Setup) (tr : List (Ev D)) : Prop :=
  ∀ pre e post, tr = pre ++ e :: post → e.Ok K pre

omit [DoubleOps D] in
theorem TraceOk.nil (K : Setup) : TraceOk K ([] : List (Ev D)) := by
  intro pre e post h
  cases pre <;> cases h

omit [DoubleOps D] in
theorem TraceOk.one {K : Setup} {tr : List (Ev D)} {e : Ev D} (h : TraceOk K tr) (he : e.Ok K tr) :
    TraceOk K (tr ++ [e]) := by
  intro pre x post hx
  rcases List.eq_nil_or_concat post with rfl | ⟨post', y, rfl⟩
  · have := List.append_inj' hx rfl
    obtain ⟨rfl, h2⟩ := this
    cases h2
    exact he
  · have h1 : tr ++ [e] = (pre ++ x :: post') ++ [y] := by rw [hx]; simp
    have := (List.append_inj' h1 rfl).1
    exact h pre x post' this

omit [DoubleOps D] in
theorem Ev.Ok.plain {K : Setup} {e : Ev D} {tr : List (Ev D)} (h : e.hit = false)
    (hl : .destroyed ∈ tr → e.late = true) : e.Ok K tr := by
  refine ⟨?_, ?_, hl⟩
  · rintro i r reply rfl; cases h
  · rintro _ i r reply rfl; cases h

omit [DoubleOps D] in
theorem TraceOk.append {K : Setup} : ∀ (evs : List (Ev D)) {tr : List (Ev D)}, TraceOk K tr → (∀ e ∈ evs, e.hit = false) →
    .destroyed ∉ evs → (.destroyed ∈ tr → ∀ e ∈ evs, e.late = true) → TraceOk K (tr ++ evs)
  | [], tr, h, _, _, _ => by rw [List.append_nil]; exact h
  | e :: evs, tr, h, hh, hd, hl => by
    rw [List.append_cons]
    refine TraceOk.append evs (h.one (.plain (hh e (by simp)) (fun h => hl h e (by simp)))) (fun x hx => hh x (List.mem_cons_of_mem _ hx))
      (fun hx => hd (List.mem_cons_of_mem _ hx)) ?_
    intro hx x hxe
    rcases List.mem_append.mp hx with hx | hx
    · exact hl hx x (List.mem_cons_of_mem _ hxe)
    · rw [List.mem_singleton] at hx
      exact absurd (hx ▸ List.mem_cons_self) hd

/-- What the aggregators had done at some earlier moment. -/
structure Base (D : Type) where
  c : Check.Hist D := []
  q : Quota.Hist D := []
  r : Report.Hist D := []

/-- What the aggregators have done, since `B` among others, and what the trace shows of it.  `oc`, `oq`, `or`: requests passed
to the flush callbacks and not sent yet; `oa`: operations accepted but not acknowledged yet; `L`: whether the
responses kept by the aggregators are the ones in the trace. -/
structure Links (K : Setup) (B : Base D) (L : Prop) (hc : Check.Hist D) (hq : Quota.Hist D) (hr : Report.Hist D)
    (oc : List (CheckRequest D)) (oq : List (AllocateQuotaRequest D)) (or : List (ReportRequest D)) (oa : List (Operation D))
    (s : Client D) : Prop where
  c : CheckIs K hc s.alive s.check
  q : QuotaIs K hq s.alive s.quota
  r : ReportIs K hr s.alive s.report
  timer : s.alive = false → s.timer = none
  fc : s.alive = true → flushedChecks s.trace ++ oc = reqsC hc
  fq : s.alive = true → flushedQuotas s.trace ++ oq = reqsQ hq
  fr : flushedReports s.trace ++ or = reqsR hr
  acc : acceptedOps s.trace ++ oa = Report.acceptedOps hr
  last : L → ∀ k, lastReply K.cfgC.H k s.trace = Check.lastCached K.cfgC.H k hc
  dq : L → ∀ k p, Quota.served K.cfgQ.H k hq = some p → p = .default ∨ lastGrant K.cfgQ.H k s.trace = some p
  fired : s.alive = true → Ev.destroyed ∉ s.trace
  ok : TraceOk K s.trace
  gone : s.alive = false → Ev.destroyed ∈ s.trace
  base : B.c <:+ hc ∧ B.q <:+ hq ∧ B.r <:+ hr

variable {K : Setup} {B : Base D} {L : Prop} {hc : Check.Hist D} {hq : Quota.Hist D} {hr : Report.Hist D}
  {oc : List (CheckRequest D)} {oq : List (AllocateQuotaRequest D)} {or : List (ReportRequest D)} {oa : List (Operation D)}
  {s : Client D}

/-- Events are added to the trace. -/
theorem Links.append (l : Links K B L hc hq hr oc oq or oa s) {s' : Client D} {evs : List (Ev D)}
    {fc oc' : List (CheckRequest D)} {fq oq' : List (AllocateQuotaRequest D)} {fr or' : List (ReportRequest D)} {fa oa' : List (Operation D)}
    (h1 : s'.check = s.check) (h2 : s'.quota = s.quota) (h3 : s'.report = s.report) (h4 : s'.alive = s.alive)
    (h5 : s'.timer = s.timer) (h6 : s'.trace = s.trace ++ evs)
    (hfc : flushedChecks evs = fc) (hfq : flushedQuotas evs = fq) (hfr : flushedReports evs = fr) (hfa : acceptedOps evs = fa)
    (hoc : s.alive = true → oc = fc ++ oc') (hoq : s.alive = true → oq = fq ++ oq') (hor : or = fr ++ or') (hoa : oa = fa ++ oa')
    (hl : L → ∀ k, ∀ e ∈ evs, replyEv K.cfgC.H k e = none ∧ grantEv K.cfgQ.H k e = none) (hd : Ev.destroyed ∉ evs)
    (hh : ∀ e ∈ evs, e.hit = false) (hlate : s.alive = false → ∀ e ∈ evs, e.late = true) :
    Links K B L hc hq hr oc' oq' or' oa' s' := by
  refine ⟨?_, ?_, ?_, ?_, ?_, ?_, ?_, ?_, ?_, ?_, ?_, ?_, fun ha => by rw [h6]; exact List.mem_append_left _ (l.gone (h4 ▸ ha)), l.base⟩
  · rw [h1, h4]; exact l.c
  · rw [h2, h4]; exact l.q
  · rw [h3, h4]; exact l.r
  · rw [h4, h5]; exact l.timer
  · intro ha
    rw [h4] at ha
    have := l.fc ha
    rw [hoc ha] at this
    rw [h6, ← this]
    simp only [flushedChecks, List.filterMap_append, List.append_assoc] at hfc ⊢
    rw [hfc]
  · intro ha
    rw [h4] at ha
    have := l.fq ha
    rw [hoq ha] at this
    rw [h6, ← this]
    simp only [flushedQuotas, List.filterMap_append, List.append_assoc] at hfq ⊢
    rw [hfq]
  · have := l.fr
    rw [hor] at this
    rw [h6, ← this]
    simp only [flushedReports, List.filterMap_append, List.append_assoc] at hfr ⊢
    rw [hfr]
  · have := l.acc
    rw [hoa] at this
    rw [h6, ← this]
    simp only [acceptedOps, List.flatMap_append, List.append_assoc] at hfa ⊢
    rw [hfa]
  · intro ha k
    rw [h6, lastReply_quiet _ _ _ _ (fun e he => (hl ha k e he).1)]
    exact l.last ha k
  · intro ha k p hp
    rw [h6, lastGrant_quiet _ _ _ _ (fun e he => (hl ha k e he).2)]
    exact l.dq ha k p hp
  · intro ha
    rw [h4] at ha
    rw [h6, List.mem_append, not_or]
    exact ⟨l.fired ha, hd⟩
  · rw [h6]
    refine l.ok.append evs hh hd ?_
    intro hx
    cases ha : s.alive with
    | true => exact absurd hx (l.fired ha)
    | false => exact hlate ha

/-- The events of flush callbacks. -/
def Quiet (e : Ev D) : Prop := (∃ id c, e = .sent id none c) ∨ ∃ id c a, e = .completed id none c a

omit [DoubleOps D] in
theorem Quiet.reply {e : Ev D} (h : Quiet e) (H : Bytes → Bytes) (k : Bytes) : replyEv H k e = none := by
  rcases h with ⟨id, c, rfl⟩ | ⟨id, c, a, rfl⟩ <;> rfl

omit [DoubleOps D] in
theorem Quiet.accepted {evs : List (Ev D)} (h : ∀ e ∈ evs, Quiet e) : acceptedOps evs = [] := by
  unfold acceptedOps
  rw [List.flatMap_eq_nil_iff]
  intro e he
  rcases h e he with ⟨id, c, rfl⟩ | ⟨id, c, a, rfl⟩ <;> rfl

/-- What running flush callbacks leaves alone. -/
structure Frame (s s' : Client D) : Prop where
  check : s'.check = s.check
  report : s'.report = s.report
  alive : s'.alive = s.alive
  timer : s'.timer = s.timer
  calls : s'.calls = s.calls
  trace : ∃ evs, s'.trace = s.trace ++ evs ∧ ∀ e ∈ evs, Quiet e

omit [DoubleOps D] in
theorem Frame.refl (s : Client D) : Frame s s := ⟨rfl, rfl, rfl, rfl, rfl, [], by simp, by simp⟩

omit [DoubleOps D] in
theorem Frame.trans {s s' s'' : Client D} (h : Frame s s') (h' : Frame s' s'') : Frame s s'' := by
  obtain ⟨e1, h1, h2⟩ := h.trace
  obtain ⟨e2, h3, h4⟩ := h'.trace
  refine ⟨h'.check.trans h.check, h'.report.trans h.report, h'.alive.trans h.alive, h'.timer.trans h.timer, h'.calls.trans h.calls, e1 ++ e2, ?_, ?_⟩
  · rw [h3, h1, List.append_assoc]
  · intro e he
    rcases List.mem_append.mp he with he | he
    · exact h2 e he
    · exact h4 e he

/-! ### What can go wrong -/

/-- A call of one of the aggregators. -/
inductive AggCall (D : Type) where
  | c (x : Check.Call D)
  | q (x : Quota.Call D)
  | r (x : Report.Call D)

/-- An empty default transport is called by a flush callback, a flush callback waits for the mutex its
thread holds (both only if `A`), or a call `P` of an aggregator fails. -/
inductive Err (K : Setup) (A : Prop) (P : AggCall D → Prop) : Fault → Prop
  | empty : A → K.hasC = false ∨ K.hasQ = false ∨ K.hasR = false → Err K A P .badFunctionCall
  | locked {id a} : A → K.answer id = some a → Err K A P .deadlock
  | c {h s x e} : P (.c x) → Check.Reach K.envC K.cfgC h s → Check.step K.envC K.cfgC x s = .error e → Err K A P e
  | q {h s x e} : P (.q x) → Quota.Reach K.envQ K.cfgQ h s → Quota.step K.envQ K.cfgQ (K.depth + 1) x s = .error e → Err K A P e
  | r {h s x e} : P (.r x) → Report.Reach K.envR K.cfgR h s → Report.step K.envR K.cfgR x s = .error e → Err K A P e

theorem Err.mono {A : Prop} {P Q : AggCall D → Prop} {e : Fault} (h : Err K A P e) (hpq : ∀ x, P x → Q x) : Err K A Q e := by
  cases h with
  | empty ha h => exact .empty ha h
  | locked ha h => exact .locked ha h
  | c h1 h2 h3 => exact .c (hpq _ h1) h2 h3
  | q h1 h2 h3 => exact .q (hpq _ h1) h2 h3
  | r h1 h2 h3 => exact .r (hpq _ h1) h2 h3

/-- Responses delivered by a transport. -/
def isResponse : AggCall D → Prop
  | .c (.cacheResponse _ _) => True
  | .q (.cacheResponse _ _) => True
  | _ => False

theorem CheckIs.error {h : Check.Hist D} {b : Bool} {s : AggState (Check.Elem D)} (i : CheckIs K h b s) {x : Check.Call D} {e : Fault}
    (hs : Check.step K.envC K.cfgC x s = .error e) : ∃ s, Check.Reach K.envC K.cfgC h s ∧ Check.step K.envC K.cfgC x s = .error e := by
  have hb : s = s.setFlushCallback b := by rw [← i.callback]; rfl
  rw [hb, Check.step_mute] at hs
  refine ⟨_, i.reach, ?_⟩
  cases hx : Check.step K.envC K.cfgC x (s.setFlushCallback true) with
  | error e' => rw [hx] at hs; simp only [Except.map, Except.error.injEq] at hs; rw [hs]
  | ok y => rw [hx] at hs; cases hs

theorem ReportIs.error {h : Report.Hist D} {b : Bool} {s : AggState (OpAgg D)} (i : ReportIs K h b s) {x : Report.Call D} {e : Fault}
    (hs : Report.step K.envR K.cfgR x s = .error e) : ∃ s, Report.Reach K.envR K.cfgR h s ∧ Report.step K.envR K.cfgR x s = .error e := by
  have hb : s = s.setFlushCallback b := by rw [← i.callback]; rfl
  rw [hb, Report.step_mute] at hs
  refine ⟨_, i.reach, ?_⟩
  cases hx : Report.step K.envR K.cfgR x (s.setFlushCallback true) with
  | error e' => rw [hx] at hs; simp only [Except.map, Except.error.injEq] at hs; rw [hs]
  | ok y => rw [hx] at hs; cases hs

theorem QuotaIs.error {h : Quota.Hist D} {b : Bool} {s : Quota.State D} (i : QuotaIs K h b s) {d : Nat} {x : Quota.Call D} {e : Fault}
    (hs : Quota.step K.envQ K.cfgQ d x s = .error e) : ∃ s, Quota.Reach K.envQ K.cfgQ h s ∧ Quota.step K.envQ K.cfgQ d x s = .error e := by
  have hb : s = s.setCallback b := by rw [← i.callback]; rfl
  rw [hb, Quota.step_mute] at hs
  refine ⟨_, i.reach, ?_⟩
  cases hx : Quota.step K.envQ K.cfgQ d x (s.setCallback true) with
  | error e' => rw [hx] at hs; simp only [Except.map, Except.error.injEq] at hs; rw [hs]
  | ok y => rw [hx] at hs; cases hs

/-! ### Flush callbacks of checks and reports -/

variable {o : Open D} {own : List Nat} {owed : Stats} {A : Prop}

/-- A completion callback can be called if the transport holds it. -/
theorem take_ok {id : Nat} (a : Answer) {p : Pend D} (h : s.pend.find? (·.id == id) = some p) :
    s.take id a = .ok (p, { s.log (.completed id p.by_ p.req a) with pend := s.pend.filter (·.id != id) }) := by
  unfold Client.take
  rw [h]

theorem Books.find_sent (b : Books o own owed s) (by_ : Option Nat) (c : Call D) (ps : List Nat) :
    (s.send by_ c ps).pend.find? (·.id == s.sends) = some ⟨s.sends, by_, c, ps⟩ := by
  have h1 : s.pend.find? (·.id == s.sends) = none := by
    rw [List.find?_eq_none]
    intro p hp
    have h2 : (p.id, p.by_, p.req) ∈ outstanding s.trace := by
      rw [← b.pend]; exact List.mem_map_of_mem (f := fun p : Pend D => (p.id, p.by_, p.req)) hp
    have h3 := (mem_outstanding h2).1
    have h4 : p.id ∈ s.trace.filterMap Ev.sentId := List.mem_filterMap.mpr ⟨_, h3, rfl⟩
    rw [b.sentIds] at h4
    have := List.mem_range.mp h4
    simp only [beq_iff_eq]
    omega
  simp only [Client.send, Client.log]
  rw [List.find?_append, h1]
  simp

/-- Callbacks that only delete the response. -/
theorem finishPlain_spec (b : Books o own owed s) {id : Nat} (a : Answer) {p : Pend D}
    (h : s.pend.find? (·.id == id) = some p) (hb : p.by_ = none) :
    ∃ s', finishPlain id a s = .ok s' ∧ Books o own owed s' ∧ s'.check = s.check ∧ s'.quota = s.quota ∧ s'.report = s.report ∧
      s'.alive = s.alive ∧ s'.timer = s.timer ∧ s'.calls = s.calls ∧ s'.trace = s.trace ++ [.completed id none p.req a] := by
  have ht := take_ok a h
  obtain ⟨_, b1⟩ := b.take ht (.inl ⟨hb, rfl⟩)
  obtain ⟨s2, h2, b2, h3⟩ := Books.freeAll p.own b1
  refine ⟨s2, ?_, b2, ?_⟩
  · unfold finishPlain
    rw [ht]
    exact h2
  · rw [h3, ← hb]
    exact ⟨rfl, rfl, rfl, rfl, rfl, rfl, rfl⟩

theorem sendPlain_spec (K : Setup) (c : Call D) (b : Books o own owed s) :
    ∃ s' evs, sendPlain K c s = .ok s' ∧ Books o own (owed.add (Stats.ofTrace [Ev.sent s.sends none c])) s' ∧
      s'.check = s.check ∧ s'.quota = s.quota ∧ s'.report = s.report ∧ s'.alive = s.alive ∧ s'.timer = s.timer ∧ s'.calls = s.calls ∧
      s'.trace = s.trace ++ evs ∧ (evs = [.sent s.sends none c] ∨ ∃ a, evs = [.sent s.sends none c, .completed s.sends none c a]) := by
  have b1 := b.alloc
  have b2 := b1.send (o' := o) none c [s.nextAddr] List.perm_append_comm (.inl ⟨rfl, rfl⟩) (by simp)
  unfold sendPlain
  simp only
  have hf := b1.find_sent none c [s.nextAddr]
  cases ha : K.answer s.alloc.2.sends with
  | none =>
    simp only [show s.alloc.1 = s.nextAddr from rfl]
    exact ⟨_, _, rfl, b2, rfl, rfl, rfl, rfl, rfl, rfl, rfl, .inl rfl⟩
  | some a =>
    simp only [show s.alloc.1 = s.nextAddr from rfl]
    obtain ⟨s3, h3, b3, h4, h5, h6, h7, h8, h9, h10⟩ := finishPlain_spec b2 a hf rfl
    refine ⟨s3, [.sent s.sends none c, .completed s.sends none c a], h3, b3, h4, h5, h6, h7, h8, h9, ?_, .inr ⟨a, rfl⟩⟩
    rw [h10]
    show (s.trace ++ [_]) ++ [_] = _
    rw [List.append_assoc]
    rfl

omit [DoubleOps D] in
theorem plain_quiet {id : Nat} {c : Call D} {evs : List (Ev D)}
    (h : evs = [.sent id none c] ∨ ∃ a, evs = [.sent id none c, .completed id none c a]) : ∀ e ∈ evs, Quiet e := by
  intro e he
  rcases h with rfl | ⟨a, rfl⟩
  · simp only [List.mem_singleton] at he; subst he; exact .inl ⟨_, _, rfl⟩
  · simp only [List.mem_cons, List.not_mem_nil, or_false] at he
    rcases he with rfl | rfl
    · exact .inl ⟨_, _, rfl⟩
    · exact .inr ⟨_, _, _, rfl⟩

omit [DoubleOps D] in
theorem Quiet.hit {evs : List (Ev D)} (h : ∀ e ∈ evs, Quiet e) : ∀ e ∈ evs, e.hit = false := by
  intro e he
  rcases h e he with ⟨id, c, rfl⟩ | ⟨id, c, a, rfl⟩ <;> rfl

/-- The flush callbacks of a call on the check aggregator. -/
theorem checkFlushes {P : AggCall D → Prop} : ∀ (fl : List (CheckRequest D)) (s : Client D), Books o own owed s →
    Links K B L hc hq hr (fl ++ oc) oq or oa s → (s.alive = false → fl = []) → (s.alive = true → A) →
    (∃ s', fl.foldlM (checkFlushCallback K) s = .ok s' ∧ Books o own owed s' ∧ Links K B L hc hq hr oc oq or oa s' ∧ Frame s s') ∨
    ∃ e, fl.foldlM (checkFlushCallback K) s = .error e ∧ Err K A P e
  | [], s, b, l, _, _ => .inl ⟨s, rfl, b, l, .refl s⟩
  | r :: fl, s, b, l, hfl, hA => by
    have hal : s.alive = true := by
      cases h : s.alive with
      | true => rfl
      | false => cases hfl h
    rw [List.foldlM_cons]
    by_cases hK : K.hasC = false
    · right
      refine ⟨.badFunctionCall, ?_, .empty (hA hal) (.inl hK)⟩
      unfold checkFlushCallback
      rw [if_pos hK]; rfl
    · obtain ⟨s1, evs, h1, b1, h2, h3, h4, h5, h6, h7, h8, h9⟩ := sendPlain_spec K (.check r) b
      have hstep : checkFlushCallback K s r = .ok { s1 with stats := { s1.stats with checksByFlush := s1.stats.checksByFlush + 1 } } := by
        unfold checkFlushCallback
        rw [if_neg hK, h1]; rfl
      have b2 : Books o own owed { s1 with stats := { s1.stats with checksByFlush := s1.stats.checksByFlush + 1 } } := b1.pay
      have hq := plain_quiet h9
      have l2 := l.append (s' := { s1 with stats := { s1.stats with checksByFlush := s1.stats.checksByFlush + 1 } })
        (fc := [r]) (oc' := fl ++ oc) (fq := []) (oq' := oq) (fr := []) (or' := or) (fa := []) (oa' := oa) h2 h3 h4 h5 h6 h8
        (by rcases h9 with rfl | ⟨a, rfl⟩ <;> rfl) (by rcases h9 with rfl | ⟨a, rfl⟩ <;> rfl)
        (by rcases h9 with rfl | ⟨a, rfl⟩ <;> rfl) (Quiet.accepted hq)
        (fun _ => rfl) (fun _ => rfl) rfl rfl (fun _ k e he => ⟨(hq e he).reply _ _, by rcases h9 with rfl | ⟨a, rfl⟩ <;> simp only [List.mem_cons, List.not_mem_nil, or_false] at he <;> (try rcases he with rfl | rfl) <;> (try subst he) <;> rfl⟩)
        (by rcases h9 with rfl | ⟨a, rfl⟩ <;> simp) (Quiet.hit hq) (fun h => by cases hfl h)
      have hfr : Frame s { s1 with stats := { s1.stats with checksByFlush := s1.stats.checksByFlush + 1 } } :=
        ⟨h2, h4, h5, h6, h7, evs, h8, hq⟩
      rw [hstep]
      rcases checkFlushes fl _ b2 l2 (fun h => by cases hfl (h5.symm.trans h)) (fun _ => hA hal) with ⟨s', g1, g2, g3, g4⟩ | ⟨e, g1, g2⟩
      · exact .inl ⟨s', g1, g2, g3, hfr.trans g4⟩
      · exact .inr ⟨e, g1, g2⟩

theorem reportFlushes {P : AggCall D → Prop} : ∀ (fl : List (ReportRequest D)) (s : Client D), Books o own owed s →
    Links K B L hc hq hr oc oq (fl ++ or) oa s → (s.alive = false → fl = []) → (s.alive = true → A) →
    (∃ s', fl.foldlM (reportFlushCallback K) s = .ok s' ∧ Books o own owed s' ∧ Links K B L hc hq hr oc oq or oa s' ∧ Frame s s') ∨
    ∃ e, fl.foldlM (reportFlushCallback K) s = .error e ∧ Err K A P e
  | [], s, b, l, _, _ => .inl ⟨s, rfl, b, l, .refl s⟩
  | r :: fl, s, b, l, hfl, hA => by
    have hal : s.alive = true := by
      cases h : s.alive with
      | true => rfl
      | false => cases hfl h
    rw [List.foldlM_cons]
    by_cases hK : K.hasR = false
    · right
      refine ⟨.badFunctionCall, ?_, .empty (hA hal) (.inr (.inr hK))⟩
      unfold reportFlushCallback
      rw [if_pos hK]; rfl
    · obtain ⟨s1, evs, h1, b1, h2, h3, h4, h5, h6, h7, h8, h9⟩ := sendPlain_spec K (.report r) b
      have hst : Stats.ofTrace [Ev.sent s.sends none (.report r)] = ⟨0, 0, 0, 0, 0, 0, 0, 1, 0, r.operations.length⟩ := by
        simp [Stats.ofTrace]
      rw [hst] at b1
      let s2 : Client D := { s1 with stats := { s1.stats with
        reportsByFlush := s1.stats.reportsByFlush + 1
        reportOperations := s1.stats.reportOperations + r.operations.length } }
      have hstep : reportFlushCallback K s r = .ok s2 := by
        unfold reportFlushCallback
        rw [if_neg hK, h1]; rfl
      have b2 : Books o own owed s2 := b1.pay
      have hq := plain_quiet h9
      have l2 := l.append (s' := s2)
        (fc := []) (oc' := oc) (fq := []) (oq' := oq) (fr := [r]) (or' := fl ++ or) (fa := []) (oa' := oa) h2 h3 h4 h5 h6 h8
        (by rcases h9 with rfl | ⟨a, rfl⟩ <;> rfl) (by rcases h9 with rfl | ⟨a, rfl⟩ <;> rfl)
        (by rcases h9 with rfl | ⟨a, rfl⟩ <;> rfl) (Quiet.accepted hq)
        (fun _ => rfl) (fun _ => rfl) rfl rfl (fun _ k e he => ⟨(hq e he).reply _ _, by rcases h9 with rfl | ⟨a, rfl⟩ <;> simp only [List.mem_cons, List.not_mem_nil, or_false] at he <;> (try rcases he with rfl | rfl) <;> (try subst he) <;> rfl⟩)
        (by rcases h9 with rfl | ⟨a, rfl⟩ <;> simp) (Quiet.hit hq) (fun h => by cases hfl h)
      have hfr : Frame s s2 := ⟨h2, h4, h5, h6, h7, evs, h8, hq⟩
      rw [hstep]
      rcases reportFlushes fl _ b2 l2 (fun h => by cases hfl (h5.symm.trans h)) (fun _ => hA hal) with ⟨s', g1, g2, g3, g4⟩ | ⟨e, g1, g2⟩
      · exact .inl ⟨s', g1, g2, g3, hfr.trans g4⟩
      · exact .inr ⟨e, g1, g2⟩

/-! ### The quota aggregator and its flush callbacks -/

omit [DoubleOps D] in
theorem served_cases {H : Bytes → Bytes} {k : Bytes} {ev : Quota.Event D} {h : Quota.Hist D} {p : AllocateQuotaResponse}
    (hs : Quota.served H k (ev :: h) = some p) :
    p = .default ∨ (Quota.served H k h = some p ∧ ∀ r resp, ev.call = .cacheResponse r resp → allocateQuotaSig H r ≠ k) ∨
      ∃ r, ev.call = .cacheResponse r p ∧ allocateQuotaSig H r = k := by
  unfold Quota.served at hs
  split at hs
  · cases hs
  · split at hs
    · exact .inl (Option.some.inj hs).symm
    · split at hs
      · rename_i r resp hc
        split at hs
        · rename_i hk
          cases hs
          exact .inr (.inr ⟨r, hc, hk⟩)
        · rename_i hk
          refine .inr (.inl ⟨hs, ?_⟩)
          intro r' resp' hc'
          rw [hc] at hc'
          cases hc'
          exact hk
      · rename_i hc
        exact .inr (.inl ⟨hs, fun r' resp' hc' => absurd hc' (hc r' resp')⟩)

/-- A call on the quota aggregator. -/
theorem Links.quotaStep (l : Links K B L hc hq hr oc oq or oa s) {x : Quota.Call D} {q : Quota.State D} {out : Quota.Out}
    {fl : List (AllocateQuotaRequest D)} {d : Nat} (hs : Quota.step K.envQ K.cfgQ (d + 1) x s.quota = .ok (q, out, fl))
    (hx : L → ∀ r p, x ≠ .cacheResponse r p) :
    (∃ ev, Links K B L hc (ev :: hq) hr oc (oq ++ fl) or oa { s with quota := q } ∧ ev.call = x ∧ ev.out = out ∧
      (s.alive = true → ev.flushed = fl) ∧
      Quota.step K.envQ K.cfgQ (d + 1) x (s.quota.setCallback true) = .ok (q.setCallback true, out, ev.flushed) ∧
      ev.first = s.quota.base.tick) ∧
    (s.alive = false → fl = []) := by
  obtain ⟨ev, h1, h2, h3, h4, h5, h6⟩ := l.q.step hs
  refine ⟨⟨ev, ⟨l.c, h1, l.r, l.timer, l.fc, ?_, l.fr, l.acc, l.last, ?_, l.fired, l.ok, l.gone,
    l.base.1, l.base.2.1.trans (List.suffix_cons _ _), l.base.2.2⟩, h2, h3, h4, h6⟩, h5⟩
  · intro ha
    rw [reqsQ_cons, ← l.fq ha, h4 ha, List.append_assoc]
  · intro hL k p hp
    rcases served_cases hp with h | ⟨h, _⟩ | ⟨r, h, hk⟩
    · exact .inl h
    · exact l.dq hL k p h
    · rw [h2] at h
      exact absurd h (hx hL r p)

theorem Links.weaken {L' : Prop} (l : Links K B L hc hq hr oc oq or oa s) (h : L' → L) : Links K B L' hc hq hr oc oq or oa s :=
  ⟨l.c, l.q, l.r, l.timer, l.fc, l.fq, l.fr, l.acc, fun x => l.last (h x), fun x => l.dq (h x), l.fired, l.ok, l.gone, l.base⟩

theorem Links.rebase {B' : Base D} (l : Links K B L hc hq hr oc oq or oa s) (h : B'.c <:+ hc ∧ B'.q <:+ hq ∧ B'.r <:+ hr) :
    Links K B' L hc hq hr oc oq or oa s :=
  ⟨l.c, l.q, l.r, l.timer, l.fc, l.fq, l.fr, l.acc, l.last, l.dq, l.fired, l.ok, l.gone, h⟩

theorem Links.strengthen (l : Links K B False hc hq hr oc oq or oa s)
    (h : L → ∀ k, lastReply K.cfgC.H k s.trace = Check.lastCached K.cfgC.H k hc)
    (h' : L → ∀ k p, Quota.served K.cfgQ.H k hq = some p → p = .default ∨ lastGrant K.cfgQ.H k s.trace = some p) :
    Links K B L hc hq hr oc oq or oa s :=
  ⟨l.c, l.q, l.r, l.timer, l.fc, l.fq, l.fr, l.acc, h, h', l.fired, l.ok, l.gone, l.base⟩

/-- A quota request is completed and its response stored. -/
theorem Links.respond (l : Links K B L hc hq hr oc oq or oa s) {s1 : Client D} (l1 : Links K B False hc hq hr oc oq or oa s1)
    {id : Nat} {b : Option Nat} {r : AllocateQuotaRequest D} {a : Answer} (htr : s1.trace = s.trace ++ [.completed id b (.quota r) a])
    {q : Quota.State D} {out : Quota.Out} {fl : List (AllocateQuotaRequest D)}
    (hs : Quota.step K.envQ K.cfgQ (K.depth + 1) (.cacheResponse r (granted a)) s1.quota = .ok (q, out, fl)) :
    (∃ ev, Links K B L hc (ev :: hq) hr oc (oq ++ fl) or oa { s1 with quota := q } ∧ ev.call = .cacheResponse r (granted a)) ∧
    (s1.alive = false → fl = []) := by
  obtain ⟨⟨ev, l2, h2, _⟩, h5⟩ := l1.quotaStep hs (fun h => h.elim)
  refine ⟨⟨ev, l2.strengthen ?_ ?_, h2⟩, h5⟩
  · intro hL k
    show lastReply _ k s1.trace = _
    rw [htr, lastReply_one, ← l.last hL k]
    cases b <;> rfl
  · intro hL k p hp
    show _ ∨ lastGrant _ k s1.trace = _
    rw [htr, lastGrant_one]
    rcases served_cases hp with h | ⟨h, hk⟩ | ⟨r', h, hk⟩
    · exact .inl h
    · refine (l.dq hL k p h).imp (fun h => h) (fun h => ?_)
      simp only [grantEv, if_neg (hk r _ h2), Option.none_or]
      exact h
    · right
      rw [h2] at h
      cases h
      simp only [grantEv, if_pos hk, Option.some_or]

/-- The completion callback of a quota request sent by a flush callback; `hF`: the flush callbacks
run by `CacheResponse`. -/
theorem finishQuotaFlush_spec (P : AggCall D → Prop) (hP : ∀ x, isResponse x → P x) {id : Nat} (a : Answer) {p : Pend D} {r : AllocateQuotaRequest D}
    (b : Books o own owed s) (l : Links K B L hc hq hr oc oq or oa s) (hal : s.alive = true)
    (h : s.pend.find? (·.id == id) = some p) (hb : p.by_ = none) (hreq : p.req = .quota r)
    (F : List (AllocateQuotaRequest D) → Client D → Res (Client D))
    (hF : ∀ fl s1 hq', Books o (p.own ++ own) owed s1 → Links K B L hc hq' hr oc (oq ++ fl) or oa s1 → s1.alive = true →
      (∃ s' hq'', F fl s1 = .ok s' ∧ Books o (p.own ++ own) owed s' ∧ Links K B L hc hq'' hr oc oq or oa s' ∧ Frame s1 s') ∨
      ∃ e, F fl s1 = .error e ∧ Err K A P e) :
    (∃ s' hq', finishQuotaFlush K F id a s = .ok s' ∧ Books o own owed s' ∧ Links K B L hc hq' hr oc oq or oa s' ∧ Frame s s') ∨
    ∃ e, finishQuotaFlush K F id a s = .error e ∧ Err K A P e := by
  have ht := take_ok a h
  obtain ⟨hid, b1⟩ := b.take ht (.inl ⟨hb, rfl⟩)
  let s1 : Client D := { s.log (.completed id p.by_ p.req a) with pend := s.pend.filter (·.id != id) }
  have htr : s1.trace = s.trace ++ [.completed id none (.quota r) a] := by show s.trace ++ [_] = _; rw [hb, hreq]
  have l1 : Links K B False hc hq hr oc oq or oa s1 := (l.weaken (L' := False) (fun h => h.elim)).append (s' := s1) (evs := [.completed id none (.quota r) a])
    (fc := []) (fq := []) (fr := []) (fa := []) rfl rfl rfl rfl rfl htr rfl rfl rfl rfl
    (fun _ => rfl) (fun _ => rfl) rfl rfl (fun h => h.elim) (by simp) (by intro e he; simp only [List.mem_singleton] at he; subst he; rfl) (fun h => by rw [hal] at h; cases h)
  have hf1 : Frame s s1 := ⟨rfl, rfl, rfl, rfl, rfl, [.completed id none (.quota r) a], (by show s.trace ++ [_] = _; rw [hb, hreq]),
    (by intro e he; simp only [List.mem_singleton] at he; subst he; exact .inr ⟨_, _, _, rfl⟩)⟩
  have hto : s1.touch p.own = .ok () := b1.touch (fun q hq => List.mem_append_left _ hq)
  unfold finishQuotaFlush
  rw [ht]
  simp only [bind, Except.bind]
  rw [if_neg (by show ¬ s.alive = false; rw [hal]; simp)]
  rw [hreq]
  simp only
  have hto' : Client.touch p.own { s.log (.completed id p.by_ p.req a) with pend := s.pend.filter (·.id != id) } = .ok () := hto
  rw [hreq] at hto'
  rw [hto']
  simp only
  cases hs : Quota.cacheResponse K.envQ K.cfgQ (K.depth + 1) r (granted a) s.quota with
  | error e =>
    right
    refine ⟨e, ?_, ?_⟩
    · simp only [Client.log]
      unfold granted at hs
      rw [hs]
    · obtain ⟨s0, g1, g2⟩ := QuotaIs.error l.q (x := .cacheResponse r (granted a)) (d := K.depth + 1) hs
      exact .q (hP (.q (.cacheResponse r (granted a))) trivial) g1 g2
  | ok y =>
    obtain ⟨q, out, fl⟩ := y
    obtain ⟨⟨ev, l2, _⟩, h5⟩ := l.respond l1 htr hs
    simp only [Client.log]
    unfold granted at hs
    rw [hs]
    simp only
    have b2 : Books o (p.own ++ own) owed { s1 with quota := q } := b1.congr rfl rfl rfl rfl rfl rfl rfl
    have hF' := hF fl { s1 with quota := q } (ev :: hq) b2 l2 hal
    simp only [s1, Client.log, hreq] at hF'
    rcases hF' with ⟨s', hq'', g1, g2, g3, g4⟩ | ⟨e, g1, g2⟩
    · left
      rw [g1]
      simp only
      obtain ⟨s2, k1, b3, k2⟩ := Books.freeAll p.own g2
      refine ⟨s2, hq'', k1, b3, ?_, ?_⟩
      · rw [k2]
        exact g3.append (evs := []) (fc := []) (fq := []) (fr := []) (fa := []) rfl rfl rfl rfl rfl (by simp) rfl rfl rfl rfl
          (fun _ => rfl) (fun _ => rfl) rfl rfl (by simp) (by simp) (by simp) (by simp)
      · have hf2 : Frame s1 s' := by
          have := g4
          rw [← hreq] at this
          exact ⟨this.check, this.report, this.alive, this.timer, this.calls, this.trace⟩
        refine (hf1.trans hf2).trans ?_
        rw [k2]
        exact ⟨rfl, rfl, rfl, rfl, rfl, [], by simp, by simp⟩
    · right
      rw [g1]
      exact ⟨e, rfl, g2⟩

/-- The flush callbacks of a call on the quota aggregator. -/
theorem quotaFlushes {P : AggCall D → Prop} (hP : ∀ x, isResponse x → P x) : ∀ (fl : List (AllocateQuotaRequest D)) (s : Client D) (hq : Quota.Hist D),
    Books o own owed s → Links K B L hc hq hr oc (fl ++ oq) or oa s → (s.alive = false → fl = []) → (s.alive = true → A) →
    (∃ s' hq', fl.foldlM (quotaFlushCallback K) s = .ok s' ∧ Books o own owed s' ∧ Links K B L hc hq' hr oc oq or oa s' ∧ Frame s s') ∨
    ∃ e, fl.foldlM (quotaFlushCallback K) s = .error e ∧ Err K A P e
  | [], s, hq, b, l, _, _ => .inl ⟨s, hq, rfl, b, l, .refl s⟩
  | r :: fl, s, hq, b, l, hfl, hA => by
    have hal : s.alive = true := by
      cases h : s.alive with
      | true => rfl
      | false => cases hfl h
    rw [List.foldlM_cons]
    by_cases hK : K.hasQ = false
    · right
      refine ⟨.badFunctionCall, ?_, .empty (hA hal) (.inr (.inl hK))⟩
      unfold quotaFlushCallback
      rw [if_pos hK]; rfl
    have b1 := b.alloc.alloc
    have b2 := b1.send (o' := o) (own' := own) none (.quota r) [s.nextAddr, s.nextAddr + 1] (by
      show (own ++ [s.nextAddr] ++ [s.nextAddr + 1]).Perm _
      rw [List.append_assoc]
      exact List.perm_append_comm) (.inl ⟨rfl, rfl⟩) (by simp)
    let s2 : Client D := s.alloc.2.alloc.2.send none (.quota r) [s.nextAddr, s.nextAddr + 1]
    have l2 : Links K B L hc hq hr oc (fl ++ oq) or oa s2 := l.append (s' := s2) (evs := [.sent s.sends none (.quota r)])
      (fc := []) (fq := [r]) (fr := []) (fa := []) rfl rfl rfl rfl rfl rfl rfl rfl rfl rfl
      (fun _ => rfl) (fun _ => rfl) rfl rfl (by intro _ k e he; simp only [List.mem_singleton] at he; subst he; exact ⟨rfl, rfl⟩) (by simp) (by intro e he; simp only [List.mem_singleton] at he; subst he; rfl) (fun h => by rw [hal] at h; cases h)
    have hf2 : Frame s s2 := ⟨rfl, rfl, rfl, rfl, rfl, [.sent s.sends none (.quota r)], rfl,
      (by intro e he; simp only [List.mem_singleton] at he; subst he; exact .inl ⟨_, _, rfl⟩)⟩
    have hres : (∃ s' hq', quotaFlushCallback K s r = .ok s' ∧ Books o own owed s' ∧ Links K B L hc hq' hr oc (fl ++ oq) or oa s' ∧ Frame s s') ∨
        ∃ e, quotaFlushCallback K s r = .error e ∧ Err K A P e := by
      unfold quotaFlushCallback
      rw [if_neg hK]
      simp only [bind, Except.bind]
      cases ha : K.answer s.alloc.2.alloc.2.sends with
      | none =>
        left
        refine ⟨_, hq, rfl, b2.pay, ?_, ?_⟩
        · exact l2.append (evs := []) (fc := []) (fq := []) (fr := []) (fa := []) rfl rfl rfl rfl rfl (by simp [s2]; rfl) rfl rfl rfl rfl
            (fun _ => rfl) (fun _ => rfl) rfl rfl (by simp) (by simp) (by simp) (by simp)
        · exact ⟨rfl, rfl, rfl, rfl, rfl, hf2.trace⟩
      | some a =>
        have hfin := b1.find_sent none (.quota r) [s.nextAddr, s.nextAddr + 1]
        simp only [show s.alloc.1 = s.nextAddr from rfl, show s.alloc.2.alloc.1 = s.nextAddr + 1 from rfl]
        rcases finishQuotaFlush_spec (r := r) P hP a b2 l2 hal hfin rfl rfl flushesLocked (by
          intro fl' s1 hq' b' l' _
          unfold flushesLocked
          cases fl' with
          | nil =>
            rw [List.append_nil] at l'
            exact .inl ⟨s1, hq', rfl, b', l', .refl s1⟩
          | cons y ys => exact .inr ⟨.deadlock, rfl, .locked (hA hal) ha⟩) with ⟨s3, hq3, h3, b3, l3, f3⟩ | ⟨e, h3, h4⟩
        · left
          have h3' := h3
          rw [h3']
          refine ⟨_, hq3, rfl, b3.pay, ?_, ?_⟩
          · exact l3.append (evs := []) (fc := []) (fq := []) (fr := []) (fa := []) rfl rfl rfl rfl rfl (by simp) rfl rfl rfl rfl
              (fun _ => rfl) (fun _ => rfl) rfl rfl (by simp) (by simp) (by simp) (by simp)
          · exact hf2.trans ⟨f3.check, f3.report, f3.alive, f3.timer, f3.calls, f3.trace⟩
        · right
          rw [h3]
          exact ⟨e, rfl, h4⟩
    rcases hres with ⟨s', hq', h1, b3, l3, f3⟩ | ⟨e, h1, h2⟩
    · rw [h1]
      rcases quotaFlushes hP fl s' hq' b3 l3 (by rw [f3.alive, hal]; simp) (fun _ => hA hal) with ⟨s4, hq4, g1, g2, g3, g4⟩ | ⟨e, g1, g2⟩
      · exact .inl ⟨s4, hq4, g1, g2, g3, f3.trans g4⟩
      · exact .inr ⟨e, g1, g2⟩
    · rw [h1]
      exact .inr ⟨e, rfl, h2⟩

end Verif.Client
