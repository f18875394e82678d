import Verif.Lemmas.ThreadExec
import Verif.Lemmas.ClientOps
import Verif.Spec.Threads
/-
The aggregators of a client used by many threads: the histories of their calls, what becomes of the items they
pass on, and where the answers come from that they give.
-/
set_option linter.unusedSectionVars false
namespace Verif

namespace Quota
variable {D : Type} {E : Lru.Env} {cfg : AggConfig} {h : Hist D}

theorem withBuffer_some {R β α : Type} {s : AggState β} {a : α} {body : Lru.World (Slot R) β → Res (Lru.World (Slot R) β × α)}
    {s' : AggState β} {x : α} {l : List R} (h : withBuffer s a body = .ok (s', x, l)) : s'.cache.isSome = s.cache.isSome := by
  unfold withBuffer at h
  cases hc : s.cache with
  | none => rw [hc] at h; cases h; simp [hc]
  | some c =>
    rw [hc] at h
    simp only [bind, Except.bind] at h
    split at h
    · cases h
    · cases h; rfl

theorem step_some {s s' : State D} {d : Nat} {c : Call D} {out : Out} {fl : List (AllocateQuotaRequest D)} (h : step E cfg d c s = .ok (s', out, fl)) :
    s'.base.cache.isSome = s.base.cache.isSome := by
  cases c <;> simp only [step, quota, cacheResponse, flush, flushAll, bind, Except.bind] at h
  · split at h
    · cases h; rfl
    · split at h
      · cases h; rfl
      · split at h
        · cases h
        · rename_i v hv
          cases h
          exact withBuffer_some hv
  all_goals
    split at h
    · cases h
    · rename_i v hv
      cases h
      exact withBuffer_some hv

theorem Reach.some {st : State D} (r : Reach E cfg h st) (hn : 0 < cfg.numEntries) : st.base.cache.isSome := by
  induction r with
  | @init s d h0 =>
    unfold new at h0
    rw [if_pos (by omega)] at h0
    simp only [bind, Except.bind] at h0
    split at h0
    · cases h0
    · cases h0; rfl
  | @call h s d c s' out fl _ hs ih => rw [step_some hs]; exact ih

theorem quota_status {s s' : State D} {d : Nat} {r : AllocateQuotaRequest D} {out : Out} {fl : List (AllocateQuotaRequest D)}
    (h : step E cfg d (.quota r) s = .ok (s', out, fl)) (h1 : r.serviceName = cfg.serviceName) (h2 : r.allocateOperation ≠ none) :
    (out.status = .ok ∧ s.base.cache.isSome) ∨ (out.status = .notFound ∧ s.base.cache = none) := by
  simp only [step, quota] at h
  rw [if_neg (by simpa using h1), if_neg h2] at h
  cases hc : s.base.cache with
  | none =>
    simp only [withBuffer, hc, bind, Except.bind] at h
    cases h
    exact .inr ⟨rfl, rfl⟩
  | some c =>
    left
    simp only [withBuffer, hc, bind, Except.bind] at h
    split at h
    · cases h
    · rename_i v hv
      cases h
      split at hv
      · cases hv
      · rename_i w hw
        cases hv
        refine ⟨?_, rfl⟩
        repeat' split at hw
        all_goals first | (cases hw; done) | (cases hw; rfl)

end Quota

namespace Check
variable {D : Type} [DoubleOps D] {E : Lru.Env} {cfg : AggConfig}

theorem check_status {s s' : AggState (Elem D)} {r : CheckRequest D} {out : Out} {fl : List (CheckRequest D)}
    (h : step E cfg (.check r) s = .ok (s', out, fl)) : out.status = .ok ∨ out.status = .notFound ∨ out.status = .invalidArgument := by
  simp only [step, check] at h
  split at h
  · cases h; simp
  · split at h
    · cases h; simp
    · split at h
      · cases h; simp
      · unfold withBuffer at h
        split at h
        · cases h; simp
        · simp only [bind, Except.bind] at h
          split at h
          · cases h
          · rename_i v hv
            cases h
            split at hv
            · cases hv
            · split at hv
              · cases hv; simp
              · split at hv
                · cases hv
                · rename_i x hx
                  split at hv
                  · cases hv
                  · cases hv
                    unfold checkElem at hx
                    split at hx
                    · split at hx <;> (cases hx; simp)
                    · simp only [bind, Except.bind] at hx
                      split at hx
                      · cases hx
                      · split at hx <;> (cases hx; simp)

end Check

namespace Threads
open Client
variable {D : Type}

/-- The item on its way to the flush callback. -/
def Act.way : Act D → List (Call D)
  | .flush c => [c]
  | .calling c => [c]
  | _ => []

/-- The operations accepted by the aggregator in a call that has not been answered. -/
def Act.accepts : Act D → List (Operation D)
  | .result _ (.report r) .ok _ => r.operations
  | .finish _ (.report r) .ok _ none => r.operations
  | _ => []

/-- What a method of an aggregator has answered to a valid request. -/
def answer (c : Call D) (st : Status) (reply : Reply) : List (Call D × Status × Reply) :=
  if st = .invalidArgument then [] else [(c, st, if st = .notFound then .none else reply)]

/-- The answer of an aggregator a thread has in its hands. -/
def Act.answers : Act D → List (Call D × Status × Reply)
  | .result _ c st reply => answer c st reply
  | .finish _ c st reply none => answer c st reply
  | _ => []

/-- The answers of aggregators seen in the events: done callbacks invoked at once, and transport calls. -/
def answers (tr : List (Ev D)) : List (Call D × Status × Reply) :=
  tr.flatMap (fun e => match e with
    | .done _ c st reply none => answer c st reply
    | .sent _ (some _) c => [(c, .notFound, .none)]
    | _ => [])

/-- The answer of the check aggregator to a call. -/
def ansC (x : Check.Call D) (out : Check.Out) : List (Call D × Status × Reply) :=
  match x with
  | .check r => answer (.check r) out.status (match out.response with | none => .none | some p => .check p)
  | _ => []

/-- The answer of the quota aggregator to a call. -/
def ansQ (x : Quota.Call D) (out : Quota.Out) : List (Call D × Status × Reply) :=
  match x with
  | .quota r => answer (.quota r) out.status (match out.response with | none => .none | some p => .quota p)
  | _ => []

/-- The answer of the report aggregator to a call. -/
def ansR (x : Report.Call D) (st : Status) : List (Call D × Status × Reply) :=
  match x with
  | .report r => answer (.report r) st .none
  | _ => []

/-- All answers of the aggregators. -/
def answersC (h : Check.Hist D) : List (Call D × Status × Reply) := h.reverse.flatMap (fun ev => ansC ev.call ev.out)
def answersQ (h : Quota.Hist D) : List (Call D × Status × Reply) := h.reverse.flatMap (fun ev => ansQ ev.call ev.out)
def answersR (h : Report.Hist D) : List (Call D × Status × Reply) := h.reverse.flatMap (fun ev => ansR ev.call ev.status)

theorem answersC_cons (ev : Check.Event D) (h : Check.Hist D) : answersC (ev :: h) = answersC h ++ ansC ev.call ev.out := by
  simp [answersC]
theorem answersQ_cons (ev : Quota.Event D) (h : Quota.Hist D) : answersQ (ev :: h) = answersQ h ++ ansQ ev.call ev.out := by
  simp [answersQ]
theorem answersR_cons (ev : Report.Event D) (h : Report.Hist D) : answersR (ev :: h) = answersR h ++ ansR ev.call ev.status := by
  simp [answersR]

/-- The requests given to transports by flush callbacks. -/
def flushedCalls (tr : List (Ev D)) : List (Call D) :=
  tr.filterMap (fun e => match e with | .sent _ none c => some c | _ => none)

/-- The completion of a quota request a thread is about to tell the aggregator: the request and what it grants. -/
def Act.comps : Act D → List (AllocateQuotaRequest D × AllocateQuotaResponse)
  | .fin p a => match p.req with
    | .quota r => [(r, granted a)]
    | _ => []
  | _ => []

/-- The completions of quota requests. -/
def compsOf (tr : List (Ev D)) : List (AllocateQuotaRequest D × AllocateQuotaResponse) :=
  tr.flatMap (fun e => match e with | .completed _ _ (.quota r) a => [(r, granted a)] | _ => [])

theorem compsOf_append (a b : List (Ev D)) : compsOf (a ++ b) = compsOf a ++ compsOf b := by
  simp [compsOf, List.flatMap_append]

/-- The response a call of the quota aggregator stores. -/
def storeQ : Quota.Call D → List (AllocateQuotaRequest D × AllocateQuotaResponse)
  | .cacheResponse r p => [(r, p)]
  | _ => []

/-- The responses stored in the quota aggregator. -/
def storesQ (h : Quota.Hist D) : List (AllocateQuotaRequest D × AllocateQuotaResponse) := h.flatMap (fun ev => storeQ ev.call)

/-- The items removed by the calls of the aggregators. -/
def asked (hc : Check.Hist D) (hq : Quota.Hist D) (hr : Report.Hist D) : List (Call D) :=
  (reqsC hc).map .check ++ (reqsQ hq).map .quota ++ (reqsR hr).map .report

/-- A transport has delivered this answer. -/
def Backed (K : Setup) (c : Call D) (reply : Reply) (tr : List (Ev D)) : Prop :=
  match c with
  | .check r => ∃ p id i r' a, reply = .check p ∧ Ev.completed id (some i) (.check r') a ∈ tr ∧ a.status = .ok ∧ a.check = p ∧
      checkRequestSig K.cfgC.H r' = checkRequestSig K.cfgC.H r
  | .quota r => SaneQ K → ∃ p, reply = .quota p ∧ (p = .default ∨ ∃ id b r' a, Ev.completed id b (.quota r') a ∈ tr ∧ granted a = p ∧
      allocateQuotaSig K.cfgQ.H r' = allocateQuotaSig K.cfgQ.H r)
  | .report _ => True

theorem Backed.mono {K : Setup} {c : Call D} {reply : Reply} {tr tr' : List (Ev D)} (h : Backed K c reply tr) (hs : ∀ e ∈ tr, e ∈ tr') :
    Backed K c reply tr' := by
  cases c with
  | check r =>
    obtain ⟨p, id, i, r', a, h1, h2, h3⟩ := h
    exact ⟨p, id, i, r', a, h1, hs _ h2, h3⟩
  | quota r =>
    intro hq
    obtain ⟨p, h1, h2⟩ := h hq
    refine ⟨p, h1, h2.imp id ?_⟩
    rintro ⟨id, b, r', a, h3, h4⟩
    exact ⟨id, b, r', a, hs _ h3, h4⟩
  | report r => trivial

/-- What a method of an aggregator returns for a request. -/
def Result (K : Setup) (c : Call D) (st : Status) : Prop :=
  (st = .ok ∧ ¬ Refused K c ∧ Held K c) ∨ (st = .invalidArgument ∧ Refused K c) ∨
  (st = .notFound ∧ ¬ Refused K c ∧ (Held K c → ∃ r, c = .check r))

/-- An answer given without a transport. -/
structure Settled (K : Setup) (i : Nat) (c : Call D) (st : Status) (reply : Reply) (tr : List (Ev D)) : Prop where
  backed : st = .ok → Backed K c reply tr
  why : Result K c st ∧ Ev.called i c true ∈ tr ∨ st = .invalidArgument ∧ Ev.called i c false ∈ tr

theorem Settled.mono {K : Setup} {i : Nat} {c : Call D} {st : Status} {reply : Reply} {tr tr' : List (Ev D)} (h : Settled K i c st reply tr)
    (hs : ∀ e ∈ tr, e ∈ tr') : Settled K i c st reply tr' :=
  ⟨fun hst => (h.backed hst).mono hs, h.why.imp (fun x => ⟨x.1, hs _ x.2⟩) (fun x => ⟨x.1, hs _ x.2⟩)⟩

/-- What the events say about a call that is running. -/
def Act.Backed (K : Setup) (tr : List (Ev D)) : Act D → Prop
  | .start i c t => Ev.called i c t ∈ tr
  | .agg i c => Ev.called i c true ∈ tr
  | .result i c st reply => (st = .ok → Threads.Backed K c reply tr) ∧ Result K c st ∧ Ev.called i c true ∈ tr
  | .finish i c st reply none => st ≠ .notFound ∧ Settled K i c st reply tr
  | _ => True

theorem Act.Backed.mono {K : Setup} {a : Act D} {tr tr' : List (Ev D)} (h : a.Backed K tr) (hs : ∀ e ∈ tr, e ∈ tr') : a.Backed K tr' := by
  cases a <;> try trivial
  · exact hs _ h
  · exact hs _ h
  · exact ⟨fun hst => (h.1 hst).mono hs, h.2.1, hs _ h.2.2⟩
  · rename_i via
    cases via with
    | none => exact ⟨h.1, h.2.mono hs⟩
    | some id => trivial

/-- What the events before an event say about it. -/
structure EvOk (K : Setup) (e : Ev D) (before : List (Ev D)) : Prop where
  backed : ∀ i c st reply, e = .done i c st reply none → st ≠ .notFound ∧ Settled K i c st reply before
  sent : ∀ id i c, e = .sent id (some i) c → Result K c .notFound ∧ Ev.called i c true ∈ before
  late : Ev.destroyed ∈ before → e.late = true

section
variable [DoubleOps D] {K : Setup} {stops : Bool} {hc : Check.Hist D} {hq : Quota.Hist D} {hr : Report.Hist D}

structure Links (K : Setup) (hc : Check.Hist D) (hq : Quota.Hist D) (hr : Report.Hist D) (A : List (Act D)) (s : Sys D) : Prop where
  c : CheckIs K hc true s.c.check
  q : QuotaIs K hq true s.c.quota
  r : ReportIs K hr true s.c.report
  items : (flushedCalls s.c.trace ++ A.flatMap Act.way ++ s.dropped).Perm (asked hc hq hr)
  ans : (answers s.c.trace ++ A.flatMap Act.answers).Perm (answersC hc ++ answersQ hq ++ answersR hr)
  cachedC : ∀ ev ∈ hc, ∀ r p, ev.call = .cacheResponse r p → ∃ id i a, Ev.completed id (some i) (.check r) a ∈ s.c.trace ∧ a.status = .ok ∧ a.check = p
  cachedQ : ∀ ev ∈ hq, ∀ r p, ev.call = .cacheResponse r p → ∃ id b a, Ev.completed id b (.quota r) a ∈ s.c.trace ∧ granted a = p
  backed : ∀ a ∈ A, a.Backed K s.c.trace
  ok : ∀ pre e post, s.c.trace = pre ++ e :: post → EvOk K e pre
  gone : s.c.alive = true ↔ Ev.destroyed ∉ s.c.trace
  dead : s.c.alive = false → s.c.timer = none
  stopped : ∀ n, .destroy n ∈ A → 4 ≤ n → s.c.timer = none
  comps : (storesQ hq ++ A.flatMap Act.comps).Perm (compsOf s.c.trace)
  asks : ∀ r ∈ Quota.requests hq, ∃ i, Ev.called i (.quota r) true ∈ s.c.trace

/-- The aggregators have had more calls. -/
structure Grow (hc : Check.Hist D) (hq : Quota.Hist D) (hr : Report.Hist D) (hc' : Check.Hist D) (hq' : Quota.Hist D) (hr' : Report.Hist D) : Prop where
  c : hc <:+ hc'
  q : hq' = hq ∨ ∃ ev, hq' = ev :: hq
  r : hr <:+ hr'

theorem Grow.same : Grow hc hq hr hc hq hr := ⟨List.suffix_refl _, .inl rfl, List.suffix_refl _⟩
theorem Grow.consC {ev : Check.Event D} : Grow hc hq hr (ev :: hc) hq hr := ⟨List.suffix_cons _ _, .inl rfl, List.suffix_refl _⟩
theorem Grow.consQ {ev : Quota.Event D} : Grow hc hq hr hc (ev :: hq) hr := ⟨List.suffix_refl _, .inr ⟨_, rfl⟩, List.suffix_refl _⟩
theorem Grow.consR {ev : Report.Event D} : Grow hc hq hr hc hq (ev :: hr) := ⟨List.suffix_refl _, .inl rfl, List.suffix_cons _ _⟩

theorem Links.perm {A A' : List (Act D)} {s : Sys D} (l : Links K hc hq hr A s) (h : A'.Perm A) : Links K hc hq hr A' s :=
  ⟨l.c, l.q, l.r, (((h.flatMap_right _).append_left _).append_right _).trans l.items, ((h.flatMap_right _).append_left _).trans l.ans,
   l.cachedC, l.cachedQ, fun a ha => l.backed a (h.mem_iff.mp ha), l.ok, l.gone, l.dead, fun n ha => l.stopped n (h.mem_iff.mp ha),
   ((h.flatMap_right _).append_left _).trans l.comps, l.asks⟩

theorem answers_append (a b : List (Ev D)) : answers (a ++ b) = answers a ++ answers b := by
  simp [answers, List.flatMap_append]

theorem flushedCalls_append (a b : List (Ev D)) : flushedCalls (a ++ b) = flushedCalls a ++ flushedCalls b := by
  simp [flushedCalls, List.filterMap_append]

/-- The operations of a report that was accepted. -/
def accOf : Call D × Status × Reply → List (Operation D)
  | (.report r, .ok, _) => r.operations
  | _ => []

theorem answer_acc (c : Call D) (st : Status) (reply : Reply) :
    (answer c st reply).flatMap accOf = match c, st with | .report r, .ok => r.operations | _, _ => [] := by
  cases c <;> cases st <;> simp [answer, accOf]

theorem answers_acc (tr : List (Ev D)) : (answers tr).flatMap accOf = acceptedOps tr := by
  unfold answers acceptedOps
  rw [List.flatMap_assoc]
  refine List.flatMap_congr fun e _ => ?_
  cases e with
  | done i c st reply via =>
    cases via with
    | none => simp only [answer_acc]; cases c <;> cases st <;> rfl
    | some id => cases c <;> cases st <;> rfl
  | sent id by_ c => cases by_ <;> cases c <;> rfl
  | _ => rfl

theorem Act.answers_acc (a : Act D) : a.answers.flatMap accOf = a.accepts := by
  cases a with
  | result i c st reply => simp only [Act.answers, answer_acc]; cases c <;> cases st <;> rfl
  | finish i c st reply via =>
    cases via with
    | none => simp only [Act.answers, answer_acc]; cases c <;> cases st <;> rfl
    | some id => cases c <;> cases st <;> rfl
  | _ => rfl

theorem answersR_acc (h : Report.Hist D) : (answersR h).flatMap accOf = Report.acceptedOps h := by
  induction h with
  | nil => rfl
  | cons ev h ih =>
    rw [answersR_cons, List.flatMap_append, ih]
    unfold Report.acceptedOps
    conv => rhs; unfold Report.accepted
    rw [List.map_append]
    congr 1
    cases ev.call with
    | report r =>
      simp only [ansR, answer_acc]
      by_cases hst : ev.status = .ok
      · rw [if_pos hst, hst, List.map_map]; exact (List.map_id _).symm
      · rw [if_neg hst]
        cases hs : ev.status <;> first | rfl | exact absurd hs hst
    | flush => rfl
    | flushAll => rfl

/-- The operations accepted by the report aggregator are those of reports answered OK at once, or about to be. -/
theorem Links.acc {A : List (Act D)} {s : Sys D} (l : Links K hc hq hr A s) :
    (acceptedOps s.c.trace ++ A.flatMap Act.accepts).Perm (Report.acceptedOps hr) := by
  have h := l.ans.flatMap_right accOf
  have h1 : (answersC hc).flatMap accOf = [] := by
    unfold answersC
    rw [List.flatMap_assoc, List.flatMap_eq_nil_iff]
    intro ev _
    cases ev.call with
    | check r => simp only [ansC, answer_acc]
    | _ => rfl
  have h2 : (answersQ hq).flatMap accOf = [] := by
    unfold answersQ
    rw [List.flatMap_assoc, List.flatMap_eq_nil_iff]
    intro ev _
    cases ev.call with
    | quota r => simp only [ansQ, answer_acc]
    | _ => rfl
  simp only [List.flatMap_append, answers_acc, h1, h2, List.nil_append, answersR_acc, List.flatMap_assoc] at h
  simpa only [Act.answers_acc] using h

/-- A step that calls no aggregator. -/
theorem Links.next {a : Act D} {new R : List (Act D)} {s s' : Sys D} (l : Links K hc hq hr (a :: R) s)
    (h1 : s'.c.check = s.c.check) (h2 : s'.c.quota = s.c.quota) (h3 : s'.c.report = s.c.report)
    {evs : List (Ev D)} (ht : s'.c.trace = s.c.trace ++ evs) {dr : List (Call D)} (hdr : s'.dropped = s.dropped ++ dr)
    (hway : (flushedCalls evs ++ new.flatMap Act.way ++ dr).Perm a.way) (hacc : (answers evs ++ new.flatMap Act.answers).Perm a.answers)
    (hb : ∀ b ∈ new, b.Backed K s'.c.trace) (hev : evs = [] ∨ ∃ e, evs = [e] ∧ EvOk K e s.c.trace)
    (hal : s'.c.alive = s.c.alive ∧ Ev.destroyed ∉ evs ∨ s'.c.alive = false ∧ Ev.destroyed ∈ evs)
    (htm : s'.c.timer = s.c.timer ∨ s'.c.timer = none) (hn : ∀ n, .destroy n ∈ new → 4 ≤ n → s'.c.timer = none)
    (hde : s'.c.alive = false → s.c.alive = false ∨ s'.c.timer = none)
    (hcp : new.flatMap Act.comps = a.comps ++ compsOf evs := by rfl) :
    Links K hc hq hr (new ++ R) s' := by
  have hm : ∀ e ∈ s.c.trace, e ∈ s'.c.trace := fun e he => by rw [ht]; exact List.mem_append_left _ he
  refine ⟨by rw [h1]; exact l.c, by rw [h2]; exact l.q, by rw [h3]; exact l.r, ?_, ?_, ?_, ?_, ?_, ?_, ?_, ?_, ?_, ?_, ?_⟩
  · refine List.Perm.trans ?_ l.items
    rw [ht, hdr, flushedCalls_append, List.flatMap_append, List.flatMap_cons]
    have e1 : (flushedCalls s.c.trace ++ flushedCalls evs ++ (new.flatMap Act.way ++ R.flatMap Act.way) ++ (s.dropped ++ dr)).Perm
        (flushedCalls s.c.trace ++ ((flushedCalls evs ++ new.flatMap Act.way ++ dr) ++ R.flatMap Act.way) ++ s.dropped) := by
      simp only [List.append_assoc]
      refine List.Perm.append_left _ (List.Perm.append_left _ (List.Perm.append_left _ ?_))
      rw [← List.append_assoc]
      refine List.perm_append_comm.trans ?_
      simp
    exact e1.trans ((List.Perm.append_left _ (hway.append_right _)).append_right _)
  · refine List.Perm.trans ?_ l.ans
    rw [ht, answers_append, List.flatMap_append, List.flatMap_cons, List.append_assoc, ← List.append_assoc (answers evs)]
    exact List.Perm.append_left _ (hacc.append_right _)
  · intro ev he r p hp
    obtain ⟨id, i, a, g1, g2⟩ := l.cachedC ev he r p hp
    exact ⟨id, i, a, hm _ g1, g2⟩
  · intro ev he r p hp
    obtain ⟨id, i, a, g1, g2⟩ := l.cachedQ ev he r p hp
    exact ⟨id, i, a, hm _ g1, g2⟩
  · intro b hbm
    rcases List.mem_append.mp hbm with hbm | hbm
    · exact hb b hbm
    · exact (l.backed b (List.mem_cons_of_mem _ hbm)).mono hm
  · rcases hev with rfl | ⟨e, rfl, he⟩
    · rw [ht, List.append_nil]; exact l.ok
    · intro pre e' post hp
      rw [ht] at hp
      rcases List.eq_nil_or_concat post with rfl | ⟨post', x, rfl⟩
      · have := List.append_inj' hp rfl
        obtain ⟨rfl, h⟩ := this
        cases h
        exact he
      · rw [List.concat_eq_append, ← List.cons_append, ← List.append_assoc] at hp
        have := List.append_inj' hp rfl
        exact l.ok pre e' post' this.1
  · rw [ht, List.mem_append]
    rcases hal with ⟨h4, h5⟩ | ⟨h4, h5⟩
    · rw [h4, l.gone]; simp [h5]
    · rw [h4]; simp [h5]
  · intro ha
    rcases hde ha with h | h
    · rcases htm with h' | h'
      · rw [h']; exact l.dead h
      · exact h'
    · exact h
  · intro n hn' h4
    rcases List.mem_append.mp hn' with h | h
    · exact hn n h h4
    · rcases htm with h' | h'
      · rw [h']; exact l.stopped n (List.mem_cons_of_mem _ h) h4
      · exact h'
  · have := l.comps
    rw [List.flatMap_cons] at this
    rw [ht, compsOf_append, List.flatMap_append, hcp]
    refine List.Perm.trans ?_ (this.append_right _)
    simp only [List.append_assoc]
    refine List.Perm.append_left _ (List.Perm.append_left _ ?_)
    exact List.perm_append_comm
  · intro r hr
    obtain ⟨i, h⟩ := l.asks r hr
    exact ⟨i, hm _ h⟩

theorem flushes_way {R : Type} (f : R → Call D) (rs : List R) : (rs.map (fun r => Act.flush (f r))).flatMap Act.way = rs.map f := by
  induction rs with
  | nil => rfl
  | cons r rs ih => simp only [List.map_cons, List.flatMap_cons, Act.way, ih]; rfl

theorem flushes_answers {R : Type} (f : R → Call D) (rs : List R) : (rs.map (fun r => Act.flush (f r))).flatMap Act.answers = [] := by
  induction rs with
  | nil => rfl
  | cons r rs ih => simp only [List.map_cons, List.flatMap_cons, Act.answers, ih]; rfl

theorem flushes_comps {R : Type} (f : R → Call D) (rs : List R) : (rs.map (fun r => Act.flush (f r))).flatMap Act.comps = [] := by
  induction rs with
  | nil => rfl
  | cons r rs ih => simp only [List.map_cons, List.flatMap_cons, Act.comps, ih]; rfl

theorem perm4 {α : Type} (a b c d : List α) : (a ++ (b ++ c) ++ d).Perm (a ++ c ++ d ++ b) := by
  simp only [List.append_assoc]
  refine List.Perm.append_left _ ?_
  refine List.perm_append_comm.trans ?_
  rw [List.append_assoc]

/-- A call of the check aggregator. -/
theorem Links.aggC {a : Act D} {new R : List (Act D)} {s s' : Sys D} {x : Check.Call D} {out : Check.Out} {fl : List (Act D)}
    (l : Links K hc hq hr (a :: R) s) (h : aggC K x s = .ok (s', out, fl)) (ha : a.way = []) (ha2 : a.answers = [])
    (hw : new.flatMap Act.way = []) (hacc : new.flatMap Act.answers = ansC x out) (hnd : ∀ n, .destroy n ∈ new → 4 ≤ n → s.c.timer = none)
    (hx : ∀ r p, x = .cacheResponse r p → ∃ id i a, Ev.completed id (some i) (.check r) a ∈ s.c.trace ∧ a.status = .ok ∧ a.check = p)
    (hb : ∀ b ∈ new, b.Backed K s.c.trace) (hcp : new.flatMap Act.comps = a.comps) :
    ∃ ev, Links K (ev :: hc) hq hr ((fl ++ new) ++ R) s' := by
  obtain ⟨c', rs, rfl, rfl, hs⟩ := aggC_ok h
  obtain ⟨ev, h1, h2, h3, h4, h5, h6⟩ := l.c.step hs
  refine ⟨ev, h1, l.q, l.r, ?_, ?_, ?_, l.cachedQ, ?_, l.ok, l.gone, l.dead, ?_, by rw [List.flatMap_append, List.flatMap_append, flushes_comps, hcp]; exact l.comps, l.asks⟩
  · simp only [List.flatMap_append, flushes_way, hw, List.append_nil]
    have := l.items
    rw [List.flatMap_cons, ha, List.nil_append] at this
    refine (perm4 _ _ _ _).trans ((this.append_right _).trans ?_)
    unfold asked
    rw [reqsC_cons, h4 rfl, List.map_append]
    simp only [List.append_assoc]
    refine List.Perm.append_left _ ?_
    rw [← List.append_assoc]
    refine List.perm_append_comm.trans ?_
    simp
  · simp only [List.flatMap_append, flushes_answers, hacc, List.nil_append]
    have := l.ans
    rw [List.flatMap_cons, ha2, List.nil_append] at this
    rw [answersC_cons, h2, h3]
    refine List.Perm.trans ?_ ((this.append_left (ansC x out)).trans ?_)
    · exact List.perm_append_comm_assoc _ _ _
    · simp only [List.append_assoc]
      exact List.perm_append_comm_assoc _ _ _
  · intro ev' he r p hp
    rcases List.mem_cons.mp he with rfl | he
    · rw [h2] at hp; exact hx r p hp
    · exact l.cachedC ev' he r p hp
  · intro b hbm
    rcases List.mem_append.mp hbm with hbm | hbm
    · rcases List.mem_append.mp hbm with hbm | hbm
      · obtain ⟨_, _, rfl⟩ := List.mem_map.mp hbm; trivial
      · exact hb b hbm
    · exact l.backed b (List.mem_cons_of_mem _ hbm)
  · intro n hn h4
    rcases List.mem_append.mp hn with hn | hn
    · rcases List.mem_append.mp hn with hn | hn
      · obtain ⟨_, _, h⟩ := List.mem_map.mp hn; cases h
      · exact hnd n hn h4
    · exact l.stopped n (List.mem_cons_of_mem _ hn) h4

/-- A call of the quota aggregator. -/
theorem Links.aggQ {a : Act D} {new R : List (Act D)} {s s' : Sys D} {x : Quota.Call D} {out : Quota.Out} {fl : List (Act D)}
    (l : Links K hc hq hr (a :: R) s) (h : aggQ K x s = .ok (s', out, fl)) (ha : a.way = []) (ha2 : a.answers = [])
    (hw : new.flatMap Act.way = []) (hacc : new.flatMap Act.answers = ansQ x out) (hnd : ∀ n, .destroy n ∈ new → 4 ≤ n → s.c.timer = none)
    (hx : ∀ r p, x = .cacheResponse r p → ∃ id b a, Ev.completed id b (.quota r) a ∈ s.c.trace ∧ granted a = p)
    (hb : ∀ b ∈ new, b.Backed K s.c.trace) (hcp : a.comps = storeQ x ++ new.flatMap Act.comps)
    (hask : ∀ r, x = .quota r → ∃ i, Ev.called i (.quota r) true ∈ s.c.trace) :
    ∃ ev, Links K hc (ev :: hq) hr ((fl ++ new) ++ R) s' ∧ ev.call = x ∧ ev.first = s.c.quota.base.tick := by
  obtain ⟨c', rs, rfl, rfl, hs⟩ := aggQ_ok h
  obtain ⟨ev, h1, h2, h3, h4, h5, h6, h7⟩ := l.q.step hs
  refine ⟨ev, ⟨l.c, h1, l.r, ?_, ?_, l.cachedC, ?_, ?_, l.ok, l.gone, l.dead, ?_, ?_, ?_⟩, h2, h7⟩
  · simp only [List.flatMap_append, flushes_way, hw, List.append_nil]
    have := l.items
    rw [List.flatMap_cons, ha, List.nil_append] at this
    refine (perm4 _ _ _ _).trans ((this.append_right _).trans ?_)
    unfold asked
    rw [reqsQ_cons, h4 rfl, List.map_append]
    simp only [List.append_assoc]
    refine List.Perm.append_left _ (List.Perm.append_left _ ?_)
    exact List.perm_append_comm
  · simp only [List.flatMap_append, flushes_answers, hacc, List.nil_append]
    have := l.ans
    rw [List.flatMap_cons, ha2, List.nil_append] at this
    rw [answersQ_cons, h2, h3]
    refine List.Perm.trans ?_ ((this.append_left (ansQ x out)).trans ?_)
    · exact List.perm_append_comm_assoc _ _ _
    · simp only [List.append_assoc]
      refine (List.perm_append_comm_assoc _ _ _).trans (List.Perm.append_left _ ?_)
      exact List.perm_append_comm_assoc _ _ _
  · intro ev' he r p hp
    rcases List.mem_cons.mp he with rfl | he
    · rw [h2] at hp; exact hx r p hp
    · exact l.cachedQ ev' he r p hp
  · intro b hbm
    rcases List.mem_append.mp hbm with hbm | hbm
    · rcases List.mem_append.mp hbm with hbm | hbm
      · obtain ⟨_, _, rfl⟩ := List.mem_map.mp hbm; trivial
      · exact hb b hbm
    · exact l.backed b (List.mem_cons_of_mem _ hbm)
  · intro n hn h4
    rcases List.mem_append.mp hn with hn | hn
    · rcases List.mem_append.mp hn with hn | hn
      · obtain ⟨_, _, h⟩ := List.mem_map.mp hn; cases h
      · exact hnd n hn h4
    · exact l.stopped n (List.mem_cons_of_mem _ hn) h4
  · rw [List.flatMap_append, List.flatMap_append, flushes_comps, List.nil_append]
    have := l.comps
    rw [List.flatMap_cons, hcp] at this
    refine List.Perm.trans ?_ this
    unfold storesQ
    rw [List.flatMap_cons, h2]
    simp only [List.append_assoc]
    exact List.perm_append_comm_assoc _ _ _
  · intro r hr
    unfold Quota.requests at hr
    rw [List.filterMap_cons, h2] at hr
    cases x with
    | quota q =>
      rcases List.mem_cons.mp hr with rfl | hr
      · exact hask _ rfl
      · exact l.asks r hr
    | _ => exact l.asks r hr

/-- A call of the report aggregator. -/
theorem Links.aggR {a : Act D} {new R : List (Act D)} {s s' : Sys D} {x : Report.Call D} {out : Status} {fl : List (Act D)}
    (l : Links K hc hq hr (a :: R) s) (h : aggR K x s = .ok (s', out, fl)) (ha : a.way = []) (ha2 : a.answers = [])
    (hw : new.flatMap Act.way = []) (hacc : new.flatMap Act.answers = ansR x out) (hnd : ∀ n, .destroy n ∈ new → 4 ≤ n → s.c.timer = none)
    (hb : ∀ b ∈ new, b.Backed K s.c.trace) (hcp : new.flatMap Act.comps = a.comps) :
    ∃ ev, Links K hc hq (ev :: hr) ((fl ++ new) ++ R) s' ∧ ev.call = x ∧ ev.first = s.c.report.tick := by
  obtain ⟨c', rs, rfl, rfl, hs⟩ := aggR_ok h
  obtain ⟨ev, h1, h2, h3, h4, h5, h6, h7⟩ := l.r.step_at hs
  refine ⟨ev, ⟨l.c, l.q, h1, ?_, ?_, l.cachedC, l.cachedQ, ?_, l.ok, l.gone, l.dead, ?_, by rw [List.flatMap_append, List.flatMap_append, flushes_comps, hcp]; exact l.comps, l.asks⟩, h2, h7⟩
  · simp only [List.flatMap_append, flushes_way, hw, List.append_nil]
    have := l.items
    rw [List.flatMap_cons, ha, List.nil_append] at this
    refine (perm4 _ _ _ _).trans ((this.append_right _).trans ?_)
    unfold asked
    rw [reqsR_cons, h4 rfl, List.map_append]
    simp
  · simp only [List.flatMap_append, flushes_answers, hacc, List.nil_append]
    have := l.ans
    rw [List.flatMap_cons, ha2, List.nil_append] at this
    rw [answersR_cons, h2, h3]
    refine List.Perm.trans ?_ ((this.append_left (ansR x out)).trans ?_)
    · exact List.perm_append_comm_assoc _ _ _
    · refine List.perm_append_comm.trans ?_
      rw [List.append_assoc]
  · intro b hbm
    rcases List.mem_append.mp hbm with hbm | hbm
    · rcases List.mem_append.mp hbm with hbm | hbm
      · obtain ⟨_, _, rfl⟩ := List.mem_map.mp hbm; trivial
      · exact hb b hbm
    · exact l.backed b (List.mem_cons_of_mem _ hbm)
  · intro n hn h4
    rcases List.mem_append.mp hn with hn | hn
    · rcases List.mem_append.mp hn with hn | hn
      · obtain ⟨_, _, h⟩ := List.mem_map.mp hn; cases h
      · exact hnd n hn h4
    · exact l.stopped n (List.mem_cons_of_mem _ hn) h4

/-! ### Where answers come from -/

theorem lastCached_mem {H : Bytes → Bytes} {k : Bytes} {p : CheckResponse} : ∀ {h : Check.Hist D}, Check.lastCached H k h = some p →
    ∃ ev ∈ h, ∃ r, ev.call = .cacheResponse r p ∧ checkRequestSig H r = k
  | [], h => by cases h
  | ev :: h, hp => by
    unfold Check.lastCached at hp
    split at hp
    · rename_i r resp hc
      split at hp
      · rename_i hk
        cases hp
        exact ⟨ev, List.mem_cons_self, r, hc, hk⟩
      · obtain ⟨ev', h1, h2⟩ := lastCached_mem hp
        exact ⟨ev', List.mem_cons_of_mem _ h1, h2⟩
    · cases hp
    · obtain ⟨ev', h1, h2⟩ := lastCached_mem hp
      exact ⟨ev', List.mem_cons_of_mem _ h1, h2⟩

theorem served_mem {H : Bytes → Bytes} {k : Bytes} {p : AllocateQuotaResponse} : ∀ {h : Quota.Hist D}, Quota.served H k h = some p →
    p = .default ∨ ∃ ev ∈ h, ∃ r, ev.call = .cacheResponse r p ∧ allocateQuotaSig H r = k
  | [], h => by cases h
  | ev :: h, hp => by
    rcases served_cases hp with h1 | ⟨h1, _⟩ | ⟨r, h1, h2⟩
    · exact .inl h1
    · rcases served_mem h1 with h2 | ⟨ev', h2, h3⟩
      · exact .inl h2
      · exact .inr ⟨ev', List.mem_cons_of_mem _ h2, h3⟩
    · exact .inr ⟨ev, List.mem_cons_self, r, h1, h2⟩

theorem Links.check_backed {A : List (Act D)} {s : Sys D} (l : Links K hc hq hr A s) {r : CheckRequest D} {c : AggState (Check.Elem D)}
    {out : Check.Out} {rs : List (CheckRequest D)} (hs : Check.step K.envC K.cfgC (.check r) s.c.check = .ok (c, out, rs)) (hok : out.status = .ok) :
    Backed K (.check r) (match out.response with | none => .none | some p => .check p) s.c.trace := by
  obtain ⟨ev, _, _, _, _, _, h6⟩ := l.c.step hs
  obtain ⟨p, g1, g2⟩ := Check.C31_served_latest l.c.reach r h6 hok
  obtain ⟨ev', g3, r', g4, g5⟩ := lastCached_mem g2
  obtain ⟨id, i, a, g6, g7, g8⟩ := l.cachedC ev' g3 r' p g4
  exact ⟨p, id, i, r', a, by rw [g1], g6, g7, g8, g5⟩

theorem Links.quota_backed {A : List (Act D)} {s : Sys D} (l : Links K hc hq hr A s) {r : AllocateQuotaRequest D} {c : Quota.State D}
    {out : Quota.Out} {rs : List (AllocateQuotaRequest D)} (hs : Quota.step K.envQ K.cfgQ (K.depth + 1) (.quota r) s.c.quota = .ok (c, out, rs))
    (hok : out.status = .ok) :
    Backed K (.quota r) (match out.response with | none => .none | some p => .quota p) s.c.trace := by
  intro hsane
  obtain ⟨ev, _, _, _, _, _, hs, _⟩ := l.q.step hs
  by_cases hv : Quota.Valid K.cfgQ r
  · by_cases hpos : 0 < K.cfgQ.numEntries
    · obtain ⟨_, h2, h3, _⟩ := Quota.C44_quota_serves hsane.1 hsane.2 hpos l.q.reach r hv hs
      cases hr : out.response with
      | none => exact absurd hr h2
      | some p =>
        refine ⟨p, rfl, ?_⟩
        rw [hr] at h3
        rcases served_cases h3.symm with h | ⟨h, _⟩ | ⟨r', h, _⟩
        · exact .inl h
        · rcases served_mem h with h | ⟨ev', g1, r', g2, g3⟩
          · exact .inl h
          · obtain ⟨id, b, a, g4, g5⟩ := l.cachedQ ev' g1 r' p g2
            exact .inr ⟨id, b, r', a, g4, g5, g3⟩
        · cases h
    · have hn := l.q.reach.none (by omega)
      exfalso
      unfold Quota.step Quota.quota at hs
      simp only at hs
      rw [if_neg (by simpa using hv.1), if_neg hv.2] at hs
      unfold withBuffer at hs
      rw [hn] at hs
      simp only [bind, Except.bind, Except.ok.injEq, Prod.mk.injEq] at hs
      obtain ⟨_, rfl, _⟩ := hs
      cases hok
  · rw [Quota.C44_invalid_rejected _ hv] at hs
    simp only [Except.ok.injEq, Prod.mk.injEq] at hs
    rw [← hs.2.1] at hok
    cases hok

theorem Links.check_result {A : List (Act D)} {s : Sys D} (l : Links K hc hq hr A s) {r : CheckRequest D} {c : AggState (Check.Elem D)}
    {out : Check.Out} {rs : List (CheckRequest D)} (hs : Check.step K.envC K.cfgC (.check r) s.c.check = .ok (c, out, rs)) :
    Result K (.check r) out.status := by
  obtain ⟨ev, _, _, _, _, _, h6⟩ := l.c.step hs
  obtain ⟨g1, g2, g3⟩ := Check.C32_bypass l.c.reach r h6
  by_cases hr : Refused K (.check r)
  · exact .inr (.inl ⟨g1.mpr hr, hr⟩)
  have hr' : ¬ (r.serviceName ≠ K.cfgC.serviceName ∨ r.operation = none) := hr
  rcases Check.check_status h6 with h | h | h
  · refine .inl ⟨h, hr, ?_⟩
    obtain ⟨p, g4, _⟩ := Check.C31_served_latest l.c.reach r h6 h
    by_cases hh : ¬ Check.Cacheable K.cfgC r ∨ K.cfgC.numEntries ≤ 0
    · rw [(g3 hh).2.2] at g4; cases g4
    · simp only [not_or, not_not, Int.not_le] at hh
      refine ⟨hh.2, fun o ho => ?_⟩
      obtain ⟨_, o', ho', hi⟩ := hh.1
      rw [ho] at ho'; cases ho'; exact hi
  · exact .inr (.inr ⟨h, hr, fun _ => ⟨r, rfl⟩⟩)
  · exact absurd (g1.mp h) hr'

theorem Links.quota_result {A : List (Act D)} {s : Sys D} (l : Links K hc hq hr A s) {r : AllocateQuotaRequest D} {c : Quota.State D}
    {out : Quota.Out} {rs : List (AllocateQuotaRequest D)} (hs : Quota.step K.envQ K.cfgQ (K.depth + 1) (.quota r) s.c.quota = .ok (c, out, rs)) :
    Result K (.quota r) out.status := by
  by_cases hr : Refused K (.quota r)
  · rw [Quota.C44_invalid_rejected r (by rintro ⟨h1, h2⟩; exact hr.elim (fun h => h h1) h2)] at hs
    cases hs
    exact .inr (.inl ⟨rfl, hr⟩)
  have hr' : ¬ (r.serviceName ≠ K.cfgQ.serviceName ∨ r.allocateOperation = none) := hr
  simp only [ne_eq, not_or, not_not] at hr'
  obtain ⟨ev, _, _, _, _, _, h6, _⟩ := l.q.step hs
  rcases Quota.quota_status h6 hr'.1 hr'.2 with ⟨h, hn⟩ | ⟨h, hn⟩
  · refine .inl ⟨h, hr, ?_⟩
    show 0 < K.cfgQ.numEntries
    by_cases hp : 0 < K.cfgQ.numEntries
    · exact hp
    · rw [l.q.reach.none (by omega)] at hn; cases hn
  · refine .inr (.inr ⟨h, hr, fun hp => ?_⟩)
    have := l.q.reach.some (show 0 < K.cfgQ.numEntries from hp)
    rw [hn] at this; cases this

theorem Links.report_result {A : List (Act D)} {s : Sys D} (l : Links K hc hq hr A s) {r : ReportRequest D} {c : AggState (OpAgg D)}
    {out : Status} {rs : List (ReportRequest D)} (hs : Report.step K.envR K.cfgR (.report r) s.c.report = .ok (c, out, rs)) :
    Result K (.report r) out := by
  obtain ⟨ev, _, _, _, _, _, h6⟩ := l.r.step hs
  obtain ⟨g1, g2, g3, _⟩ := Report.C40_pass_through l.r.reach r h6
  by_cases hr : r.serviceName = K.cfgR.serviceName
  · by_cases hh : (∀ o ∈ r.operations, o.importance = importanceLow) ∧ 0 < K.cfgR.numEntries
    · exact .inl ⟨g3.mpr ⟨hr, hh⟩, fun h => h hr, hh.2, hh.1⟩
    · refine .inr (.inr ⟨g2.mpr ⟨hr, ?_⟩, fun h => h hr, fun h => absurd ⟨h.2, h.1⟩ hh⟩)
      rw [not_and_or] at hh
      rcases hh with hh | hh
      · left; simpa using hh
      · right; omega
  · exact .inr (.inl ⟨g1.mpr hr, hr⟩)

/-! ### One piece of code -/

theorem Links.fin {p : Pend D} {a : Answer} {s s' : Sys D} {new R : List (Act D)} (i : Inv (.fin p a :: R) s)
    (l : Links K hc hq hr (.fin p a :: R) s) (h : runFin K p a s = .ok (s', new)) :
    ∃ hc' hq' hr', Grow hc hq hr hc' hq' hr' ∧ Links K hc' hq' hr' (new ++ R) s' := by
  have hcomp : Ev.completed p.id p.by_ p.req a ∈ s.c.trace := i.acts _ List.mem_cons_self
  have plain : ∀ new : List (Act D), new.flatMap Act.way = [] → new.flatMap Act.answers = [] → (∀ b ∈ new, b.Backed K s.c.trace) →
      (∀ n, .destroy n ∈ new → 4 ≤ n → s.c.timer = none) → new.flatMap Act.comps = (Act.fin p a).comps → Links K hc hq hr (new ++ R) s := by
    intro new h1 h2 h3 h4 h5
    refine l.next rfl rfl rfl (evs := []) (by simp) (dr := []) (by simp) ?_ ?_ h3 (.inl rfl) (.inl ⟨rfl, by simp⟩) (.inl rfl) h4 (fun h => .inl h) (by rw [h5]; simp [compsOf])
    · rw [h1]; exact List.Perm.refl _
    · rw [h2]; exact List.Perm.refl _
  unfold runFin at h
  split at h
  · rename_i r j hreq hby
    split at h
    · rename_i hst
      simp only [bind, Except.bind] at h
      split at h
      · cases h
      · cases hg : Threads.aggC K (.cacheResponse r a.check) s with
        | error e => rw [hg] at h; cases h
        | ok v =>
          obtain ⟨s1, out, fl⟩ := v
          rw [hg] at h
          cases h
          have H := l.aggC hg (new := [.free p.own false, .finish j (.check r) a.status (.check a.check) (some p.id)])
            rfl rfl rfl rfl (by simp) ?_ ?_ (by simp [Act.comps, hreq])
          · obtain ⟨ev, h1⟩ := H; exact ⟨_, _, _, .consC, h1⟩
          · intro r' p' hx
            cases hx
            rw [hreq, hby] at hcomp
            exact ⟨_, _, _, hcomp, hst, rfl⟩
          · intro b hb
            simp only [List.mem_cons, List.not_mem_nil, or_false] at hb
            rcases hb with rfl | rfl <;> trivial
    · cases h
      refine ⟨_, _, _, .same, plain _ rfl rfl ?_ (by simp) (by simp [Act.comps, hreq])⟩
      intro b hb
      simp only [List.mem_cons, List.not_mem_nil, or_false] at hb
      rcases hb with rfl | rfl <;> trivial
  · rename_i r j hreq hby
    simp only [bind, Except.bind] at h
    split at h
    · cases h
    · cases hg : Threads.aggQ K (.cacheResponse r (if a.status = .ok then a.quota else .default)) s with
      | error e => rw [hg] at h; cases h
      | ok v =>
        obtain ⟨s1, out, fl⟩ := v
        rw [hg] at h
        cases h
        have H := l.aggQ hg (new := [.free p.own false, .finish j (.quota r) a.status (.quota a.quota) (some p.id)])
          rfl rfl rfl rfl (by simp) ?_ ?_ (by simp [Act.comps, hreq, storeQ, granted]) (by simp)
        · obtain ⟨ev, h1, _⟩ := H; exact ⟨_, _, _, .consQ, h1⟩
        · intro r' p' hx
          cases hx
          rw [hreq, hby] at hcomp
          exact ⟨_, _, _, hcomp, rfl⟩
        · intro b hb
          simp only [List.mem_cons, List.not_mem_nil, or_false] at hb
          rcases hb with rfl | rfl <;> trivial
  · rename_i hreq _
    cases h
    refine ⟨_, _, _, .same, plain _ rfl (by simp [Act.answers]) ?_ (by simp) (by simp [Act.comps, hreq])⟩
    intro b hb
    simp only [List.mem_cons, List.not_mem_nil, or_false] at hb
    rcases hb with rfl | rfl <;> trivial
  · rename_i r hreq hby
    split at h
    · cases h
    · simp only [bind, Except.bind] at h
      split at h
      · cases h
      · cases hg : Threads.aggQ K (.cacheResponse r (if a.status = .ok then a.quota else .default)) s with
        | error e => rw [hg] at h; cases h
        | ok v =>
          obtain ⟨s1, out, fl⟩ := v
          rw [hg] at h
          cases h
          have H := l.aggQ hg (new := [.free p.own true]) rfl rfl rfl rfl (by simp) ?_ ?_ (by simp [Act.comps, hreq, storeQ, granted]) (by simp)
          · obtain ⟨ev, h1, _⟩ := H; exact ⟨_, _, _, .consQ, h1⟩
          · intro r' p' hx
            cases hx
            rw [hreq, hby] at hcomp
            exact ⟨_, _, _, hcomp, rfl⟩
          · intro b hb
            rw [List.mem_singleton] at hb
            subst hb; trivial
  · rename_i hnq
    cases h
    refine ⟨_, _, _, .same, plain _ rfl rfl ?_ (by simp) (by
      cases hreq : p.req with
      | quota r => exact absurd hreq (hnq r)
      | _ => simp [Act.comps, hreq])⟩
    intro b hb
    rw [List.mem_singleton] at hb
    subst hb; trivial

theorem Links.call {j : Nat} {c : Call D} {s s' : Sys D} {new R : List (Act D)} 
    (l : Links K hc hq hr (.agg j c :: R) s) (h : runCall K j c s = .ok (s', new)) :
    ∃ hc' hq' hr', Grow hc hq hr hc' hq' hr' ∧ Links K hc' hq' hr' (new ++ R) s' := by
  cases c with
  | check r =>
    simp only [runCall, bind, Except.bind] at h
    cases hg : Threads.aggC K (.check r) s with
    | error e => rw [hg] at h; cases h
    | ok v =>
      obtain ⟨s1, out, fl⟩ := v
      rw [hg] at h
      cases h
      obtain ⟨_, _, _, _, hs⟩ := aggC_ok hg
      have H := l.aggC hg (new := [.result j (.check r) out.status (match out.response with | none => .none | some p => .check p)])
        rfl rfl rfl (List.append_nil _) (by simp) (by simp) ?_ rfl
      · obtain ⟨ev, h1⟩ := H; exact ⟨_, _, _, .consC, h1⟩
      · intro b hb
        rw [List.mem_singleton] at hb; subst hb
        exact ⟨fun hst => l.check_backed hs hst, l.check_result hs, l.backed _ List.mem_cons_self⟩
  | quota r =>
    simp only [runCall, bind, Except.bind] at h
    cases hg : Threads.aggQ K (.quota r) s with
    | error e => rw [hg] at h; cases h
    | ok v =>
      obtain ⟨s1, out, fl⟩ := v
      rw [hg] at h
      cases h
      obtain ⟨_, _, _, _, hs⟩ := aggQ_ok hg
      have H := l.aggQ hg (new := [.result j (.quota r) out.status (match out.response with | none => .none | some p => .quota p)])
        rfl rfl rfl (List.append_nil _) (by simp) (by simp) ?_ rfl (by rintro r' hr'; cases hr'; exact ⟨j, l.backed _ List.mem_cons_self⟩)
      · obtain ⟨ev, h1, _⟩ := H; exact ⟨_, _, _, .consQ, h1⟩
      · intro b hb
        rw [List.mem_singleton] at hb; subst hb
        exact ⟨fun hst => l.quota_backed hs hst, l.quota_result hs, l.backed _ List.mem_cons_self⟩
  | report r =>
    simp only [runCall, bind, Except.bind] at h
    cases hg : Threads.aggR K (.report r) s with
    | error e => rw [hg] at h; cases h
    | ok v =>
      obtain ⟨s1, out, fl⟩ := v
      rw [hg] at h
      cases h
      have H := l.aggR hg (new := [.result j (.report r) out .none]) rfl rfl rfl (List.append_nil _) (by simp) ?_ rfl
      · obtain ⟨ev, h1, _⟩ := H; exact ⟨_, _, _, .consR, h1⟩
      · intro b hb
        rw [List.mem_singleton] at hb; subst hb
        obtain ⟨_, _, _, _, hs⟩ := aggR_ok hg
        exact ⟨fun hst => trivial, l.report_result hs, l.backed _ List.mem_cons_self⟩

/-- A flush of an aggregator by the timer or by the destructor. -/
theorem Links.tick {a b : Act D} {s : Sys D} {R : List (Act D)} (l : Links K hc hq hr (a :: R) s) (ha : a.way = []) (ha2 : a.answers = [])
    (hw : b.way = []) (hacc : b.answers = []) (hnd : ∀ n, b = .destroy n → 4 ≤ n → s.c.timer = none) (hb : b.Backed K s.c.trace) (hcp : b.comps = a.comps) (hcq : a.comps = []) :
    (∀ {x s' out fl}, Threads.aggC K x s = .ok (s', out, fl) → (x = .flush ∨ x = .flushAll) → ∃ hc', Grow hc hq hr hc' hq hr ∧ Links K hc' hq hr ((fl ++ [b]) ++ R) s') ∧
    (∀ {x s' out fl}, Threads.aggQ K x s = .ok (s', out, fl) → (x = .flush ∨ x = .flushAll) → ∃ ev, Links K hc (ev :: hq) hr ((fl ++ [b]) ++ R) s' ∧ ev.call = x ∧ ev.first = s.c.quota.base.tick) ∧
    (∀ {x s' out fl}, Threads.aggR K x s = .ok (s', out, fl) → (x = .flush ∨ x = .flushAll) → ∃ ev, Links K hc hq (ev :: hr) ((fl ++ [b]) ++ R) s' ∧ ev.call = x ∧ ev.first = s.c.report.tick) := by
  have hn : ∀ n, .destroy n ∈ [b] → 4 ≤ n → s.c.timer = none := by
    intro n hm; rw [List.mem_singleton] at hm; exact hnd n hm.symm
  have hbb : ∀ x ∈ [b], x.Backed K s.c.trace := by
    intro x hx; rw [List.mem_singleton] at hx; subst hx; exact hb
  refine ⟨?_, ?_, ?_⟩
  · intro x s' out fl h hx
    obtain ⟨ev, h1⟩ := l.aggC h (new := [b]) ha ha2 (by simp [hw]) (by rcases hx with rfl | rfl <;> simp [hacc, ansC])
      hn (fun r p he => by rcases hx with rfl | rfl <;> cases he) hbb (by simp [hcp])
    exact ⟨_, .consC, h1⟩
  · intro x s' out fl h hx
    exact l.aggQ h (new := [b]) ha ha2 (by simp [hw]) (by rcases hx with rfl | rfl <;> simp [hacc, ansQ])
      hn (fun r p he => by rcases hx with rfl | rfl <;> cases he) hbb (by rcases hx with rfl | rfl <;> simp [hcp, hcq, storeQ])
      (by rcases hx with rfl | rfl <;> simp)
  · intro x s' out fl h hx
    exact l.aggR h (new := [b]) ha ha2 (by simp [hw]) (by rcases hx with rfl | rfl <;> simp [hacc, ansR]) hn hbb (by simp [hcp])

theorem Links.tmr {n : Nat} {s s' : Sys D} {new R : List (Act D)} 
    (l : Links K hc hq hr (.timer n :: R) s) (h : runTimer K n s = .ok (s', new)) :
    ∃ hc' hq' hr', (Grow hc hq hr hc' hq' hr' ∧ (n = 2 → ∃ ev ∈ hr', ev.call = .flush ∧ ev.first = s.c.report.tick) ∧
      (n = 1 → ∃ ev, hq' = ev :: hq ∧ ev.call = .flush ∧ ev.first = s.c.quota.base.tick)) ∧ Links K hc' hq' hr' (new ++ R) s' := by
  unfold runTimer at h
  split at h
  · simp only [bind, Except.bind] at h
    cases hg : Threads.aggC K .flush s with
    | error e => rw [hg] at h; cases h
    | ok v =>
      rw [hg] at h
      cases h
      obtain ⟨_, h1, h2⟩ := (l.tick (b := .timer 1) rfl rfl rfl rfl (by simp) trivial rfl rfl).1 hg (by simp)
      exact ⟨_, _, _, ⟨h1, by simp, by simp⟩, h2⟩
  · simp only [bind, Except.bind] at h
    cases hg : Threads.aggQ K .flush s with
    | error e => rw [hg] at h; cases h
    | ok v =>
      rw [hg] at h
      cases h
      obtain ⟨ev, h1, h2, h3⟩ := (l.tick (b := .timer 2) rfl rfl rfl rfl (by simp) trivial rfl rfl).2.1 hg (by simp)
      exact ⟨_, _, _, ⟨.consQ, by simp, fun _ => ⟨ev, rfl, h2, h3⟩⟩, h1⟩
  · simp only [bind, Except.bind] at h
    cases hg : Threads.aggR K .flush s with
    | error e => rw [hg] at h; cases h
    | ok v =>
      rw [hg] at h
      cases h
      obtain ⟨ev, h1, h2, h3⟩ := (l.tick (b := .timer 3) rfl rfl rfl rfl (by simp) trivial rfl rfl).2.2 hg (by simp)
      exact ⟨_, _, _, ⟨.consR, fun _ => ⟨ev, List.mem_cons_self, h2, h3⟩, by simp⟩, h1⟩
  · rename_i hn1 hn
    cases h
    exact ⟨_, _, _, ⟨.same, fun h => absurd h hn, fun h => absurd h hn1⟩, l.next rfl rfl rfl (evs := []) (by simp) (dr := []) (by simp) (List.Perm.refl _) (List.Perm.refl _) (by simp) (.inl rfl)
      (.inl ⟨rfl, by simp⟩) (.inl rfl) (by simp) (fun h => .inl h)⟩

theorem Links.unset {k : Kind} {n m : Nat} {s s' : Sys D} {new R : List (Act D)} 
    (l : Links K hc hq hr (.destroy m :: R) s) (hm : 4 ≤ m) (h : Threads.unset k n s = some (.ok (s', new))) :
    ∃ hc' hq' hr', Grow hc hq hr hc' hq' hr' ∧ Links K hc' hq' hr' (new ++ R) s' := by
  unfold Threads.unset at h
  split at h
  · cases h
  · cases h
    exact ⟨_, _, _, .same, l.next rfl rfl rfl (evs := []) (by simp) (dr := []) (by simp) (List.Perm.refl _) (List.Perm.refl _) (by simp [Act.Backed]) (.inl rfl)
      (.inl ⟨rfl, by simp⟩) (.inl rfl) (fun _ _ _ => l.stopped m List.mem_cons_self hm) (fun h => .inl h)⟩

theorem Links.alive_of_destroy {n : Nat} {s : Sys D} {R : List (Act D)} (i : Inv (.destroy n :: R) s) : s.c.alive = true := by
  have := i.life.destr
  rw [List.countP_cons, if_pos (by rfl)] at this
  cases ha : s.c.alive with
  | true => rfl
  | false => rw [ha] at this; simp at this

theorem Links.destroy {n : Nat} {s s' : Sys D} {new R : List (Act D)} (i : Inv (.destroy n :: R) s)
    (l : Links K hc hq hr (.destroy n :: R) s) (h : runDestroy K stops n s = some (.ok (s', new))) :
    ∃ hc' hq' hr', Grow hc hq hr hc' hq' hr' ∧ Links K hc' hq' hr' (new ++ R) s' := by
  unfold runDestroy at h
  split at h
  · simp only [bind, Except.bind, Option.some.injEq] at h
    cases hg : Threads.aggC K .flushAll s with
    | error e => rw [hg] at h; cases h
    | ok v =>
      rw [hg] at h
      cases h
      obtain ⟨_, h1, h2⟩ := (l.tick (b := .destroy 1) rfl rfl rfl rfl (by rintro n hn; cases hn; omega) trivial rfl rfl).1 hg (by simp)
      exact ⟨_, _, _, h1, h2⟩
  · simp only [bind, Except.bind, Option.some.injEq] at h
    cases hg : Threads.aggQ K .flushAll s with
    | error e => rw [hg] at h; cases h
    | ok v =>
      rw [hg] at h
      cases h
      obtain ⟨ev, h1, _⟩ := (l.tick (b := .destroy 2) rfl rfl rfl rfl (by rintro n hn; cases hn; omega) trivial rfl rfl).2.1 hg (by simp)
      exact ⟨_, _, _, .consQ, h1⟩
  · simp only [bind, Except.bind, Option.some.injEq] at h
    cases hg : Threads.aggR K .flushAll s with
    | error e => rw [hg] at h; cases h
    | ok v =>
      rw [hg] at h
      cases h
      obtain ⟨_, h1, _⟩ := (l.tick (b := .destroy 3) rfl rfl rfl rfl (by rintro n hn; cases hn; omega) trivial rfl rfl).2.2 hg (by simp)
      exact ⟨_, _, _, .consR, h1⟩
  · split at h
    · rename_i ht
      cases h
      exact ⟨_, _, _, .same, l.next rfl rfl rfl (evs := []) (by simp) (dr := []) (by simp) (List.Perm.refl _) (List.Perm.refl _) (by simp [Act.Backed]) (.inl rfl)
        (.inl ⟨rfl, by simp⟩) (.inl rfl) (fun _ _ _ => by simpa using ht) (fun h => .inl h)⟩
    · cases h
      exact ⟨_, _, _, .same, l.next rfl rfl rfl (evs := []) (by simp) (dr := []) (by simp) (List.Perm.refl _) (List.Perm.refl _) (by simp [Act.Backed]) (.inl rfl)
        (.inl ⟨rfl, by simp⟩) (.inr rfl) (fun _ _ _ => rfl) (fun h => .inl h)⟩
  · split at h
    · cases h
    · cases h
      exact ⟨_, _, _, .same, l.next rfl rfl rfl (evs := []) (by simp) (dr := []) (by simp) (List.Perm.refl _) (List.Perm.refl _) (by simp [Act.Backed]) (.inl rfl)
        (.inl ⟨rfl, by simp⟩) (.inl rfl) (fun _ _ _ => l.stopped 4 List.mem_cons_self (by omega)) (fun h => .inl h)⟩
  · exact l.unset (by omega) h
  · exact l.unset (by omega) h
  · exact l.unset (by omega) h
  · rename_i h0 h1 h2 h3 h4 h5 h6 h7
    have hal := Links.alive_of_destroy i
    cases h
    have htm : s.c.timer = none := l.stopped n List.mem_cons_self (by
      have g0 : n ≠ 0 := h0
      have g1 : n ≠ 1 := h1
      have g2 : n ≠ 2 := h2
      have g3 : n ≠ 3 := h3
      omega)
    refine ⟨_, _, _, .same, l.next rfl rfl rfl (evs := [.destroyed]) rfl (dr := []) (by simp) (List.Perm.refl _) (List.Perm.refl _) (by simp)
      (.inr ⟨_, rfl, ⟨by simp, by simp, ?_⟩⟩) (.inr ⟨rfl, by simp⟩) (.inl rfl) (by simp) (fun _ => .inr htm)⟩
    intro hd
    exact absurd hd (l.gone.mp hal)

theorem exec_links {a : Act D} {s s' : Sys D} {new R : List (Act D)} (i : Inv (a :: R) s) (l : Links K hc hq hr (a :: R) s)
    (h : exec K stops a s = some (.ok (s', new))) : ∃ hc' hq' hr', Grow hc hq hr hc' hq' hr' ∧ Links K hc' hq' hr' (new ++ R) s' := by
  have hdead : ∀ e : Ev D, s.c.alive = true → (∀ i c st reply, e = .done i c st reply none → st ≠ .notFound ∧ Settled K i c st reply s.c.trace) →
      (∀ id i c, e = .sent id (some i) c → Result K c .notFound ∧ Ev.called i c true ∈ s.c.trace) → EvOk K e s.c.trace :=
    fun e hal hb hs => ⟨hb, hs, fun hd => absurd hd (l.gone.mp hal)⟩
  cases a with
  | user =>
    simp only [exec] at h
    cases h
    exact ⟨_, _, _, .same, l.next rfl rfl rfl (evs := []) (by simp) (dr := []) (by simp) (List.Perm.refl _) (List.Perm.refl _) (by simp) (.inl rfl)
      (.inl ⟨rfl, by simp⟩) (.inl rfl) (by simp) (fun h => .inl h)⟩
  | start j c t =>
    simp only [exec, this, Option.some.injEq] at h
    split at h
    · cases h
    · cases h
      refine ⟨_, _, _, .same, l.next rfl rfl rfl (evs := []) (by simp [bump]) (dr := []) (by simp) ?_ ?_ ?_ (.inl rfl)
        (.inl ⟨rfl, by simp⟩) (.inl rfl) ?_ (fun h => .inl h) (by cases t <;> rfl)⟩
      · cases t <;> exact List.Perm.refl _
      · cases t
        · cases c <;> exact List.Perm.refl _
        · exact List.Perm.refl _
      · intro b hb
        cases t <;> simp only [Bool.false_eq_true, if_false, if_true, List.mem_singleton] at hb <;> subst hb
        · exact ⟨by simp, by simp, .inr ⟨rfl, l.backed _ List.mem_cons_self⟩⟩
        · exact l.backed (.start j c true) List.mem_cons_self
      · intro n hn
        cases t <;> simp at hn
  | agg j c =>
    simp only [exec, this, Option.some.injEq] at h
    split at h
    · cases h
    · exact l.call h
  | result j c st reply =>
    simp only [exec, this, Option.some.injEq] at h
    split at h
    · cases h
    · rename_i hal
      have hal : s.c.alive = true := by simpa using hal
      split at h
      · rename_i hst
        simp only [Except.ok.injEq, Prod.mk.injEq] at h
        obtain ⟨rfl, rfl⟩ := h
        have he := (allocCall_ok c s.c).eq
        refine ⟨_, _, _, .same, l.next (evs := [.sent s.c.sends (some j) c]) ?_ ?_ ?_ ?_ (dr := []) (by simp) ?_ ?_ ?_ (.inr ⟨_, rfl, hdead _ hal (by simp) ?_⟩)
          (.inl ⟨?_, by simp⟩) (.inl ?_) (by simp) (fun h => .inl ?_)⟩
        · show (allocCall c s.c).2.check = _; rw [he]
        · show (allocCall c s.c).2.quota = _; rw [he]
        · show (allocCall c s.c).2.report = _; rw [he]
        · show (allocCall c s.c).2.trace ++ _ = _; rw [he]
        · exact List.Perm.refl _
        · subst hst; cases c <;> exact List.Perm.refl _
        · intro b hb
          simp only [List.mem_cons, List.not_mem_nil, or_false] at hb
          rcases hb with rfl | rfl <;> trivial
        · intro id i' c' hc'
          cases hc'
          have := l.backed (.result j c st reply) List.mem_cons_self
          rw [hst] at this
          exact this.2
        · show (allocCall c s.c).2.alive = _; rw [he]
        · show (allocCall c s.c).2.timer = _; rw [he]
        · have : (allocCall c s.c).2.alive = false := h
          rw [he] at this; exact this
      · rename_i hst
        cases h
        refine ⟨_, _, _, .same, l.next rfl rfl rfl (evs := []) (by simp) (dr := []) (by simp) (List.Perm.refl _) ?_ ?_ (.inl rfl)
          (.inl ⟨rfl, by simp⟩) (.inl rfl) (by simp) (fun h => .inl h)⟩
        · simp only [answers, List.flatMap_nil, List.flatMap_cons, List.append_nil, List.nil_append]
          cases c with
          | report r => cases st <;> exact List.Perm.refl _
          | _ => exact List.Perm.refl _
        · intro b hb
          rw [List.mem_singleton] at hb; subst hb
          have := l.backed (.result j c st reply) List.mem_cons_self
          exact ⟨hst, this.1, .inl this.2⟩
  | count i' c' xs =>
    cases xs with
    | nil =>
      simp only [exec] at h
      cases h
      exact ⟨_, _, _, .same, l.next rfl rfl rfl (evs := []) (by simp) (dr := []) (by simp) (List.Perm.refl _) (List.Perm.refl _) (by simp) (.inl rfl)
        (.inl ⟨rfl, by simp⟩) (.inl rfl) (by simp) (fun h => .inl h)⟩
    | cons x xs =>
      simp only [exec, this, Option.some.injEq] at h
      split at h
      · cases h
      · cases h
        exact ⟨_, _, _, .same, l.next rfl rfl rfl (evs := []) (by simp [bump]) (dr := []) (by simp) (List.Perm.refl _) (List.Perm.refl _) (by simp [Act.Backed]) (.inl rfl)
          (.inl ⟨rfl, by simp⟩) (.inl rfl) (by simp) (fun h => .inl h)⟩
  | finish j c st reply via =>
    have key : ∀ (s2 : Sys D) (new : List (Act D)), s2.c = s.c.done j c st reply via → s2.dropped = s.dropped → new.flatMap Act.way = [] →
        new.flatMap Act.answers = [] → (∀ b ∈ new, ∀ tr, b.Backed K tr) → (∀ n, .destroy n ∉ new) → new.flatMap Act.comps = [] → Links K hc hq hr (new ++ R) s2 := by
      intro s2 new h1 h2 h3 h4 h5 h6 h7
      refine l.next (evs := [.done j c st reply via]) (by rw [h1]; rfl) (by rw [h1]; rfl) (by rw [h1]; rfl) (by rw [h1]; rfl) (dr := []) (by simp [h2]) ?_ ?_
        (fun b hb => h5 b hb _) (.inr ⟨_, rfl, ⟨?_, by simp, ?_⟩⟩) (.inl ⟨by rw [h1]; rfl, by simp⟩) (.inl (by rw [h1]; rfl)) (fun n hn => absurd hn (h6 n))
        (fun h => .inl (by rw [h1] at h; exact h)) h7
      · rw [h3]; exact List.Perm.refl _
      · rw [h4, List.append_nil]
        simp only [answers, List.flatMap_nil, List.flatMap_cons, List.append_nil]
        cases via <;> exact List.Perm.refl _
      · intro i' c' st' reply' he
        cases he
        exact l.backed _ List.mem_cons_self
      · intro hd
        cases via with
        | some id => rfl
        | none =>
          exfalso
          have hal : s.c.alive = false := by
            cases ha : s.c.alive with
            | false => rfl
            | true => exact absurd hd (l.gone.mp ha)
          have := i.life.api (i.life.dead hal).1 _ List.mem_cons_self
          cases this
    simp only [exec] at h
    split at h
    · split at h
      · cases h
      · cases h
      · cases h
        exact ⟨_, _, _, .same, key _ _ rfl rfl rfl rfl (by simp [Act.Backed]) (by simp) rfl⟩
    · cases h
      exact ⟨_, _, _, .same, key _ _ rfl rfl rfl rfl (by simp [Act.Backed]) (by simp) rfl⟩
  | setValue j st =>
    simp only [exec] at h
    cases h
    exact ⟨_, _, _, .same, l.next rfl rfl rfl (evs := []) (by simp) (dr := []) (by simp) (List.Perm.refl _) (List.Perm.refl _) (by simp) (.inl rfl)
      (.inl ⟨rfl, by simp⟩) (.inl rfl) (by simp) (fun h => .inl h)⟩
  | wait j =>
    simp only [exec] at h
    split at h
    · cases h
    · cases h
      exact ⟨_, _, _, .same, l.next rfl rfl rfl (evs := []) (by simp) (dr := []) (by simp) (List.Perm.refl _) (List.Perm.refl _) (by simp) (.inl rfl)
        (.inl ⟨rfl, by simp⟩) (.inl rfl) (by simp) (fun h => .inl h)⟩
  | fin p a => exact Links.fin i l (by simpa only [exec, Option.some.injEq] using h)
  | free own th =>
    simp only [exec, bind, Except.bind, Option.some.injEq] at h
    obtain ⟨c', h1, h2, h3⟩ := Books.freeAll (os := opensOf (.free own th :: R)) own (own := ownOf R) i.books
    split at h
    · cases h
    · rw [h1] at h
      cases h
      refine ⟨_, _, _, .same, l.next (evs := []) ?_ ?_ ?_ ?_ (dr := []) (by simp) (List.Perm.refl _) (List.Perm.refl _) (by simp) (.inl rfl)
        (.inl ⟨?_, by simp⟩) (.inl ?_) (by simp) (fun h => .inl ?_)⟩
      · show c'.check = _; rw [h3]
      · show c'.quota = _; rw [h3]
      · show c'.report = _; rw [h3]
      · show c'.trace = _; rw [h3]; simp
      · show c'.alive = _; rw [h3]
      · show c'.timer = _; rw [h3]
      · have : c'.alive = false := h
        rw [h3] at this; exact this
  | timer n =>
    obtain ⟨_, _, _, h1, h2⟩ := l.tmr (by simpa only [exec, Option.some.injEq] using h)
    exact ⟨_, _, _, h1.1, h2⟩
  | destroy n => exact Links.destroy i l h
  | flush c =>
    simp only [exec] at h
    split at h
    · cases h
    · cases h
      exact ⟨_, _, _, .same, l.next rfl rfl rfl (evs := []) (by simp) (dr := []) (by simp) (List.Perm.refl _) (List.Perm.refl _) (by simp [Act.Backed]) (.inl rfl)
        (.inl ⟨rfl, by simp⟩) (.inl rfl) (by simp) (fun h => .inl h)⟩
  | calling c =>
    simp only [exec] at h
    split at h
    · cases h
      exact ⟨_, _, _, .same, l.next rfl rfl rfl (evs := []) (by simp) (dr := [c]) rfl (List.Perm.refl _) (List.Perm.refl _) (by simp [Act.Backed]) (.inl rfl)
        (.inl ⟨rfl, by simp⟩) (.inl rfl) (by simp) (fun h => .inl h)⟩
    · simp only [this, Option.some.injEq] at h
      split at h
      · cases h
      · rename_i hal
        have hal : s.c.alive = true := by simpa using hal
        split at h
        · cases h
        · simp only [Except.ok.injEq, Prod.mk.injEq] at h
          obtain ⟨rfl, rfl⟩ := h
          have he := (allocFlush_ok c s.c).eq
          refine ⟨_, _, _, .same, l.next (evs := [.sent s.c.sends none c]) ?_ ?_ ?_ ?_ (dr := []) (by simp) ?_ ?_ ?_ (.inr ⟨_, rfl, hdead _ hal (by simp) (by simp)⟩)
            (.inl ⟨?_, by simp⟩) (.inl ?_) (by simp) (fun h => .inl ?_)⟩
          · show (allocFlush c s.c).2.check = _; rw [he]
          · show (allocFlush c s.c).2.quota = _; rw [he]
          · show (allocFlush c s.c).2.report = _; rw [he]
          · show (allocFlush c s.c).2.trace ++ _ = _; rw [he]
          · exact List.Perm.refl _
          · exact List.Perm.refl _
          · intro b hb
            simp only [List.mem_cons, List.not_mem_nil, or_false] at hb
            rcases hb with rfl | rfl <;> trivial
          · show (allocFlush c s.c).2.alive = _; rw [he]
          · show (allocFlush c s.c).2.timer = _; rw [he]
          · have : (allocFlush c s.c).2.alive = false := h
            rw [he] at this; exact this
  | after k xs =>
    cases xs with
    | nil =>
      simp only [exec] at h
      cases h
      exact ⟨_, _, _, .same, l.next rfl rfl rfl (evs := []) (by simp) (dr := []) (by simp) (List.Perm.refl _) (List.Perm.refl _) (by simp) (.inl rfl)
        (.inl ⟨rfl, by simp⟩) (.inl rfl) (by simp) (fun h => .inl h)⟩
    | cons x xs =>
      simp only [exec, this, Option.some.injEq] at h
      split at h
      · cases h
      · cases h
        exact ⟨_, _, _, .same, l.next rfl rfl rfl (evs := []) (by simp [bump]) (dr := []) (by simp) (List.Perm.refl _) (List.Perm.refl _) (by simp [Act.Backed]) (.inl rfl)
          (.inl ⟨rfl, by simp⟩) (.inl rfl) (by simp) (fun h => .inl h)⟩

end
end Threads
end Verif
