import Verif.Props.ThreadAnswers
/-
The checks held back by the cache of a client used by many threads.
-/
set_option linter.unusedSectionVars false
namespace Verif.Threads
open Client
variable {D : Type}

/-- The operation of a check answered positively from the cache. -/
def heldOf (x : Call D × Status × Reply) : List (Operation D) := heldOp x.1 x.2.1 x.2.2

/-- The check that is given to a transport. -/
def passOf : Call D × Status × Reply → Option (CheckRequest D)
  | (.check r, .notFound, _) => some r
  | _ => none

theorem answer_held (c : Call D) (st : Status) (reply : Reply) : (answer c st reply).flatMap heldOf = heldOp c st reply := by
  cases c <;> cases st <;> simp [answer, heldOf, heldOp]

theorem answer_pass (c : Call D) (st : Status) (reply : Reply) :
    (answer c st reply).filterMap passOf = match c, st with | .check r, .notFound => [r] | _, _ => [] := by
  cases c <;> cases st <;> simp [answer, passOf]

theorem answers_held (tr : List (Ev D)) : (answers tr).flatMap heldOf = heldOps tr := by
  unfold answers heldOps
  rw [List.flatMap_assoc]
  refine List.flatMap_congr fun e _ => ?_
  cases e with
  | done i c st reply via =>
    cases via with
    | none => simp only [answer_held]
    | some id => rfl
  | sent id by_ c => cases by_ <;> cases c <;> rfl
  | _ => rfl

theorem acts_held (A : List (Act D)) : (A.flatMap Act.answers).flatMap heldOf = A.flatMap (fun a => match a with
    | .result _ c st reply => heldOp c st reply
    | .finish _ c st reply none => heldOp c st reply
    | _ => []) := by
  rw [List.flatMap_assoc]
  refine List.flatMap_congr fun a _ => ?_
  cases a with
  | result i c st reply => simp only [Act.answers, answer_held]
  | finish i c st reply via =>
    cases via with
    | none => simp only [Act.answers, answer_held]
    | some id => rfl
  | _ => rfl

section
variable [DoubleOps D] {K : Setup} {stops : Bool} {s s' : Sys D} {hc : Check.Hist D} {hq : Quota.Hist D} {hr : Report.Hist D}

theorem answers_pass (tr : List (Ev D)) (h : ∀ i c reply, Ev.done i c .notFound reply none ∉ tr) :
    (answers tr).filterMap passOf = passedChecks tr := by
  induction tr with
  | nil => rfl
  | cons e tr ih =>
    have ih' := ih (fun i c reply hm => h i c reply (List.mem_cons_of_mem _ hm))
    unfold answers passedChecks at *
    rw [List.flatMap_cons, List.filterMap_append, List.filterMap_cons, ih']
    cases e with
    | done i c st reply via =>
      cases via with
      | none =>
        simp only [answer_pass]
        cases c with
        | check r =>
          cases st with
          | notFound => exact absurd List.mem_cons_self (h i (.check r) reply)
          | _ => rfl
        | _ => rfl
      | some id => rfl
    | sent id by_ c => cases by_ <;> cases c <;> rfl
    | _ => rfl

theorem acts_pass (A : List (Act D)) (h : ∀ i c reply, Act.finish i c .notFound reply none ∉ A) :
    (A.flatMap Act.answers).filterMap passOf = A.filterMap (fun a => match a with | .result _ (.check r) .notFound _ => some r | _ => none) := by
  induction A with
  | nil => rfl
  | cons a A ih =>
    have ih' := ih (fun i c reply hm => h i c reply (List.mem_cons_of_mem _ hm))
    rw [List.flatMap_cons, List.filterMap_append, List.filterMap_cons, ih']
    cases a with
    | result i c st reply => simp only [Act.answers, answer_pass]; cases c <;> cases st <;> rfl
    | finish i c st reply via =>
      cases via with
      | none =>
        simp only [Act.answers, answer_pass]
        cases c with
        | check r =>
          cases st with
          | notFound => exact absurd List.mem_cons_self (h i (.check r) reply)
          | _ => rfl
        | _ => rfl
      | some id => rfl
    | _ => rfl

/-- What the check aggregator has absorbed: the operations of checks answered positively from the cache, and of some of the
checks it has told to ask again. -/
theorem absorbed_split {E : Lru.Env} {cfg : AggConfig} {st : AggState (Check.Elem D)} (r : Check.Reach E cfg hc st) :
    ∃ again : List (CheckRequest D), again.Sublist ((answersC hc).filterMap passOf) ∧
      (∀ q ∈ again, ∃ p, p.checkErrors = [] ∧ ∃ ev ∈ hc, ∃ q', ev.call = .cacheResponse q' p ∧ checkRequestSig cfg.H q' = checkRequestSig cfg.H q) ∧
      ((Check.absorbed cfg hc).map (·.2)).Perm ((answersC hc).flatMap heldOf ++ again.filterMap (·.operation)) := by
  induction r with
  | init h0 => exact ⟨[], by simp, by simp, by simp [Check.absorbed, answersC]⟩
  | call r hs ih =>
    rename_i h s c s1 out fl
    obtain ⟨again, h1, h2, h3⟩ := ih
    simp only [Check.absorbed]
    rw [answersC_cons, List.filterMap_append, List.flatMap_append, List.map_append]
    simp only
    have keep : ∀ A B : List (Operation D), A = B →
        ((Check.absorbed cfg h).map (·.2) ++ A).Perm ((answersC h).flatMap heldOf ++ B ++ again.filterMap (·.operation)) := by
      rintro A _ rfl
      refine (h3.append_right _).trans ?_
      rw [List.append_assoc, List.append_assoc]
      exact List.Perm.append_left _ List.perm_append_comm
    have old : ∀ q ∈ again, ∃ p, p.checkErrors = [] ∧ ∃ ev ∈ (⟨c, out, fl, s.tick, s1.tick, Check.cachedSigs s1⟩ :: h : Check.Hist D), ∃ q', ev.call = .cacheResponse q' p ∧
        checkRequestSig cfg.H q' = checkRequestSig cfg.H q := by
      intro q hq
      obtain ⟨p, g1, ev, g2, g3⟩ := h2 q hq
      exact ⟨p, g1, ev, List.mem_cons_of_mem _ g2, g3⟩
    cases c with
    | check q =>
      rcases Check.check_status hs with hst | hst | hst
      · refine ⟨again, h1.trans (List.sublist_append_left _ _), old, keep _ _ ?_⟩
        obtain ⟨p, g1, g2⟩ := Check.C31_served_latest r q hs hst
        simp only [ansC, answer_held, hst, g1, heldOp, Check.absorbedBy, g2]
        cases q.operation with
        | none => simp
        | some o => by_cases hp : p.checkErrors = [] <;> simp [hp]
      · have hpass : (ansC (.check q) out : List (Call D × Status × Reply)).filterMap passOf = [q] := by
          simp only [ansC, answer_pass, hst]
        have hheld : (ansC (.check q) out : List (Call D × Status × Reply)).flatMap heldOf = [] := by
          simp only [ansC, answer_held, hst, heldOp]
        rw [hpass, hheld]
        cases ho : q.operation with
        | none =>
          refine ⟨again, h1.trans (List.sublist_append_left _ _), old, keep _ _ ?_⟩
          simp [Check.absorbedBy, ho]
        | some o =>
          cases hl : Check.lastCached cfg.H (checkRequestSig cfg.H q) h with
          | none =>
            refine ⟨again, h1.trans (List.sublist_append_left _ _), old, keep _ _ ?_⟩
            simp [Check.absorbedBy, ho, hl]
          | some p =>
            simp only [Check.absorbedBy, ho, hl]
            split
            · rename_i hx
              refine ⟨again ++ [q], h1.append (List.Sublist.refl _), ?_, ?_⟩
              · intro q' hq'
                rcases List.mem_append.mp hq' with hq' | hq'
                · exact old q' hq'
                · rw [List.mem_singleton] at hq'
                  subst hq'
                  obtain ⟨ev, g1, q', g2, g3⟩ := lastCached_mem hl
                  exact ⟨p, hx.1, ev, List.mem_cons_of_mem _ g1, q', g2, g3⟩
              · rw [List.append_nil, List.filterMap_append, ← List.append_assoc]
                refine h3.append ?_
                simp [ho]
            · exact ⟨again, h1.trans (List.sublist_append_left _ _), old, keep _ _ rfl⟩
      · refine ⟨again, h1.trans (List.sublist_append_left _ _), old, keep _ _ ?_⟩
        simp only [ansC, answer_held, hst, heldOp, Check.absorbedBy]
        cases q.operation with
        | none => rfl
        | some o => split <;> simp_all
    | cacheResponse q p => exact ⟨again, h1.trans (List.sublist_append_left _ _), old, keep _ _ rfl⟩
    | flush => exact ⟨again, h1.trans (List.sublist_append_left _ _), old, keep _ _ rfl⟩
    | flushAll => exact ⟨again, h1.trans (List.sublist_append_left _ _), old, keep _ _ rfl⟩

/-- The checks among the calls. -/
def checksIn (cs : List (Call D)) : List (CheckRequest D) := cs.filterMap (fun c => match c with | .check r => some r | _ => none)

omit [DoubleOps D] in
theorem checksIn_append (a b : List (Call D)) : checksIn (a ++ b) = checksIn a ++ checksIn b := List.filterMap_append

omit [DoubleOps D] in
theorem checksIn_flushed (tr : List (Ev D)) : checksIn (flushedCalls tr) = flushedChecks tr := by
  unfold checksIn flushedCalls flushedChecks
  rw [List.filterMap_filterMap]
  congr 1
  funext e
  cases e with
  | sent id by_ c => cases by_ <;> cases c <;> rfl
  | _ => rfl

omit [DoubleOps D] in
theorem checksIn_carried (s : Sys D) : checksIn (s.acts.flatMap Act.way) = carriedChecks s := by
  unfold carriedChecks Sys.acts
  generalize s.threads.flatten = A
  induction A with
  | nil => rfl
  | cons a A ih =>
    rw [List.flatMap_cons, checksIn_append, ih, List.filterMap_cons]
    cases a with
    | flush c => cases c <;> rfl
    | calling c => cases c <;> rfl
    | _ => rfl

omit [DoubleOps D] in
theorem checksIn_asked (hc : Check.Hist D) (hq : Quota.Hist D) (hr : Report.Hist D) : checksIn (asked hc hq hr) = reqsC hc := by
  unfold asked
  have h1 : ∀ l : List (ReportRequest D), checksIn (l.map .report) = [] := by
    intro l; induction l with
    | nil => rfl
    | cons a l ih => exact ih
  have h2 : ∀ l : List (AllocateQuotaRequest D), checksIn (l.map .quota) = [] := by
    intro l; induction l with
    | nil => rfl
    | cons a l ih => exact ih
  have h3 : ∀ l : List (CheckRequest D), checksIn (l.map .check) = l := by
    intro l; induction l with
    | nil => rfl
    | cons a l ih => exact congrArg (a :: ·) ih
  rw [checksIn_append, checksIn_append, h1, h2, h3]; simp

omit [DoubleOps D] in
theorem flushedOps_reqsC : ∀ hc : Check.Hist D, (reqsC hc).filterMap (·.operation) = Check.flushedOps hc
  | [] => rfl
  | ev :: hc => by rw [reqsC_cons, List.filterMap_append, flushedOps_reqsC hc]; rfl

theorem sentC_perm (l : Links K hc hq hr s.acts s) :
    ((flushedChecks s.c.trace ++ carriedChecks s ++ lostChecks s).filterMap (·.operation)).Perm (Check.flushedOps hc) := by
  have h : (checksIn _).Perm (checksIn _) := l.items.filterMap _
  rw [checksIn_append, checksIn_append, checksIn_flushed, checksIn_carried, checksIn_asked] at h
  rw [← flushedOps_reqsC]
  exact h.filterMap _

/-- Where the operations absorbed by the check aggregator come from. -/
theorem absorbed_from (l : Links K hc hq hr s.acts s) :
    ∃ again : List (CheckRequest D), again.Subperm (passedChecks s.c.trace ++ passedSoon s) ∧
      (∀ q ∈ again, Approved K.cfgC.H (checkRequestSig K.cfgC.H q) s.c.trace) ∧
      ((Check.absorbed K.cfgC hc).map (·.2)).Perm (heldOps s.c.trace ++ heldSoon s ++ again.filterMap (·.operation)) := by
  obtain ⟨again, h1, h2, h3⟩ := absorbed_split l.c.reach
  have hQp : (answersQ hq).filterMap passOf = [] := by
    rw [List.filterMap_eq_nil_iff]
    intro x hx
    unfold answersQ at hx
    obtain ⟨ev, _, hx⟩ := List.mem_flatMap.mp hx
    cases hcall : ev.call <;> rw [hcall] at hx <;> simp only [ansQ, answer, List.not_mem_nil] at hx
    split at hx
    · cases hx
    · rw [List.mem_singleton] at hx; subst hx; rfl
  have hRp : (answersR hr).filterMap passOf = [] := by
    rw [List.filterMap_eq_nil_iff]
    intro x hx
    unfold answersR at hx
    obtain ⟨ev, _, hx⟩ := List.mem_flatMap.mp hx
    cases hcall : ev.call <;> rw [hcall] at hx <;> simp only [ansR, answer, List.not_mem_nil] at hx
    split at hx
    · cases hx
    · rw [List.mem_singleton] at hx; subst hx; rfl
  have hQh : (answersQ hq).flatMap heldOf = [] := by
    rw [List.flatMap_eq_nil_iff]
    intro x hx
    unfold answersQ at hx
    obtain ⟨ev, _, hx⟩ := List.mem_flatMap.mp hx
    cases hcall : ev.call <;> rw [hcall] at hx <;> simp only [ansQ, answer, List.not_mem_nil] at hx
    split at hx
    · cases hx
    · rw [List.mem_singleton] at hx; subst hx; simp [heldOf, heldOp]
  have hRh : (answersR hr).flatMap heldOf = [] := by
    rw [List.flatMap_eq_nil_iff]
    intro x hx
    unfold answersR at hx
    obtain ⟨ev, _, hx⟩ := List.mem_flatMap.mp hx
    cases hcall : ev.call <;> rw [hcall] at hx <;> simp only [ansR, answer, List.not_mem_nil] at hx
    split at hx
    · cases hx
    · rw [List.mem_singleton] at hx; subst hx; simp [heldOf, heldOp]
  have hdone : ∀ i c reply, Ev.done i c .notFound reply none ∉ s.c.trace := by
    intro i c reply hm
    obtain ⟨pre, post, hp⟩ := List.append_of_mem hm
    exact ((l.ok pre _ post hp).backed i c _ reply rfl).1 rfl
  have hfin : ∀ i c reply, Act.finish i c .notFound reply none ∉ s.acts := fun i c reply hm => (l.backed _ hm).1 rfl
  have hp := l.ans.filterMap passOf
  rw [List.filterMap_append, List.filterMap_append, List.filterMap_append, hQp, hRp, answers_pass _ hdone, acts_pass _ hfin,
    List.append_nil, List.append_nil] at hp
  have hh := l.ans.flatMap_right heldOf
  rw [List.flatMap_append, List.flatMap_append, List.flatMap_append, hQh, hRh, answers_held, acts_held, List.append_nil, List.append_nil] at hh
  refine ⟨again, h1.subperm.trans hp.symm.subperm, ?_, h3.trans (hh.symm.append_right _)⟩
  intro q hq
  obtain ⟨p, g1, ev, g2, q', g3, g4⟩ := h2 q hq
  obtain ⟨id, i, a, g5, g6, g7⟩ := l.cachedC ev g2 q' p g3
  exact ⟨id, i, q', a, g5, g4, g6, by rw [g7]; exact g1⟩

/-- C98: under every schedule the operations of checks answered positively from the cache, or about to be, are accounted for: their log
entries and integer delta totals, together with those of some checks that were also given to a transport, are those sent
by flushes, on their way to the flush callback, passed on after it was unset, or still cached. -/
theorem C98_conserved (r : Reach K stops s) :
    ∃ again : List (CheckRequest D), again.Subperm (passedChecks s.c.trace ++ passedSoon s) ∧
      (∀ q ∈ again, Approved K.cfgC.H (checkRequestSig K.cfgC.H q) s.c.trace) ∧
      (((flushedChecks s.c.trace ++ carriedChecks s ++ lostChecks s).filterMap (·.operation) ++
          Check.pendingOps K.cfgC s.c.check).flatMap (·.logEntries)).Perm
        ((heldOps s.c.trace ++ heldSoon s ++ again.filterMap (·.operation)).flatMap (·.logEntries)) ∧
      ∀ n k, IsDelta K.cfgC.kinds n →
        (∀ v ∈ reported K.cfgC.H (heldOps s.c.trace ++ heldSoon s ++ again.filterMap (·.operation)) n k, IsInt v) →
        Report.intTotal K.cfgC.H ((flushedChecks s.c.trace ++ carriedChecks s ++ lostChecks s).filterMap (·.operation)) n k +
            Report.intTotal K.cfgC.H (Check.pendingOps K.cfgC s.c.check) n k =
          Report.intTotal K.cfgC.H (heldOps s.c.trace ++ heldSoon s ++ again.filterMap (·.operation)) n k := by
  obtain ⟨hc, hq, hr, l⟩ := r.links
  obtain ⟨again, h1, h2, h3⟩ := absorbed_from l
  have h4 := sentC_perm l
  refine ⟨again, h1, h2, ?_, fun n k hk hint => ?_⟩
  · refine List.Perm.trans ?_ ((Check.C36_log_entries l.c.reach).trans (h3.flatMap_right _))
    exact (h4.append_right _).flatMap_right _
  · rw [intTotal_perm _ h4, ← intTotal_perm _ h3]
    refine Check.C36_delta_totals l.c.reach n k hk (fun v hv => hint v ?_)
    have : (reported K.cfgC.H ((Check.absorbed K.cfgC hc).map (·.2)) n k).Perm
        (reported K.cfgC.H (heldOps s.c.trace ++ heldSoon s ++ again.filterMap (·.operation)) n k) := by
      unfold reported; exact h3.flatMap_right _
    exact this.mem_iff.mp hv

/-! ### At the end -/

/-- Which code calls the check aggregator. -/
inductive Asks (D : Type) : Act D → Check.Call D → Prop
  | call {i r} : Asks D (.agg i (.check r)) (.check r)
  | fin {p a r i} : p.req = .check r → p.by_ = some i → a.status = .ok → Asks D (.fin p a) (.cacheResponse r a.check)
  | timer : Asks D (.timer 0) .flush
  | destroy : Asks D (.destroy 0) .flushAll

/-- A piece of code leaves the check aggregator alone or calls it once, and does not begin the destruction. -/
theorem exec_check {a : Act D} {new R : List (Act D)} (i : Inv (a :: R) s) (h : exec K stops a s = some (.ok (s', new))) :
    s'.dying = s.dying ∧ (s'.c.check = s.c.check ∨ ∃ x out fl, Asks D a x ∧ Check.step K.envC K.cfgC x s.c.check = .ok (s'.c.check, out, fl)) := by
  have hC : ∀ {x s' out fl}, aggC K x s = .ok (s', out, fl) →
      s'.dying = s.dying ∧ ∃ fl, Check.step K.envC K.cfgC x s.c.check = .ok (s'.c.check, out, fl) := by
    intro x s' out fl h
    obtain ⟨a, rs, rfl, _, h1⟩ := aggC_ok h
    exact ⟨rfl, rs, h1⟩
  have hQ : ∀ {x s' out fl}, aggQ K x s = .ok (s', out, fl) → s'.dying = s.dying ∧ s'.c.check = s.c.check := by
    intro x s' out fl h
    obtain ⟨_, _, rfl, _⟩ := aggQ_ok h; exact ⟨rfl, rfl⟩
  have hR : ∀ {x s' out fl}, aggR K x s = .ok (s', out, fl) → s'.dying = s.dying ∧ s'.c.check = s.c.check := by
    intro x s' out fl h
    obtain ⟨_, _, rfl, _⟩ := aggR_ok h; exact ⟨rfl, rfl⟩
  cases a with
  | user => simp only [exec] at h; cases h; exact ⟨rfl, .inl rfl⟩
  | start j c t =>
    simp only [exec, this, Option.some.injEq] at h
    split at h
    · cases h
    · cases h; exact ⟨rfl, .inl rfl⟩
  | agg j c =>
    simp only [exec, this, Option.some.injEq] at h
    split at h
    · cases h
    · cases c with
      | check r =>
        simp only [runCall, bind, Except.bind] at h
        split at h
        · cases h
        · rename_i hg
          cases h
          obtain ⟨hd, fl, h1⟩ := hC hg
          exact ⟨hd, .inr ⟨_, _, _, .call, h1⟩⟩
      | quota r =>
        simp only [runCall, bind, Except.bind] at h
        split at h
        · cases h
        · rename_i hg
          cases h
          exact ⟨(hQ hg).1, .inl (hQ hg).2⟩
      | report r =>
        simp only [runCall, bind, Except.bind] at h
        split at h
        · cases h
        · rename_i hg
          cases h
          exact ⟨(hR hg).1, .inl (hR hg).2⟩
  | result j c st reply =>
    simp only [exec, this, Option.some.injEq] at h
    split at h
    · cases h
    · split at h
      · simp only [Except.ok.injEq, Prod.mk.injEq] at h
        obtain ⟨rfl, rfl⟩ := h
        refine ⟨rfl, .inl ?_⟩
        show (allocCall c s.c).2.check = _
        rw [(allocCall_ok c s.c).eq]
      · cases h; exact ⟨rfl, .inl rfl⟩
  | count i' c' xs =>
    cases xs with
    | nil => simp only [exec] at h; cases h; exact ⟨rfl, .inl rfl⟩
    | cons x xs =>
      simp only [exec, this, Option.some.injEq] at h
      split at h
      · cases h
      · cases h; exact ⟨rfl, .inl rfl⟩
  | finish j c st reply via =>
    simp only [exec] at h
    split at h
    · split at h
      · cases h
      · cases h
      · cases h; exact ⟨rfl, .inl rfl⟩
    · cases h; exact ⟨rfl, .inl rfl⟩
  | setValue j st => simp only [exec] at h; cases h; exact ⟨rfl, .inl rfl⟩
  | wait j =>
    simp only [exec] at h
    split at h
    · cases h
    · cases h; exact ⟨rfl, .inl rfl⟩
  | fin p a =>
    simp only [exec, Option.some.injEq] at h
    unfold runFin at h
    split at h
    · rename_i hreq hby
      split at h
      · rename_i hok
        simp only [bind, Except.bind] at h
        split at h
        · cases h
        · split at h
          · cases h
          · rename_i hg
            cases h
            obtain ⟨hd, fl, h1⟩ := hC hg
            exact ⟨hd, .inr ⟨_, _, _, .fin hreq hby hok, h1⟩⟩
      · cases h; exact ⟨rfl, .inl rfl⟩
    · simp only [bind, Except.bind] at h
      split at h
      · cases h
      · split at h
        · cases h
        · rename_i hg
          cases h
          exact ⟨(hQ hg).1, .inl (hQ hg).2⟩
    · cases h; exact ⟨rfl, .inl rfl⟩
    · split at h
      · cases h
      · simp only [bind, Except.bind] at h
        split at h
        · cases h
        · split at h
          · cases h
          · rename_i hg
            cases h
            exact ⟨(hQ hg).1, .inl (hQ hg).2⟩
    · cases h; exact ⟨rfl, .inl rfl⟩
  | free own th =>
    simp only [exec, bind, Except.bind, Option.some.injEq] at h
    obtain ⟨c', h1, h2, h3⟩ := Books.freeAll (os := opensOf (.free own th :: R)) own (own := ownOf R) i.books
    split at h
    · cases h
    · rw [h1] at h
      cases h
      refine ⟨rfl, .inl ?_⟩
      show c'.check = _
      rw [h3]
  | timer n =>
    simp only [exec, Option.some.injEq] at h
    unfold runTimer at h
    split at h
    · simp only [bind, Except.bind] at h
      split at h
      · cases h
      · rename_i hg
        cases h
        obtain ⟨hd, fl, h1⟩ := hC hg
        exact ⟨hd, .inr ⟨_, _, _, .timer, h1⟩⟩
    · simp only [bind, Except.bind] at h
      split at h
      · cases h
      · rename_i hg; cases h; exact ⟨(hQ hg).1, .inl (hQ hg).2⟩
    · simp only [bind, Except.bind] at h
      split at h
      · cases h
      · rename_i hg; cases h; exact ⟨(hR hg).1, .inl (hR hg).2⟩
    · cases h; exact ⟨rfl, .inl rfl⟩
  | destroy n =>
    simp only [exec] at h
    unfold runDestroy at h
    split at h
    · simp only [bind, Except.bind, Option.some.injEq] at h
      split at h
      · cases h
      · rename_i hg
        cases h
        obtain ⟨hd, fl, h1⟩ := hC hg
        exact ⟨hd, .inr ⟨_, _, _, .destroy, h1⟩⟩
    · simp only [bind, Except.bind, Option.some.injEq] at h
      split at h
      · cases h
      · rename_i hg; cases h; exact ⟨(hQ hg).1, .inl (hQ hg).2⟩
    · simp only [bind, Except.bind, Option.some.injEq] at h
      split at h
      · cases h
      · rename_i hg; cases h; exact ⟨(hR hg).1, .inl (hR hg).2⟩
    · split at h <;> (cases h; exact ⟨rfl, .inl rfl⟩)
    · split at h
      · cases h
      · cases h; exact ⟨rfl, .inl rfl⟩
    · unfold Threads.unset at h; split at h
      · cases h
      · cases h; exact ⟨rfl, .inl rfl⟩
    · unfold Threads.unset at h; split at h
      · cases h
      · cases h; exact ⟨rfl, .inl rfl⟩
    · unfold Threads.unset at h; split at h
      · cases h
      · cases h; exact ⟨rfl, .inl rfl⟩
    · cases h; exact ⟨rfl, .inl rfl⟩
  | flush c =>
    simp only [exec] at h
    split at h
    · cases h
    · cases h; exact ⟨rfl, .inl rfl⟩
  | calling c =>
    simp only [exec] at h
    split at h
    · cases h; exact ⟨rfl, .inl rfl⟩
    · simp only [this, Option.some.injEq] at h
      split at h
      · cases h
      · split at h
        · cases h
        · simp only [Except.ok.injEq, Prod.mk.injEq] at h
          obtain ⟨rfl, rfl⟩ := h
          refine ⟨rfl, .inl ?_⟩
          show (allocFlush c s.c).2.check = _
          rw [(allocFlush_ok c s.c).eq]
  | after k xs =>
    cases xs with
    | nil => simp only [exec] at h; cases h; exact ⟨rfl, .inl rfl⟩
    | cons x xs =>
      simp only [exec, this, Option.some.injEq] at h
      split at h
      · cases h
      · cases h; exact ⟨rfl, .inl rfl⟩

/-- `FlushAll` of the check aggregator ran in the destructor. -/
def Ended (A : List (Act D)) (s : Sys D) : Prop := (∃ n, 1 ≤ n ∧ .destroy n ∈ A) ∨ s.c.alive = false

theorem two_destroys {R : List (Act D)} {m n : Nat} (h1 : .destroy m ∈ R) (h2 : .destroy n ∈ R) (hne : n ≠ m) :
    2 ≤ R.countP Act.isDestroy := by
  obtain ⟨l1, l2, rfl⟩ := List.append_of_mem h1
  have : (.destroy n : Act D) ∈ l1 ++ l2 := by
    rcases List.mem_append.mp h2 with h | h
    · exact List.mem_append_left _ h
    · rcases List.mem_cons.mp h with h | h
      · cases h; exact absurd rfl hne
      · exact List.mem_append_right _ h
  have hp : 0 < (l1 ++ l2).countP Act.isDestroy := List.countP_pos_iff.mpr ⟨_, this, rfl⟩
  rw [List.countP_append] at hp ⊢
  rw [List.countP_cons, if_pos (by rfl)]
  omega

theorem ended_dying {A : List (Act D)} (i : Inv A s) (h : Ended A s) : s.dying = true := by
  rcases h with ⟨n, _, h⟩ | h
  · exact i.dying_of h
  · exact (i.life.dead h).1

/-- Only the destructor brings its end. -/
theorem exec_ended {a : Act D} {new R : List (Act D)} (i : Inv (a :: R) s) (h : exec K stops a s = some (.ok (s', new)))
    (he : Ended (new ++ R) s') : Ended (a :: R) s ∨ a = .destroy 0 := by
  have i' := exec_inv i h
  have hdy : s.dying = true := by rw [← (exec_check i h).1]; exact ended_dying i' he
  cases ha : s.c.alive with
  | false => exact .inl (.inr ha)
  | true =>
    have h1 := i.life.destr
    rw [hdy, ha] at h1
    have hpos : 0 < (a :: R).countP Act.isDestroy := by rw [h1]; decide
    obtain ⟨b, hb, hd⟩ := List.countP_pos_iff.mp hpos
    cases b with
    | destroy n =>
      cases n with
      | zero =>
        rcases List.mem_cons.mp hb with hb | hb
        · exact .inr hb.symm
        · exfalso
          have hR : 0 < R.countP Act.isDestroy := List.countP_pos_iff.mpr ⟨_, hb, rfl⟩
          have h2 := i'.life.destr
          rw [List.countP_append] at h2
          rcases he with ⟨n, hn, hm⟩ | hal
          · rcases List.mem_append.mp hm with hm | hm
            · have : 0 < new.countP Act.isDestroy := List.countP_pos_iff.mpr ⟨_, hm, rfl⟩
              split at h2 <;> omega
            · rw [List.countP_cons] at h1
              have h3 : 2 ≤ R.countP Act.isDestroy := two_destroys hb hm (by omega)
              simp at h1
              omega
          · rw [hal] at h2
            simp only [Bool.and_false, Bool.false_eq_true, if_false] at h2
            omega
      | succ n => exact .inl (.inl ⟨n + 1, by omega, hb⟩)
    | _ => cases hd

/-- The destructor has emptied the check aggregator, and nothing gets into it afterwards. -/
theorem Reach.emptyC (r : Reach K stops s) : Ended s.acts s → Check.pendingOps K.cfgC s.c.check = [] := by
  induction r with
  | new h =>
    rename_i c
    intro he
    rcases he with ⟨n, _, hm⟩ | he
    · simp [Sys.acts, Sys.new] at hm
    · have : c.alive = true := by
        unfold Client.new at h
        cases h1 : Check.new (D := D) K.envC K.cfgC <;> simp only [h1, bind, Except.bind, reduceCtorEq] at h
        cases h2 : Quota.new (D := D) K.envQ K.cfgQ (K.depth + 1) <;> simp only [h2, reduceCtorEq] at h
        cases h3 : Report.new (D := D) K.envR K.cfgR <;> simp only [h3, reduceCtorEq] at h
        cases h
        rfl
      exact absurd (this.symm.trans he) (by decide)
  | @step s s' r h ih =>
    intro he
    have i := r.inv
    have same : ∀ {b : Act D} {l1 l2 : List (List (Act D))} {t : List (Act D)} {new : List (Act D)}, s.threads = l1 ++ t :: l2 →
        (∃ n, 1 ≤ n ∧ Act.destroy n ∈ (l1 ++ (new ++ t) :: l2).flatten) → (∀ n, 1 ≤ n → Act.destroy n ∉ new) → Ended s.acts s := by
      intro b l1 l2 t new hth hm hn
      obtain ⟨n, h1, h2⟩ := hm
      refine .inl ⟨n, h1, ?_⟩
      have := hn n h1
      unfold Sys.acts; rw [hth]
      simp only [List.flatten_append, List.flatten_cons, List.mem_append] at h2 ⊢
      tauto
    cases h with
    | work hth hex =>
      rename_i l1 a t l2 s1 new
      have i1 : Inv (a :: (t ++ (l1 ++ l2).flatten)) s := by
        refine i.perm ?_
        unfold Sys.acts; rw [hth]
        exact (acts_at (t := a :: t)).symm
      have p1 : s.acts.Perm (a :: (t ++ (l1 ++ l2).flatten)) := by
        unfold Sys.acts; rw [hth]; exact acts_at (t := a :: t)
      have he1 : Ended (new ++ (t ++ (l1 ++ l2).flatten)) s1 := by
        rcases he with ⟨n, h1, h2⟩ | he
        · refine .inl ⟨n, h1, ?_⟩
          have p2 : (l1 ++ (new ++ t) :: l2).flatten.Perm (new ++ (t ++ (l1 ++ l2).flatten)) := by
            refine acts_at.trans ?_
            rw [List.append_assoc]
          exact p2.mem_iff.mp h2
        · exact .inr he
      obtain ⟨hc, hq, hr, l⟩ := r.links
      obtain ⟨hd, hx⟩ := exec_check i1 hex
      show Check.pendingOps K.cfgC s1.c.check = []
      rcases exec_ended i1 hex he1 with ho | rfl
      · have hdy := ended_dying i1 ho
        have ho' : Ended s.acts s := by
          rcases ho with ⟨n, h1, h2⟩ | ho
          · exact .inl ⟨n, h1, p1.mem_iff.mpr h2⟩
          · exact .inr ho
        have hp := ih ho'
        rcases hx with hx | ⟨x, out, fl, hA, hs⟩
        · rw [hx]; exact hp
        · obtain ⟨ev, _, _, _, _, _, hs'⟩ := l.c.step hs
          refine Check.pendingOps_keep (s' := s1.c.check.setFlushCallback true) l.c.reach hs' ?_ hp
          intro q hq
          subst hq
          cases hA
          have := i1.life.api hdy _ (List.mem_cons_self ..)
          cases this
      · simp only [exec, runDestroy, bind, Except.bind, Option.some.injEq] at hex
        split at hex
        · cases hex
        · rename_i v hg
          obtain ⟨s2, o2, f2⟩ := v
          cases hex
          obtain ⟨_, _, rfl, _, hs⟩ := aggC_ok hg
          obtain ⟨ev, _, _, _, _, _, hs'⟩ := l.c.step hs
          exact (Check.C36_flushAll_empties l.c.reach hs').2
    | call c tr hth hfree hdy =>
      rcases he with he | he
      · exact ih (same (b := .user) hth (new := [_]) he (by simp))
      · exact ih (.inr he)
    | sync c hth hfree hdy =>
      rcases he with he | he
      · exact ih (same (b := .user) hth (new := [_, _]) he (by simp))
      · exact ih (.inr he)
    | complete hth hfree ht =>
      obtain ⟨h1, _⟩ := Books.take i.books ht
      rw [h1] at he ⊢
      rcases he with he | he
      · exact ih (same (b := .user) hth (new := [_]) he (by simp))
      · exact ih (.inr he)
    | fire hth hfree ht =>
      rcases he with he | he
      · exact ih (same (b := .user) hth (new := [_]) he (by simp))
      · exact ih (.inr he)
    | destroy hth hfree hdy hn =>
      rcases he with he | he
      · exact ih (same (b := .user) hth (new := [_]) he (by intro n hn; simp; omega))
      · exact ih (.inr he)
    | spawn =>
      rcases he with ⟨n, h1, h2⟩ | he
      · exact ih (.inl ⟨n, h1, by simpa [Sys.acts] using h2⟩)
      · exact ih (.inr he)

/-- After the destruction no check waits in the cache or for its answer. -/
theorem no_checks_left (r : Reach K stops s) (hd : Ev.destroyed ∈ s.c.trace) :
    Check.pendingOps K.cfgC s.c.check = [] ∧ heldSoon s = [] ∧ passedSoon s = [] := by
  obtain ⟨hc, hq, hr, l⟩ := r.links
  have i := r.inv
  have hal : s.c.alive = false := by
    cases ha : s.c.alive with
    | false => rfl
    | true => exact absurd hd (l.gone.mp ha)
  have api := i.life.api (i.life.dead hal).1
  refine ⟨r.emptyC (.inr hal), ?_, ?_⟩
  · unfold heldSoon
    rw [List.flatMap_eq_nil_iff]
    intro a ha
    have h3 := api a ha
    cases a <;> try rfl
    · cases h3
    · rename_i via
      cases via with
      | none => cases h3
      | some _ => rfl
  · unfold passedSoon
    rw [List.filterMap_eq_nil_iff]
    intro a ha
    have h3 := api a ha
    cases a <;> try rfl
    cases h3

/-- C98: when the destructor has returned and no thread has a check of the cache in its hands, nor was one dropped, then what
was held back for checks answered from the cache has been sent.  What is missing: a check in the hands of another thread during
the destruction is dropped, see `C98_false_dropped`. -/
theorem C98_all_sent_partial (r : Reach K stops s) (hd : Ev.destroyed ∈ s.c.trace) (h1 : carriedChecks s = []) (h2 : lostChecks s = []) :
    ∃ again : List (CheckRequest D), again.Subperm (passedChecks s.c.trace) ∧
      (∀ q ∈ again, Approved K.cfgC.H (checkRequestSig K.cfgC.H q) s.c.trace) ∧
      (((flushedChecks s.c.trace).filterMap (·.operation)).flatMap (·.logEntries)).Perm
        ((heldOps s.c.trace ++ again.filterMap (·.operation)).flatMap (·.logEntries)) ∧
      ∀ n k, IsDelta K.cfgC.kinds n →
        (∀ v ∈ reported K.cfgC.H (heldOps s.c.trace ++ again.filterMap (·.operation)) n k, IsInt v) →
        Report.intTotal K.cfgC.H ((flushedChecks s.c.trace).filterMap (·.operation)) n k =
          Report.intTotal K.cfgC.H (heldOps s.c.trace ++ again.filterMap (·.operation)) n k := by
  obtain ⟨g1, g2, g3⟩ := no_checks_left r hd
  obtain ⟨again, k1, k2, k3, k4⟩ := C98_conserved r
  rw [g1, g2, h1, h2, List.append_nil, List.append_nil, List.append_nil, List.append_nil] at k3
  rw [g3, List.append_nil] at k1
  refine ⟨again, k1, k2, k3, fun n k hk hint => ?_⟩
  have := k4 n k hk (by rw [g2, List.append_nil]; exact hint)
  rw [g1, g2, h1, h2, List.append_nil, List.append_nil, List.append_nil] at this
  rw [← this]
  simp [Report.intTotal, reported]

end

section examples

/-- A client that caches one check. -/
def exK1 : Setup := { exK with cfgC := { Check.exCfg with numEntries := 1 } }

/-- A check is answered by a transport, and a second one of the same signature from the cache. -/
def exHeldOne : List (Move Int) :=
  [.spawn, .spawn, .call 0 (exCheck 1 5) .default] ++ steps 0 6 ++ [.complete 1 0 exOk] ++ steps 1 4 ++
    [.call 0 (exCheck 1 6) .default] ++ steps 0 5

/-- C98 is false also for a timer whose `Stop` waits: the completion of another check has taken a held one out of the cache, the
client is destroyed meanwhile, and the held one is given to nobody. -/
theorem C98_false_dropped : ∃ s, Reach exK1 true s ∧ Ev.destroyed ∈ s.c.trace ∧ Quiet s ∧ heldOps s.c.trace = (Check.exReq 1 6).operation.toList ∧
    flushedChecks s.c.trace = [] ∧ (lostChecks s).length = 1 := by
  obtain ⟨s, r, h1, h2, h3⟩ := schedule_case (K := exK1) (stops := true)
    (exHeldOne ++ [.call 0 (exCheck 2 6) .default] ++ steps 0 6 ++ [.complete 1 1 exOk, .work 1, .destroy 0] ++ steps 0 9 ++ steps 1 6)
    (fun s => Ev.destroyed ∈ s.c.trace ∧ s.threads = [[], []] ∧ heldOps s.c.trace = (Check.exReq 1 6).operation.toList ∧
      flushedChecks s.c.trace = [] ∧ (lostChecks s).length = 1) (by decide +kernel)
  refine ⟨s, r, h1, ?_, h3⟩
  intro t ht
  rw [h2] at ht
  simpa using ht

/-- C98: one check is held back, another is in the hands of the thread that completes a call. -/
example : ∃ s, Reach exK1 true s ∧ heldOps s.c.trace = (Check.exReq 1 6).operation.toList ∧ (carriedChecks s).length = 1 ∧
    Approved exK1.cfgC.H (checkRequestSig exK1.cfgC.H (Check.exReq 1 6)) s.c.trace := by
  obtain ⟨s, r, h1, h2, h3⟩ := schedule_case (K := exK1) (stops := true)
    (exHeldOne ++ [.call 0 (exCheck 2 6) .default] ++ steps 0 6 ++ [.complete 1 1 exOk, .work 1])
    (fun s => heldOps s.c.trace = (Check.exReq 1 6).operation.toList ∧ (carriedChecks s).length = 1 ∧
      Ev.completed 0 (some 0) (exCheck 1 5) exOk ∈ s.c.trace) (by decide +kernel)
  exact ⟨s, r, h1, h2, 0, 0, Check.exReq 1 5, exOk, h3, by decide +kernel, rfl, rfl⟩

/-- C98: the hypotheses of `C98_all_sent_partial` hold and the held check was sent by the destructor. -/
example : ∃ s, Reach exK1 true s ∧ Ev.destroyed ∈ s.c.trace ∧ carriedChecks s = [] ∧ lostChecks s = [] ∧
    heldOps s.c.trace = (Check.exReq 1 6).operation.toList ∧ (flushedChecks s.c.trace).length = 1 :=
  schedule_case (K := exK1) (stops := true) (exHeldOne ++ [.destroy 0] ++ steps 0 14) _ (by decide +kernel)

end examples
end Verif.Threads
