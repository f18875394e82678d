import Verif.Props.ThreadChecks
import Verif.Lemmas.QuotaAccounts
/-
The quota tokens granted from the cache of a client used by many threads.
-/
set_option linter.unusedSectionVars false
namespace Verif.Threads
open Client
variable {D : Type}

/-- The operation of a quota request answered positively from the cache. -/
def grantOf (H : Bytes → Bytes) (k : Bytes) (x : Call D × Status × Reply) : List (QuotaOperation D) := grantOp H k x.1 x.2.1 x.2.2

theorem answer_grant (H : Bytes → Bytes) (k : Bytes) (c : Call D) (st : Status) (reply : Reply) :
    (answer c st reply).flatMap (grantOf H k) = grantOp H k c st reply := by
  cases c <;> cases st <;> simp [answer, grantOf, grantOp]

theorem answers_grant (H : Bytes → Bytes) (k : Bytes) (tr : List (Ev D)) : (answers tr).flatMap (grantOf H k) = grants H k tr := by
  unfold answers grants
  rw [List.flatMap_assoc]
  refine List.flatMap_congr fun e _ => ?_
  cases e with
  | done i c st reply via =>
    cases via with
    | none => simp only [answer_grant]
    | some id => rfl
  | sent id by_ c => cases by_ <;> cases c <;> rfl
  | _ => rfl

theorem acts_grant (H : Bytes → Bytes) (k : Bytes) (A : List (Act D)) : (A.flatMap Act.answers).flatMap (grantOf H k) =
    A.flatMap (fun a => match a with
    | .result _ c st reply => grantOp H k c st reply
    | .finish _ c st reply none => grantOp H k c st reply
    | _ => []) := by
  rw [List.flatMap_assoc]
  refine List.flatMap_congr fun a _ => ?_
  cases a with
  | result i c st reply => simp only [Act.answers, answer_grant]
  | finish i c st reply via =>
    cases via with
    | none => simp only [Act.answers, answer_grant]
    | some id => rfl
  | _ => rfl

theorem answersQ_grant (H : Bytes → Bytes) (k : Bytes) : ∀ h : Quota.Hist D, ((answersQ h).flatMap (grantOf H k)).Perm (Quota.grantedOps H k h)
  | [] => List.Perm.refl _
  | ev :: h => by
    rw [answersQ_cons, List.flatMap_append]
    unfold Quota.grantedOps
    rw [List.flatMap_cons]
    refine List.perm_append_comm.trans ((List.Perm.of_eq ?_).append (answersQ_grant H k h))
    unfold Quota.grantedBy
    cases ev.call with
    | quota r =>
      simp only [ansQ, answer_grant]
      cases ev.out.response with
      | none => cases ev.out.status <;> rfl
      | some p => cases ev.out.status <;> simp [grantOp]
    | _ => rfl

theorem quotasIn_append (H : Bytes → Bytes) (k : Bytes) (a b : List (Call D)) : quotasIn H k (a ++ b) = quotasIn H k a ++ quotasIn H k b :=
  List.filterMap_append

theorem quotasIn_reqsQ (H : Bytes → Bytes) (k : Bytes) : ∀ h : Quota.Hist D, quotasIn H k ((reqsQ h).map .quota) = Quota.sentAll H k h
  | [] => rfl
  | ev :: h => by
    rw [reqsQ_cons, List.map_append, quotasIn_append, quotasIn_reqsQ H k h]
    show _ = Quota.sentAll H k h ++ _
    congr 1
    unfold Quota.sent
    induction ev.flushed with
    | nil => rfl
    | cons q qs ih =>
      show quotasIn H k (.quota q :: qs.map .quota) = _
      rw [List.filter_cons, ← ih]
      unfold quotasIn
      rw [List.filterMap_cons]
      by_cases hk : allocateQuotaSig H q = k <;> simp [hk]

theorem quotasIn_asked (H : Bytes → Bytes) (k : Bytes) (hc : Check.Hist D) (hq : Quota.Hist D) (hr : Report.Hist D) :
    quotasIn H k (asked hc hq hr) = Quota.sentAll H k hq := by
  unfold asked
  have h1 : ∀ l : List (ReportRequest D), quotasIn H k (l.map .report) = [] := by
    intro l; induction l with
    | nil => rfl
    | cons a l ih => exact ih
  have h2 : ∀ l : List (CheckRequest D), quotasIn H k (l.map .check) = [] := by
    intro l; induction l with
    | nil => rfl
    | cons a l ih => exact ih
  rw [quotasIn_append, quotasIn_append, h1, h2, quotasIn_reqsQ]; simp

theorem way_filterMap (A : List (Act D)) : A.flatMap Act.way =
    A.filterMap (fun a => match a with | .flush c => some c | .calling c => some c | _ => none) := by
  induction A with
  | nil => rfl
  | cons a A ih => rw [List.flatMap_cons, ih, List.filterMap_cons]; cases a <;> rfl

theorem countP_comps (H : Bytes → Bytes) (k : Bytes) (tr : List (Ev D)) :
    (compsOf tr).countP (fun x => decide (allocateQuotaSig H x.1 = k ∧ x.2.allocateErrors ≠ [])) = denials H k tr := by
  unfold denials compsOf
  induction tr with
  | nil => rfl
  | cons e tr ih =>
    rw [List.flatMap_cons, List.countP_append, ih, List.countP_cons]
    cases e with
    | completed id b c a =>
      cases c with
      | quota r => simp only [List.countP_cons, List.countP_nil]; omega
      | _ => simp
    | _ => simp

theorem countP_stores (H : Bytes → Bytes) (k : Bytes) (h : Quota.Hist D) :
    (storesQ h).countP (fun x => decide (allocateQuotaSig H x.1 = k ∧ x.2.allocateErrors ≠ [])) = Quota.refusals H k h := by
  unfold Quota.refusals storesQ
  induction h with
  | nil => rfl
  | cons ev h ih =>
    rw [List.flatMap_cons, List.countP_append, ih, List.countP_cons]
    unfold Quota.refuses
    cases ev.call with
    | cacheResponse r p => simp only [storeQ, List.countP_cons, List.countP_nil]; omega
    | _ => simp [storeQ]

section
variable [DoubleOps D] {K : Setup} {stops : Bool} {s s' : Sys D} {hc : Check.Hist D} {hq : Quota.Hist D} {hr : Report.Hist D}

theorem grants_perm (k : Bytes) (l : Links K hc hq hr s.acts s) :
    (grants K.cfgQ.H k s.c.trace ++ grantsSoon K.cfgQ.H k s).Perm (Quota.grantedOps K.cfgQ.H k hq) := by
  have h := l.ans.flatMap_right (grantOf K.cfgQ.H k)
  have h1 : (answersC hc).flatMap (grantOf K.cfgQ.H k) = [] := by
    unfold answersC
    rw [List.flatMap_assoc, List.flatMap_eq_nil_iff]
    intro ev _
    cases ev.call with
    | check r => simp only [ansC, answer_grant]; rfl
    | _ => rfl
  have h2 : (answersR hr).flatMap (grantOf K.cfgQ.H k) = [] := by
    unfold answersR
    rw [List.flatMap_assoc, List.flatMap_eq_nil_iff]
    intro ev _
    cases ev.call with
    | report r => simp only [ansR, answer_grant]; rfl
    | _ => rfl
  rw [List.flatMap_append, List.flatMap_append, List.flatMap_append, h1, h2, answers_grant, acts_grant, List.nil_append, List.append_nil] at h
  exact h.trans (answersQ_grant K.cfgQ.H k hq)

theorem quotas_perm (k : Bytes) (l : Links K hc hq hr s.acts s) :
    (flushedQuotas K.cfgQ.H k s.c.trace ++ carriedQuotas K.cfgQ.H k s ++ lostQuotas K.cfgQ.H k s).Perm (Quota.sentAll K.cfgQ.H k hq) := by
  have h : (quotasIn K.cfgQ.H k _).Perm (quotasIn K.cfgQ.H k _) := l.items.filterMap _
  rw [quotasIn_append, quotasIn_append, quotasIn_asked, way_filterMap] at h
  exact h

theorem refusals_le (k : Bytes) (l : Links K hc hq hr s.acts s) : Quota.refusals K.cfgQ.H k hq ≤ denials K.cfgQ.H k s.c.trace := by
  rw [← countP_stores, ← countP_comps, ← l.comps.countP_eq, List.countP_append]
  omega

/-- C106: under every schedule, for every signature, the quota operations answered positively from the cache, or about to be, are those of the
calls that made an entry, those passed on in the sums that were given to transports, are in the hands of a thread, or were dropped
during the destruction, those discarded, and those still held.  The other requests of the cache repeat one of a call.  Operations are
discarded at most once per negative response and once per entry. -/
theorem C106_ledger (r : Reach K stops s) (sane : SaneQ K) (hpos : 0 < K.cfgQ.numEntries) (hnc : NoQuotaCollision K.cfgQ.H s.c.trace) (k : Bytes) :
    ∃ (first again : List (AllocateQuotaRequest D)) (passed : List (List (QuotaOperation D) × AllocateQuotaRequest D))
      (discarded : List (List (QuotaOperation D))) (pend : List (QuotaOperation D)),
      (grants K.cfgQ.H k s.c.trace ++ grantsSoon K.cfgQ.H k s).Perm
        (first.map (·.op) ++ passed.flatMap (·.1) ++ discarded.flatten ++ pend) ∧
      (flushedQuotas K.cfgQ.H k s.c.trace ++ carriedQuotas K.cfgQ.H k s ++ lostQuotas K.cfgQ.H k s).Perm (first ++ again ++ passed.map (·.2)) ∧
      (∀ x ∈ passed, ∃ o, Quota.Sum K.envQ K.cfgQ x.1 o ∧ x.2 = ⟨K.cfgQ.serviceName, some o, K.cfgQ.serviceConfigId, []⟩) ∧
      (∀ q ∈ first, ∃ i, Ev.called i (.quota q) true ∈ s.c.trace) ∧
      (∀ q ∈ again, Repeats K.cfgQ.H k s.c.trace q) ∧
      (∀ x ∈ discarded, x ≠ []) ∧ discarded.length ≤ denials K.cfgQ.H k s.c.trace + first.length ∧
      match Quota.heldOf K.cfgQ k s.c.quota with
      | none => pend = []
      | some o => Quota.Sum K.envQ K.cfgQ pend o := by
  obtain ⟨hc, hq, hr, l⟩ := r.links
  have hnc' : Quota.NoCollision K.cfgQ.H hq := by
    intro q hq' q' hq'' he
    obtain ⟨i, h1⟩ := l.asks q hq'
    obtain ⟨j, h2⟩ := l.asks q' hq''
    exact hnc i q j q' h1 h2 he
  obtain ⟨items, pend, hl, hh⟩ := Quota.C46_conservation sane.1 sane.2 hpos l.q.reach hnc' k
  have hlost := Quota.losses_le sane.1 sane.2 hpos l.q.reach hnc' k
  have hsplit := Quota.granted_split sane.1 sane.2 hpos l.q.reach hnc' k
  have hden := refusals_le k l
  have hb := hl.lost
  refine ⟨items.flatMap (·.made), items.flatMap (fun i => match i with | .again _ q => [q] | _ => []),
    items.flatMap (fun i => match i with | .passed ops q => [(ops, q)] | _ => []),
    items.flatMap (fun i => match i with | .lost ops => [ops] | _ => []), pend, ?_, ?_, ?_, ?_, ?_, ?_, ?_, hh⟩
  · refine (grants_perm k l).trans (hsplit.trans ?_)
    rw [hl.ops, hl.first]
    clear hl hh hlost hsplit hb
    refine List.perm_append_comm.trans ?_
    rw [← List.append_assoc]
    refine List.Perm.append_right _ ?_
    rw [List.append_assoc]
    refine List.Perm.append_left _ ?_
    induction items with
    | nil => exact List.Perm.refl _
    | cons i items ih =>
      simp only [List.flatMap_cons, List.flatMap_append, List.flatten_append]
      cases i with
      | passed ops q => simpa [Quota.Item.ops] using ih.append_left ops
      | lost ops =>
        simp only [Quota.Item.ops, List.flatMap_nil, List.nil_append, List.flatten_cons, List.flatten_nil, List.append_nil]
        exact (ih.append_left ops).trans (List.perm_append_comm_assoc _ _ _)
      | first r => simpa [Quota.Item.ops] using ih
      | again r q => simpa [Quota.Item.ops] using ih
  · refine (quotas_perm k l).trans ?_
    rw [hl.sent]
    clear hl hh hlost hsplit hb
    induction items with
    | nil => exact List.Perm.refl _
    | cons i items ih =>
      simp only [List.flatMap_cons, List.map_append]
      cases i with
      | passed ops q =>
        simp only [Quota.Item.sent, Quota.Item.made, List.nil_append, List.map_cons, List.map_nil, List.cons_append]
        exact (ih.cons q).trans List.perm_middle.symm
      | lost ops => simpa [Quota.Item.sent, Quota.Item.made] using ih
      | first r => simpa [Quota.Item.sent, Quota.Item.made] using ih
      | again r q =>
        simp only [Quota.Item.sent, Quota.Item.made, List.nil_append, List.map_nil, List.cons_append, List.append_assoc]
        refine (ih.cons q).trans ?_
        rw [List.append_assoc]
        exact List.perm_middle.symm
  · intro x hx
    obtain ⟨i, hi, hx⟩ := List.mem_flatMap.mp hx
    have hok := hl.ok i hi
    cases i with
    | passed ops q => rw [List.mem_singleton] at hx; subst hx; exact hok
    | _ => cases hx
  · intro x hx
    obtain ⟨i, hi, hx⟩ := List.mem_flatMap.mp hx
    have hok := hl.ok i hi
    cases i with
    | first r => rw [Quota.Item.made, List.mem_singleton] at hx; subst hx; exact l.asks _ hok.1
    | _ => cases hx
  · intro x hx
    obtain ⟨i, hi, hx⟩ := List.mem_flatMap.mp hx
    have hok := hl.ok i hi
    cases i with
    | again r q =>
      rw [List.mem_singleton] at hx; subst hx
      obtain ⟨j, h1⟩ := l.asks _ hok.1
      exact ⟨j, r, h1, hok.2⟩
    | _ => cases hx
  · intro x hx
    obtain ⟨i, hi, hx⟩ := List.mem_flatMap.mp hx
    have hok := hl.ok i hi
    cases i with
    | lost ops => rw [List.mem_singleton] at hx; subst hx; exact hok
    | _ => cases hx
  · have e1 : (items.flatMap (fun i => match i with | .lost ops => [ops] | _ => [])).length = (items.filter (·.isLost)).length := by
      clear hl hh hlost hsplit hb
      induction items with
      | nil => rfl
      | cons i items ih => rw [List.flatMap_cons, List.length_append, ih, List.filter_cons]; cases i <;> simp [Quota.Item.isLost] <;> omega
    rw [e1]
    have e2 := congrArg List.length hl.first
    omega

theorem amount_perm {a b : List (QuotaOperation D)} (h : a.Perm b) (n : Bytes) : Quota.amount a n = Quota.amount b n := by
  unfold Quota.amount quotaReported
  exact List.Perm.sum_eq (M := Int) ((h.flatMap_right _).flatMap_right _ |>.map intOf)

theorem amount_flatten (n : Bytes) : ∀ l : List (List (QuotaOperation D)), Quota.amount l.flatten n = (l.map (Quota.amount · n)).sum
  | [] => rfl
  | a :: l => by rw [List.flatten_cons, Quota.amount_append, amount_flatten n l, List.map_cons, List.sum_cons]

/-- C106: under every schedule, when the quota calls ask for integer amounts, the tokens of every metric granted from the cache for a
signature, or about to be, and those of the requests the cache repeated, are those of the requests given to transports, in the hands
of a thread or dropped, those discarded, and those still held. -/
theorem C106_tokens (r : Reach K stops s) (sane : SaneQ K) (hpos : 0 < K.cfgQ.numEntries) (hnc : NoQuotaCollision K.cfgQ.H s.c.trace) (k : Bytes)
    (hint : ∀ o ∈ grants K.cfgQ.H k s.c.trace ++ grantsSoon K.cfgQ.H k s, ∀ n, ∀ v ∈ quotaReported [o] n, IsInt v) :
    ∃ (again : List (AllocateQuotaRequest D)) (discarded : List (List (QuotaOperation D))) (first : List (AllocateQuotaRequest D)),
      (∀ q ∈ again, Repeats K.cfgQ.H k s.c.trace q) ∧
      (again ++ first).Subperm (flushedQuotas K.cfgQ.H k s.c.trace ++ carriedQuotas K.cfgQ.H k s ++ lostQuotas K.cfgQ.H k s) ∧
      (∀ q ∈ first, ∃ i, Ev.called i (.quota q) true ∈ s.c.trace) ∧
      discarded.flatten.Subperm (grants K.cfgQ.H k s.c.trace ++ grantsSoon K.cfgQ.H k s) ∧
      discarded.length ≤ denials K.cfgQ.H k s.c.trace + first.length ∧
      ∀ n, Quota.amount (grants K.cfgQ.H k s.c.trace ++ grantsSoon K.cfgQ.H k s) n + Quota.amount (again.map (·.op)) n =
        Quota.amount ((flushedQuotas K.cfgQ.H k s.c.trace ++ carriedQuotas K.cfgQ.H k s ++ lostQuotas K.cfgQ.H k s).map (·.op)) n +
          Quota.amount discarded.flatten n +
          match Quota.heldOf K.cfgQ k s.c.quota with
          | none => 0
          | some o => Quota.amount [o] n := by
  obtain ⟨first, again, passed, discarded, pend, h1, h2, h3, h4, h5, _, h7, h8⟩ := C106_ledger r sane hpos hnc k
  have hsub : ∀ ops : List (QuotaOperation D), (∀ o ∈ ops, o ∈ first.map (·.op) ++ passed.flatMap (·.1) ++ discarded.flatten ++ pend) →
      ∀ n, ∀ v ∈ quotaReported ops n, IsInt v := by
    intro ops hops n v hv
    simp only [quotaReported, List.mem_flatMap] at hv
    obtain ⟨s, ⟨o, ho, hs⟩, hv⟩ := hv
    exact hint o (h1.mem_iff.mpr (hops o ho)) n v (by simp only [quotaReported, List.mem_flatMap]; exact ⟨s, ⟨o, by simp, hs⟩, hv⟩)
  refine ⟨again, discarded, first, h5, ?_, h4, ?_, h7, fun n => ?_⟩
  · refine (List.Perm.subperm ?_).trans ((List.sublist_append_left (first ++ again) (passed.map (·.2))).subperm.trans h2.symm.subperm)
    exact List.perm_append_comm
  · refine List.Subperm.trans ?_ h1.symm.subperm
    exact ((List.sublist_append_right _ _).trans (List.sublist_append_left _ _)).subperm
  · have hp : Quota.amount (passed.flatMap (·.1)) n = Quota.amount ((passed.map (·.2)).map (·.op)) n := by
      have : ∀ L : List (List (QuotaOperation D) × AllocateQuotaRequest D), (∀ x ∈ L, x ∈ passed) →
          Quota.amount (L.flatMap (·.1)) n = Quota.amount ((L.map (·.2)).map (·.op)) n := by
        intro L
        induction L with
        | nil => intro _; rfl
        | cons x L ih =>
          intro hL
          rw [List.flatMap_cons, Quota.amount_append, ih (fun y hy => hL y (by simp [hy])), List.map_cons, List.map_cons,
            show x.2.op :: (L.map (·.2)).map (·.op) = [x.2.op] ++ (L.map (·.2)).map (·.op) from rfl, Quota.amount_append]
          congr 1
          have hx := hL x (by simp)
          obtain ⟨o, ho, hq⟩ := h3 x hx
          rw [hq]
          refine (ho.amount (hsub x.1 (fun o ho => ?_)) n).symm
          refine List.mem_append_left _ (List.mem_append_left _ (List.mem_append_right _ ?_))
          exact List.mem_flatMap.mpr ⟨x, hx, ho⟩
      exact this passed (fun _ h => h)
    have hh : Quota.amount pend n = match Quota.heldOf K.cfgQ k s.c.quota with
        | none => 0
        | some o => Quota.amount [o] n := by
      cases hho : Quota.heldOf K.cfgQ k s.c.quota with
      | none => rw [hho] at h8; simp only at h8; subst h8; rfl
      | some o =>
        rw [hho] at h8
        exact (Quota.Sum.amount h8 (hsub pend (fun o ho => List.mem_append_right _ ho)) n).symm
    rw [← hh, amount_perm h1 n, amount_perm (h2.map (·.op)) n, List.map_append, List.map_append]
    simp only [Quota.amount_append]
    rw [hp]
    omega

end

section examples

/-- The quota requests of the calls. -/
def askedQuotas (tr : List (Ev D)) : List (AllocateQuotaRequest D) :=
  tr.filterMap (fun e => match e with | .called _ (.quota r) true => some r | _ => none)

theorem noCollision_of {H : Bytes → Bytes} {tr : List (Ev D)} (h : ∀ r ∈ askedQuotas tr, ∀ r' ∈ askedQuotas tr,
    allocateQuotaSig H r = allocateQuotaSig H r' → SameQuotaIdentity r.op r'.op) : NoQuotaCollision H tr := by
  intro i r j r' h1 h2
  exact h r (List.mem_filterMap.mpr ⟨_, h1, rfl⟩) r' (List.mem_filterMap.mpr ⟨_, h2, rfl⟩)

def exSigQ : Bytes := allocateQuotaSig exK.cfgQ.H (Quota.exQ 1 5)

/-- The timer calls its function. -/
def fireTimes (n : Nat) : List (Move Int) := (List.range n).flatMap fun _ => .fire 0 :: steps 0 4

/-- Two requests for quota of one signature are granted from the cache; the first was given to the transport, which granted it. -/
def exGranted : List (Move Int) :=
  [.spawn, .spawn, .call 0 (exQuota 1 5) .default] ++ steps 0 10 ++ [.complete 1 0 exOk] ++ steps 1 2 ++
    [.call 1 (exQuota 1 6) .default] ++ steps 1 5

/-- A request of another signature is given to the transport, which grants it when the entry of the first is old. -/
def exGrantedOther : List (Move Int) := exGranted ++ [.call 1 (exQuota 2 6) .default] ++ steps 1 10 ++ fireTimes 6 ++ [.complete 1 1 exOk, .work 1]

/-- C106: 5 and 6 tokens are granted, 5 are given to the transport and 6 are held; later they are given to the transport.  The
hypotheses are met. -/
example : ∃ s s' : Sys Int, Reach exK true s ∧ Reach exK true s' ∧ SaneQ exK ∧ 0 < exK.cfgQ.numEntries ∧ NoQuotaCollision exK.cfgQ.H s.c.trace ∧
    NoQuotaCollision exK.cfgQ.H s'.c.trace ∧
    (grants exK.cfgQ.H exSigQ s.c.trace).map (fun o => Quota.amount [o] [9]) = [5, 6] ∧
    (grants exK.cfgQ.H exSigQ s'.c.trace).map (fun o => Quota.amount [o] [9]) = [5, 6] ∧
    (flushedQuotas exK.cfgQ.H exSigQ s.c.trace).map (fun q => Quota.amount [q.op] [9]) = [5] ∧
    (Quota.heldOf exK.cfgQ exSigQ s.c.quota).map (fun o => Quota.amount [o] [9]) = some 6 ∧
    (flushedQuotas exK.cfgQ.H exSigQ s'.c.trace).map (fun q => Quota.amount [q.op] [9]) = [5, 6] ∧
    (Quota.heldOf exK.cfgQ exSigQ s'.c.quota).isNone := by
  obtain ⟨s, r, h0, h1, h2, h3⟩ := schedule_case (K := exK) (stops := true) exGranted
    (fun s => askedQuotas s.c.trace = [Quota.exQ 1 5, Quota.exQ 1 6] ∧
      (grants exK.cfgQ.H exSigQ s.c.trace).map (fun o => Quota.amount [o] [9]) = [5, 6] ∧
      (flushedQuotas exK.cfgQ.H exSigQ s.c.trace).map (fun q => Quota.amount [q.op] [9]) = [5] ∧
      (Quota.heldOf exK.cfgQ exSigQ s.c.quota).map (fun o => Quota.amount [o] [9]) = some 6) (by decide +kernel)
  obtain ⟨s', r', k0, k1, k2, k3⟩ := schedule_case (K := exK) (stops := true) (exGranted ++ fireTimes 10)
    (fun s => askedQuotas s.c.trace = [Quota.exQ 1 5, Quota.exQ 1 6] ∧
      (grants exK.cfgQ.H exSigQ s.c.trace).map (fun o => Quota.amount [o] [9]) = [5, 6] ∧
      (flushedQuotas exK.cfgQ.H exSigQ s.c.trace).map (fun q => Quota.amount [q.op] [9]) = [5, 6] ∧
      (Quota.heldOf exK.cfgQ exSigQ s.c.quota).isNone) (by decide +kernel)
  have hnc : ∀ tr : List (Ev Int), askedQuotas tr = [Quota.exQ 1 5, Quota.exQ 1 6] → NoQuotaCollision exK.cfgQ.H tr := by
    intro tr h
    refine noCollision_of fun r hr r' hr' _ => ?_
    rw [h] at hr hr'
    simp only [List.mem_cons, List.not_mem_nil, or_false] at hr hr'
    rcases hr with rfl | rfl <;> rcases hr' with rfl | rfl <;> exact ⟨rfl, rfl, fun _ => Iff.rfl⟩
  exact ⟨s, s', r, r', ⟨Quota.exEnv_mono, by decide⟩, by decide, hnc _ h0, hnc _ k0, h1, k1, h2, h3, k2, k3⟩

/-- Granted tokens that are not reported: the destructor discards what the cache holds; 6 of 11 granted tokens are given to nobody,
though no response was negative. -/
theorem C106_false_destroyed : ∃ s : Sys Int, Reach exK true s ∧ Ev.destroyed ∈ s.c.trace ∧ Quiet s ∧ denials exK.cfgQ.H exSigQ s.c.trace = 0 ∧
    (grants exK.cfgQ.H exSigQ s.c.trace).map (fun o => Quota.amount [o] [9]) = [5, 6] ∧
    (flushedQuotas exK.cfgQ.H exSigQ s.c.trace).map (fun q => Quota.amount [q.op] [9]) = [5] ∧ s.dropped = [] := by
  obtain ⟨s, r, h1, h2, h3⟩ := schedule_case (K := exK) (stops := true) (exGranted ++ [.destroy 0] ++ steps 0 9)
    (fun s => Ev.destroyed ∈ s.c.trace ∧ s.threads = [[], []] ∧ denials exK.cfgQ.H exSigQ s.c.trace = 0 ∧
      (grants exK.cfgQ.H exSigQ s.c.trace).map (fun o => Quota.amount [o] [9]) = [5, 6] ∧
      (flushedQuotas exK.cfgQ.H exSigQ s.c.trace).map (fun q => Quota.amount [q.op] [9]) = [5] ∧ s.dropped = []) (by decide +kernel)
  refine ⟨s, r, h1, ?_, h3⟩
  intro t ht
  rw [h2] at ht
  simpa using ht

/-- Granted tokens that are not reported: the completion of another quota request has taken the sum out of the cache, the client is
destroyed meanwhile, and the sum is given to nobody. -/
theorem C106_false_dropped : ∃ s : Sys Int, Reach exK true s ∧ Ev.destroyed ∈ s.c.trace ∧ denials exK.cfgQ.H exSigQ s.c.trace = 0 ∧
    (grants exK.cfgQ.H exSigQ s.c.trace).map (fun o => Quota.amount [o] [9]) = [5, 6] ∧
    (flushedQuotas exK.cfgQ.H exSigQ s.c.trace).map (fun q => Quota.amount [q.op] [9]) = [5] ∧
    (lostQuotas exK.cfgQ.H exSigQ s).map (fun q => Quota.amount [q.op] [9]) = [6] :=
  schedule_case (K := exK) (stops := true) (exGrantedOther ++ [.destroy 0] ++ steps 0 9 ++ steps 1 2) _ (by decide +kernel)

/-- C106: a negative response makes the cache discard what it holds. -/
example : ∃ s : Sys Int, Reach exK true s ∧ denials exK.cfgQ.H exSigQ s.c.trace = 1 ∧
    (grants exK.cfgQ.H exSigQ s.c.trace).map (fun o => Quota.amount [o] [9]) = [5, 6] ∧
    (flushedQuotas exK.cfgQ.H exSigQ s.c.trace).map (fun q => Quota.amount [q.op] [9]) = [5] ∧
    (Quota.heldOf exK.cfgQ exSigQ s.c.quota).isNone :=
  schedule_case (K := exK) (stops := true)
    ([.spawn, .spawn, .call 0 (exQuota 1 5) .default] ++ steps 0 10 ++ [.call 1 (exQuota 1 6) .default] ++ steps 1 5 ++
      [.complete 1 0 ⟨.ok, Check.exNo, Quota.exNo⟩] ++ steps 1 2) _ (by decide +kernel)

end examples
end Verif.Threads
