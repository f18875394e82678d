import Verif.Spec.Client
import Mathlib.Data.List.Count
import Mathlib.Data.List.Nodup
/-
The bookkeeping of the client: counters, outstanding transport calls and heap objects, related to the
trace.  The invariant has parameters for work in progress: the call being answered, the heap objects
held by the running callback and the counters not incremented yet.
-/
set_option linter.unusedSectionVars false
namespace Verif.Client
variable {D : Type}

/-! ### Statistics -/

def Stats.add (a b : Stats) : Stats :=
  ⟨a.totalChecks + b.totalChecks, a.checksByFlush + b.checksByFlush, a.checksInFlight + b.checksInFlight,
   a.totalQuotas + b.totalQuotas, a.quotasByFlush + b.quotasByFlush, a.quotasInFlight + b.quotasInFlight,
   a.totalReports + b.totalReports, a.reportsByFlush + b.reportsByFlush, a.reportsInFlight + b.reportsInFlight,
   a.reportOperations + b.reportOperations⟩

theorem Stats.add_zero (a : Stats) : a.add .zero = a := rfl

theorem Stats.zero_add (a : Stats) : Stats.add .zero a = a := by
  simp [Stats.add, Stats.zero]

theorem Stats.add_assoc (a b c : Stats) : (a.add b).add c = a.add (b.add c) := by
  simp [Stats.add, Nat.add_assoc]

theorem Stats.add_comm (a b : Stats) : a.add b = b.add a := by
  simp [Stats.add, Nat.add_comm]

theorem Stats.ofTrace_append (a b : List (Ev D)) : Stats.ofTrace (a ++ b) = (Stats.ofTrace a).add (Stats.ofTrace b) := by
  simp [Stats.ofTrace, Stats.add, List.countP_append]

/-! ### Outstanding transport calls -/

def sentList (tr : List (Ev D)) : List (Nat × Option Nat × Call D) :=
  tr.filterMap (fun e => match e with | .sent id b c => some (id, b, c) | _ => none)

theorem outstanding_eq (tr : List (Ev D)) :
    outstanding tr = (sentList tr).filter (fun x => !(tr.filterMap Ev.completedId).contains x.1) := rfl

theorem outstanding_other (tr : List (Ev D)) (e : Ev D) (h1 : e.sentId = none) (h2 : e.completedId = none) :
    outstanding (tr ++ [e]) = outstanding tr := by
  have h3 : sentList (tr ++ [e]) = sentList tr := by
    cases e <;> simp_all [sentList, Ev.sentId]
  have h4 : (tr ++ [e]).filterMap Ev.completedId = tr.filterMap Ev.completedId := by
    simp [List.filterMap_append, h2]
  rw [outstanding_eq, outstanding_eq, h3, h4]

theorem outstanding_sent (tr : List (Ev D)) (id : Nat) (b : Option Nat) (c : Call D)
    (h : id ∉ tr.filterMap Ev.completedId) : outstanding (tr ++ [.sent id b c]) = outstanding tr ++ [(id, b, c)] := by
  have h3 : sentList (tr ++ [.sent id b c]) = sentList tr ++ [(id, b, c)] := by simp [sentList]
  have h4 : (tr ++ [Ev.sent id b c]).filterMap Ev.completedId = tr.filterMap Ev.completedId := by
    simp [List.filterMap_append, Ev.completedId]
  rw [outstanding_eq, outstanding_eq, h3, h4, List.filter_append]
  simp only [List.filter_cons, List.filter_nil]
  rw [if_pos (by simpa using h)]

theorem outstanding_completed (tr : List (Ev D)) (id : Nat) (b : Option Nat) (c : Call D) (a : Answer) :
    outstanding (tr ++ [.completed id b c a]) = (outstanding tr).filter (fun x => x.1 != id) := by
  have h3 : sentList (tr ++ [.completed id b c a]) = sentList tr := by simp [sentList]
  have h4 : (tr ++ [Ev.completed id b c a]).filterMap Ev.completedId = tr.filterMap Ev.completedId ++ [id] := by
    simp [List.filterMap_append, Ev.completedId]
  rw [outstanding_eq, outstanding_eq, h3, h4, List.filter_filter]
  refine List.filter_congr (fun x _ => ?_)
  rw [Bool.eq_iff_iff]
  simp only [Bool.not_eq_true', List.contains_eq_mem, decide_eq_false_iff_not, List.mem_append, List.mem_singleton,
    Bool.and_eq_true, bne_iff_ne, ne_eq, not_or]
  tauto

/-! ### The invariant -/

/-- The call being worked on: its number, the call, and the completion it is answered with. -/
abbrev Open (D : Type) := Option (Nat × Call D × Option (Nat × Answer))

def openAt (i : Nat) : Open D → Nat
  | some (j, _, _) => if j = i then 1 else 0
  | none => 0

def unsentAt (i : Nat) : Open D → Nat
  | some (j, _, none) => if j = i then 1 else 0
  | _ => 0

/-- 1 for the calls made so far. -/
def issued (i n : Nat) : Nat := if i < n then 1 else 0

structure Books (o : Open D) (own : List Nat) (owed : Stats) (s : Client D) : Prop where
  called : s.trace.filterMap Ev.calledNo = List.range s.calls
  sentIds : s.trace.filterMap Ev.sentId = List.range s.sends
  compl : (s.trace.filterMap Ev.completedId).Nodup
  pend : s.pend.map (fun p => (p.id, p.by_, p.req)) = outstanding s.trace
  account : ∀ i, dones i s.trace + outstandingFor i s.trace + openAt i o = issued i s.calls
  sendsA : ∀ i, sends i s.trace + locals i s.trace + unsentAt i o = issued i s.calls
  byOk : ∀ id i c, Ev.sent id (some i) c ∈ s.trace → ∃ b, Ev.called i c b ∈ s.trace
  openOk : ∀ i c v, o = some (i, c, v) → (∃ b, Ev.called i c b ∈ s.trace) ∧
    ∀ id a, v = some (id, a) → Ev.completed id (some i) c a ∈ s.trace
  doneOk : ∀ i c st r via, Ev.done i c st r via ∈ s.trace → (∃ b, Ev.called i c b ∈ s.trace) ∧
    ∀ id, via = some id → ∃ a, Ev.completed id (some i) c a ∈ s.trace ∧ a.status = st ∧ r = replyOf c a
  complOk : ∀ id b c a, Ev.completed id b c a ∈ s.trace → Ev.sent id b c ∈ s.trace
  heap : s.heap.Perm (own ++ s.pend.flatMap (·.own))
  nodup : s.heap.Nodup
  fresh : ∀ p ∈ s.heap, p < s.nextAddr
  stats : s.stats.add owed = Stats.ofTrace s.trace
  repOwn : ∀ p ∈ s.pend, ∀ i r, p.by_ = some i → p.req = .report r → p.own = []

section
variable {o : Open D} {own : List Nat} {owed : Stats} {s : Client D}

theorem Books.new {K : Setup} [DoubleOps D] (h : new K = .ok s) : Books none [] .zero s := by
  unfold Client.new at h
  cases h1 : Check.new (D := D) K.envC K.cfgC <;> simp only [h1, bind, Except.bind, reduceCtorEq] at h
  cases h2 : Quota.new (D := D) K.envQ K.cfgQ (K.depth + 1) <;> simp only [h2, reduceCtorEq] at h
  cases h3 : Report.new (D := D) K.envR K.cfgR <;> simp only [h3, reduceCtorEq] at h
  cases h
  constructor <;> simp [outstanding, dones, outstandingFor, openAt, sends, locals, unsentAt, issued, Stats.ofTrace, Stats.zero, Stats.add]

/-- Completed calls were made. -/
theorem Books.id_lt (b : Books o own owed s) : ∀ id ∈ s.trace.filterMap Ev.completedId, id < s.sends := by
  intro id hid
  obtain ⟨e, he, h1⟩ := List.mem_filterMap.mp hid
  cases e <;> simp only [Ev.completedId, reduceCtorEq, Option.some.injEq] at h1
  subst h1
  have h2 := b.complOk _ _ _ _ he
  have h3 : _ ∈ s.trace.filterMap Ev.sentId := List.mem_filterMap.mpr ⟨_, h2, rfl⟩
  rw [b.sentIds] at h3
  exact List.mem_range.mp h3

/-- A change of the parts of the state the books do not concern. -/
theorem Books.congr (b : Books o own owed s) {s' : Client D} (h1 : s'.trace = s.trace) (h2 : s'.calls = s.calls)
    (h3 : s'.sends = s.sends) (h4 : s'.pend = s.pend) (h5 : s'.heap = s.heap) (h6 : s'.nextAddr = s.nextAddr)
    (h7 : s'.stats = s.stats) : Books o own owed s' := by
  constructor
  all_goals (try rw [h1]); (try rw [h2]); (try rw [h3]); (try rw [h4]); (try rw [h5]); (try rw [h6]); (try rw [h7])
  · exact b.called
  · exact b.sentIds
  · exact b.compl
  · exact b.pend
  · exact b.account
  · exact b.sendsA
  · exact b.byOk
  · exact b.openOk
  · exact b.doneOk
  · exact b.complOk
  · exact b.heap
  · exact b.nodup
  · exact b.fresh
  · exact b.stats
  · exact b.repOwn

theorem Books.pay {x : Stats} (b : Books o own (owed.add x) s) : Books o own owed { s with stats := s.stats.add x } :=
  ⟨b.called, b.sentIds, b.compl, b.pend, b.account, b.sendsA, b.byOk, b.openOk, b.doneOk, b.complOk, b.heap, b.nodup, b.fresh, by
    have := b.stats
    rw [Stats.add_comm owed x, ← Stats.add_assoc] at this
    exact this, b.repOwn⟩

theorem Books.alloc (b : Books o own owed s) : Books o (own ++ [s.nextAddr]) owed s.alloc.2 := by
  refine ⟨b.called, b.sentIds, b.compl, b.pend, b.account, b.sendsA, b.byOk, b.openOk, b.doneOk, b.complOk, ?_, ?_, ?_, b.stats, b.repOwn⟩
  · show (s.heap ++ [s.nextAddr]).Perm _
    refine (b.heap.append_right _).trans ?_
    rw [List.append_assoc, List.append_assoc]
    exact List.Perm.append_left _ List.perm_append_comm
  · show (s.heap ++ [s.nextAddr]).Nodup
    rw [List.nodup_append]
    refine ⟨b.nodup, by simp, ?_⟩
    intro a ha c hc
    rw [List.mem_singleton] at hc
    have := b.fresh a ha
    omega
  · intro p hp
    show p < s.nextAddr + 1
    rcases List.mem_append.mp hp with hp | hp
    · have := b.fresh p hp; omega
    · rw [List.mem_singleton] at hp; omega

theorem Books.free (b : Books o own owed s) {p : Nat} (hp : p ∈ own) :
    ∃ s', s.free p = .ok s' ∧ s' = { s with heap := s.heap.erase p } ∧ Books o (own.erase p) owed s' := by
  have hm : p ∈ s.heap := b.heap.mem_iff.mpr (List.mem_append_left _ hp)
  refine ⟨_, by unfold Client.free; rw [if_pos hm], rfl, ?_⟩
  refine ⟨b.called, b.sentIds, b.compl, b.pend, b.account, b.sendsA, b.byOk, b.openOk, b.doneOk, b.complOk, ?_, ?_, ?_, b.stats, b.repOwn⟩
  · show (s.heap.erase p).Perm _
    refine (b.heap.erase p).trans ?_
    rw [List.erase_append_left _ hp]
  · exact b.nodup.erase p
  · exact fun q hq => b.fresh q (List.mem_of_mem_erase hq)

theorem Books.freeAll : ∀ (ps : List Nat) {own : List Nat} {s : Client D}, Books o (ps ++ own) owed s →
    ∃ s', s.freeAll ps = .ok s' ∧ Books o own owed s' ∧ s' = { s with heap := s'.heap }
  | [], _, s, b => ⟨s, rfl, b, rfl⟩
  | p :: ps, own, s, b => by
    obtain ⟨s1, h1, h2, b1⟩ := b.free (p := p) (by simp)
    rw [List.cons_append, List.erase_cons_head] at b1
    obtain ⟨s2, h3, b2, h4⟩ := Books.freeAll ps b1
    refine ⟨s2, ?_, b2, ?_⟩
    · unfold Client.freeAll at h3 ⊢
      rw [List.foldlM_cons, h1]
      exact h3
    · rw [h4, h2]

theorem Books.touch (b : Books o own owed s) {ps : List Nat} (h : ∀ p ∈ ps, p ∈ own) : s.touch ps = .ok () := by
  unfold Client.touch
  rw [if_pos]
  simp only [List.all_eq_true, decide_eq_true_eq]
  exact fun p hp => b.heap.mem_iff.mpr (List.mem_append_left _ (h p hp))

theorem outstandingFor_sent (tr : List (Ev D)) (id : Nat) (by_ : Option Nat) (c : Call D)
    (h : id ∉ tr.filterMap Ev.completedId) (i : Nat) :
    outstandingFor i (tr ++ [.sent id by_ c]) = outstandingFor i tr + if by_ = some i then 1 else 0 := by
  unfold outstandingFor
  rw [outstanding_sent _ _ _ _ h, List.countP_append]
  congr 1
  simp [List.countP_cons]

/-- The call of a transport: by a flush callback, or for the call being worked on. -/
theorem Books.send (b : Books o own owed s) (by_ : Option Nat) (c : Call D) (ps : List Nat)
    {own' : List Nat} (hown : own.Perm (ps ++ own')) {o' : Open D}
    (ho : by_ = none ∧ o' = o ∨ ∃ i, by_ = some i ∧ o = some (i, c, none) ∧ o' = none)
    (hps : ∀ i r, by_ = some i → c = .report r → ps = []) :
    Books o' own' (owed.add (Stats.ofTrace [Ev.sent s.sends by_ c])) (s.send by_ c ps) := by
  have hid : s.sends ∉ s.trace.filterMap Ev.completedId := fun h => by have := b.id_lt _ h; omega
  refine ⟨?_, ?_, ?_, ?_, ?_, ?_, ?_, ?_, ?_, ?_, ?_, b.nodup, b.fresh, ?_, ?_⟩
  · simp only [Client.send, Client.log, List.filterMap_append, b.called]
    simp [Ev.calledNo]
  · simp only [Client.send, Client.log, List.filterMap_append, b.sentIds, List.range_succ]
    simp [Ev.sentId]
  · simp only [Client.send, Client.log, List.filterMap_append]
    rw [List.filterMap_cons_none (by rfl)]
    simpa using b.compl
  · simp only [Client.send, Client.log, List.map_append, b.pend]
    rw [outstanding_sent _ _ _ _ hid]
    rfl
  · intro i
    have h0 := b.account i
    simp only [Client.send, Client.log]
    rw [outstandingFor_sent _ _ _ _ hid]
    have hd : dones i (s.trace ++ [Ev.sent s.sends by_ c]) = dones i s.trace := by simp [dones, List.countP_append, Ev.doneNo]
    rw [hd]
    rcases ho with ⟨rfl, rfl⟩ | ⟨j, rfl, rfl, rfl⟩
    · exact h0
    · simp only [openAt] at h0 ⊢
      simp only [Option.some.injEq]
      rw [← h0]; omega
  · intro i
    have h0 := b.sendsA i
    simp only [Client.send, Client.log]
    have hd : locals i (s.trace ++ [Ev.sent s.sends by_ c]) = locals i s.trace := by simp [locals, List.countP_append, Ev.localNo]
    have hs : sends i (s.trace ++ [Ev.sent s.sends by_ c]) = sends i s.trace + if by_ = some i then 1 else 0 := by
      simp [sends, List.countP_append, Ev.sentFor, List.countP_cons]
    rw [hd, hs]
    rcases ho with ⟨rfl, rfl⟩ | ⟨j, rfl, rfl, rfl⟩
    · exact h0
    · simp only [unsentAt] at h0 ⊢
      simp only [Option.some.injEq]
      rw [← h0]; omega
  · intro id i c' hm
    simp only [Client.send, Client.log, List.mem_append, List.mem_singleton] at hm ⊢
    rcases hm with hm | hm
    · obtain ⟨t, ht⟩ := b.byOk id i c' hm; exact ⟨t, .inl ht⟩
    · cases hm
      rcases ho with ⟨h, _⟩ | ⟨j, h, h2, _⟩
      · cases h
      · cases h
        obtain ⟨t, ht⟩ := (b.openOk i c none h2).1
        exact ⟨t, .inl ht⟩
  · intro i c' v hv
    simp only [Client.send, Client.log, List.mem_append, List.mem_singleton, reduceCtorEq, or_false]
    rcases ho with ⟨_, rfl⟩ | ⟨j, _, _, rfl⟩
    · exact b.openOk i c' v hv
    · cases hv
  · intro i c' st r via hm
    simp only [Client.send, Client.log, List.mem_append, List.mem_singleton, reduceCtorEq, or_false] at hm ⊢
    exact b.doneOk i c' st r via hm
  · intro id bb c' a hm
    simp only [Client.send, Client.log, List.mem_append, List.mem_singleton, reduceCtorEq, or_false] at hm ⊢
    exact .inl (b.complOk id bb c' a hm)
  · show s.heap.Perm (own' ++ (s.pend ++ [(⟨s.sends, by_, c, ps⟩ : Pend D)]).flatMap (·.own))
    rw [List.flatMap_append]
    simp only [List.flatMap_cons, List.flatMap_nil, List.append_nil]
    refine b.heap.trans ((hown.append_right _).trans ?_)
    rw [List.append_assoc]
    refine List.perm_append_comm.trans ?_
    rw [List.append_assoc]
  · simp only [Client.send, Client.log]
    rw [Stats.ofTrace_append, ← b.stats, Stats.add_assoc]
  · intro p hp
    simp only [Client.send, Client.log, List.mem_append, List.mem_singleton] at hp
    rcases hp with hp | rfl
    · exact b.repOwn p hp
    · exact hps

theorem mem_outstanding {tr : List (Ev D)} {x : Nat × Option Nat × Call D} (h : x ∈ outstanding tr) :
    Ev.sent x.1 x.2.1 x.2.2 ∈ tr ∧ x.1 ∉ tr.filterMap Ev.completedId := by
  rw [outstanding_eq] at h
  obtain ⟨h1, h2⟩ := List.mem_filter.mp h
  refine ⟨?_, by simpa using h2⟩
  obtain ⟨e, he, h3⟩ := List.mem_filterMap.mp h1
  cases e <;> simp only [reduceCtorEq, Option.some.injEq] at h3
  subst h3
  exact he

theorem sentIds_sentList (tr : List (Ev D)) : (sentList tr).map (·.1) = tr.filterMap Ev.sentId := by
  unfold sentList
  rw [List.map_filterMap]
  congr 1
  funext e
  cases e <;> rfl

theorem outstanding_nodup (b : Books o own owed s) : ((outstanding s.trace).map (·.1)).Nodup := by
  rw [outstanding_eq]
  refine List.Nodup.sublist (List.Sublist.map _ List.filter_sublist) ?_
  rw [sentIds_sentList, b.sentIds]
  exact List.nodup_range

theorem countP_filter_ne {tr : List (Nat × Option Nat × Call D)} (hn : (tr.map (·.1)).Nodup) {x : Nat × Option Nat × Call D}
    (hx : x ∈ tr) (P : Nat × Option Nat × Call D → Bool) :
    (tr.filter (fun y => y.1 != x.1)).countP P + (if P x then 1 else 0) = tr.countP P := by
  induction tr with
  | nil => cases hx
  | cons y tr ih =>
    rw [List.map_cons, List.nodup_cons] at hn
    rcases List.mem_cons.mp hx with rfl | hx
    · have : tr.filter (fun y => y.1 != x.1) = tr := by
        rw [List.filter_eq_self]
        intro z hz
        simp only [bne_iff_ne, ne_eq]
        intro h
        exact hn.1 (h ▸ List.mem_map_of_mem hz)
      rw [List.filter_cons, if_neg (by simp), this, List.countP_cons]
    · have hne : y.1 ≠ x.1 := by
        intro h
        exact hn.1 (h ▸ List.mem_map_of_mem hx)
      rw [List.filter_cons, if_pos (by simpa using hne), List.countP_cons, List.countP_cons, ← ih hn.2 hx]
      omega

theorem flatMap_filter_perm {L : List (Pend D)} (hn : (L.map (·.id)).Nodup) {p : Pend D} (hp : p ∈ L) :
    (L.flatMap (·.own)).Perm (p.own ++ (L.filter (·.id != p.id)).flatMap (·.own)) := by
  induction L with
  | nil => cases hp
  | cons y L ih =>
    rw [List.map_cons, List.nodup_cons] at hn
    rcases List.mem_cons.mp hp with rfl | hp
    · have : L.filter (·.id != p.id) = L := by
        rw [List.filter_eq_self]
        intro z hz
        simp only [bne_iff_ne, ne_eq]
        intro h
        exact hn.1 (h ▸ List.mem_map_of_mem hz)
      rw [List.filter_cons, if_neg (by simp), this, List.flatMap_cons]
    · have hne : y.id ≠ p.id := by
        intro h
        exact hn.1 (h ▸ List.mem_map_of_mem hp)
      rw [List.filter_cons, if_pos (by simpa using hne), List.flatMap_cons, List.flatMap_cons]
      refine ((ih hn.2 hp).append_left _).trans ?_
      rw [← List.append_assoc, ← List.append_assoc]
      exact List.perm_append_comm.append_right _

theorem Books.pend_nodup (b : Books o own owed s) : (s.pend.map (·.id)).Nodup := by
  have := outstanding_nodup b
  rw [← b.pend, List.map_map] at this
  exact this

/-- A completion: the callback now holds what the closure owned and, for a call, answers it. -/
theorem Books.take (b : Books o own owed s) {id : Nat} {a : Answer} {p : Pend D} {s' : Client D}
    (h : s.take id a = .ok (p, s')) {o' : Open D}
    (ho : p.by_ = none ∧ o' = o ∨ ∃ i, p.by_ = some i ∧ o = none ∧ o' = some (i, p.req, some (id, a))) :
    p.id = id ∧ Books o' (p.own ++ own) owed s' := by
  unfold Client.take at h
  cases hf : s.pend.find? (·.id == id) with
  | none => rw [hf] at h; cases h
  | some q =>
    rw [hf] at h
    simp only [Except.ok.injEq, Prod.mk.injEq] at h
    obtain ⟨rfl, rfl⟩ := h
    have hid : q.id = id := by have := List.find?_some hf; simpa using this
    subst hid
    have hmem := List.mem_of_find?_eq_some hf
    have hout : (q.id, q.by_, q.req) ∈ outstanding s.trace := by
      rw [← b.pend]; exact List.mem_map_of_mem (f := fun p : Pend D => (p.id, p.by_, p.req)) hmem
    obtain ⟨hse, hnc⟩ := mem_outstanding hout
    simp only at hse hnc
    refine ⟨rfl, ?_, ?_, ?_, ?_, ?_, ?_, ?_, ?_, ?_, ?_, ?_, b.nodup, b.fresh, ?_, fun p hp => b.repOwn p (List.mem_of_mem_filter hp)⟩
    · simp only [Client.log, List.filterMap_append, b.called]
      simp [Ev.calledNo]
    · simp only [Client.log, List.filterMap_append, b.sentIds]
      simp [Ev.sentId]
    · simp only [Client.log, List.filterMap_append]
      rw [List.nodup_append]
      refine ⟨b.compl, by simp [Ev.completedId], ?_⟩
      intro x hx y hy
      simp only [List.filterMap_cons, List.filterMap_nil, Ev.completedId, List.mem_singleton] at hy
      subst hy
      intro h; exact hnc (h ▸ hx)
    · simp only [Client.log]
      rw [outstanding_completed, ← b.pend, List.filter_map]
      rfl
    · intro i
      have h0 := b.account i
      simp only [Client.log]
      have hd : dones i (s.trace ++ [Ev.completed q.id q.by_ q.req a]) = dones i s.trace := by simp [dones, List.countP_append, Ev.doneNo]
      rw [hd]
      have hc := countP_filter_ne (outstanding_nodup b) hout (fun x => x.2.1 == some i)
      have hof : outstandingFor i (s.trace ++ [Ev.completed q.id q.by_ q.req a]) + (if q.by_ = some i then 1 else 0) = outstandingFor i s.trace := by
        unfold outstandingFor
        rw [outstanding_completed]
        rw [← hc]
        simp
      rcases ho with ⟨h1, rfl⟩ | ⟨j, h1, rfl, rfl⟩
      · rw [h1] at hof; simp only [reduceCtorEq, if_false, Nat.add_zero] at hof; rw [h1, hof]; exact h0
      · rw [h1] at hof ⊢
        simp only [openAt, Option.some.injEq] at h0 hof ⊢
        rw [← h0]; omega
    · intro i
      have h0 := b.sendsA i
      simp only [Client.log]
      have hd : locals i (s.trace ++ [Ev.completed q.id q.by_ q.req a]) = locals i s.trace := by simp [locals, List.countP_append, Ev.localNo]
      have hs : sends i (s.trace ++ [Ev.completed q.id q.by_ q.req a]) = sends i s.trace := by simp [sends, List.countP_append, Ev.sentFor]
      rw [hd, hs]
      rcases ho with ⟨_, rfl⟩ | ⟨j, _, rfl, rfl⟩
      · exact h0
      · exact h0
    · intro id i c' hm
      simp only [Client.log, List.mem_append, List.mem_singleton, reduceCtorEq, or_false] at hm ⊢
      exact b.byOk id i c' hm
    · intro i c' v hv
      simp only [Client.log, List.mem_append, List.mem_singleton, reduceCtorEq, or_false]
      rcases ho with ⟨_, rfl⟩ | ⟨j, h1, _, rfl⟩
      · obtain ⟨h1, h2⟩ := b.openOk i c' v hv
        exact ⟨h1, fun id a ha => .inl (h2 id a ha)⟩
      · cases hv
        refine ⟨b.byOk q.id i q.req (h1 ▸ hse), ?_⟩
        intro id a' ha
        cases ha
        right; rw [h1]
    · intro i c' st r via hm
      simp only [Client.log, List.mem_append, List.mem_singleton, reduceCtorEq, or_false] at hm ⊢
      obtain ⟨h1, h2⟩ := b.doneOk i c' st r via hm
      refine ⟨h1, fun id hv => ?_⟩
      obtain ⟨a', h3, h4⟩ := h2 id hv
      exact ⟨a', .inl h3, h4⟩
    · intro id bb c' a' hm
      simp only [Client.log, List.mem_append, List.mem_singleton, reduceCtorEq, or_false] at hm ⊢
      rcases hm with hm | hm
      · exact b.complOk id bb c' a' hm
      · cases hm; exact hse
    · show s.heap.Perm _
      refine b.heap.trans (((flatMap_filter_perm b.pend_nodup hmem).append_left own).trans ?_)
      rw [← List.append_assoc]
      exact List.perm_append_comm.append_right _
    · simp only [Client.log]
      rw [Stats.ofTrace_append, ← b.stats]
      rfl

/-- The done callback of the call being worked on. -/
theorem Books.done {i : Nat} {c : Call D} {v : Option (Nat × Answer)} (b : Books (some (i, c, v)) own owed s)
    (st : Status) (r : Reply) (hv : ∀ id a, v = some (id, a) → a.status = st ∧ r = replyOf c a) :
    Books none own owed (s.done i c st r (v.map (·.1))) := by
  refine ⟨?_, ?_, ?_, ?_, ?_, ?_, ?_, ?_, ?_, ?_, b.heap, b.nodup, b.fresh, ?_, b.repOwn⟩
  · simp only [Client.done, Client.log, List.filterMap_append, b.called]
    simp [Ev.calledNo]
  · simp only [Client.done, Client.log, List.filterMap_append, b.sentIds]
    simp [Ev.sentId]
  · simp only [Client.done, Client.log, List.filterMap_append]
    rw [List.filterMap_cons_none (by rfl)]
    simpa using b.compl
  · simp only [Client.done, Client.log]
    rw [outstanding_other _ _ rfl rfl]
    exact b.pend
  · intro j
    have h0 := b.account j
    simp only [Client.done, Client.log]
    have h1 : dones j (s.trace ++ [Ev.done i c st r (v.map (·.1))]) = dones j s.trace + if i = j then 1 else 0 := by
      simp [dones, List.countP_append, Ev.doneNo, List.countP_cons]
    have h2 : outstandingFor j (s.trace ++ [Ev.done i c st r (v.map (·.1))]) = outstandingFor j s.trace := by
      unfold outstandingFor; rw [outstanding_other _ _ rfl rfl]
    rw [h1, h2]
    simp only [openAt] at h0 ⊢
    rw [← h0]; omega
  · intro j
    have h0 := b.sendsA j
    simp only [Client.done, Client.log]
    have h2 : sends j (s.trace ++ [Ev.done i c st r (v.map (·.1))]) = sends j s.trace := by
      simp [sends, List.countP_append, Ev.sentFor]
    rw [h2]
    cases v with
    | none =>
      have h1 : locals j (s.trace ++ [Ev.done i c st r (Option.map (·.1) (none : Option (Nat × Answer)))]) = locals j s.trace + if i = j then 1 else 0 := by
        simp [locals, List.countP_append, Ev.localNo, List.countP_cons]
      rw [h1]
      simp only [unsentAt] at h0 ⊢
      rw [← h0]; omega
    | some x =>
      have h1 : locals j (s.trace ++ [Ev.done i c st r (Option.map (·.1) (some x))]) = locals j s.trace := by
        simp [locals, List.countP_append, Ev.localNo]
      rw [h1]
      exact h0
  · intro id j c' hm
    simp only [Client.done, Client.log, List.mem_append, List.mem_singleton, reduceCtorEq, or_false] at hm ⊢
    exact b.byOk id j c' hm
  · intro j c' v' hv'; cases hv'
  · intro j c' st' r' via hm
    simp only [Client.done, Client.log, List.mem_append, List.mem_singleton, reduceCtorEq, or_false] at hm ⊢
    rcases hm with hm | hm
    · exact b.doneOk j c' st' r' via hm
    · cases hm
      obtain ⟨h1, h2⟩ := b.openOk i c v rfl
      refine ⟨h1, fun id hid => ?_⟩
      cases v with
      | none => cases hid
      | some x =>
        obtain ⟨id', a⟩ := x
        cases hid
        exact ⟨a, h2 _ _ rfl, hv _ _ rfl⟩
  · intro id bb c' a hm
    simp only [Client.done, Client.log, List.mem_append, List.mem_singleton, reduceCtorEq, or_false] at hm ⊢
    exact b.complOk id bb c' a hm
  · simp only [Client.done, Client.log]
    rw [Stats.ofTrace_append, ← b.stats]
    rfl

/-- A call begins. -/
theorem Books.begin (b : Books none own owed s) (c : Call D) (t : Bool) :
    Books (some (s.calls, c, none)) own (owed.add (Stats.ofTrace [Ev.called s.calls c t]))
      { s.log (.called s.calls c t) with calls := s.calls + 1 } := by
  have h1 := b.account
  have h2 := b.sendsA
  refine ⟨?_, ?_, ?_, ?_, ?_, ?_, ?_, ?_, ?_, ?_, b.heap, b.nodup, b.fresh, ?_, b.repOwn⟩
  · simp only [Client.log, List.filterMap_append, b.called, List.range_succ]
    simp [Ev.calledNo]
  · simp only [Client.log, List.filterMap_append, b.sentIds]
    simp [Ev.sentId]
  · simp only [Client.log, List.filterMap_append]
    rw [List.filterMap_cons_none (by rfl)]
    simpa using b.compl
  · simp only [Client.log]
    rw [outstanding_other _ _ rfl rfl]
    exact b.pend
  · intro j
    have h0 := b.account j
    simp only [Client.log]
    have h1 : dones j (s.trace ++ [Ev.called s.calls c t]) = dones j s.trace := by simp [dones, List.countP_append, Ev.doneNo]
    have h2 : outstandingFor j (s.trace ++ [Ev.called s.calls c t]) = outstandingFor j s.trace := by
      unfold outstandingFor; rw [outstanding_other _ _ rfl rfl]
    rw [h1, h2]
    simp only [openAt, issued] at h0 ⊢
    split at h0 <;> split <;> split <;> omega
  · intro j
    have h0 := b.sendsA j
    simp only [Client.log]
    have h1 : locals j (s.trace ++ [Ev.called s.calls c t]) = locals j s.trace := by simp [locals, List.countP_append, Ev.localNo]
    have h2 : sends j (s.trace ++ [Ev.called s.calls c t]) = sends j s.trace := by simp [sends, List.countP_append, Ev.sentFor]
    rw [h1, h2]
    simp only [unsentAt, issued] at h0 ⊢
    split at h0 <;> split <;> split <;> omega
  · intro id j c' hm
    simp only [Client.log, List.mem_append, List.mem_singleton, reduceCtorEq, or_false] at hm ⊢
    obtain ⟨t', ht⟩ := b.byOk id j c' hm
    exact ⟨t', .inl ht⟩
  · intro j c' v' hv'
    cases hv'
    exact ⟨⟨t, by simp [Client.log]⟩, (fun _ _ h => by cases h)⟩
  · intro j c' st' r' via hm
    simp only [Client.log, List.mem_append, List.mem_singleton, reduceCtorEq, or_false] at hm ⊢
    obtain ⟨⟨t', ht⟩, h3⟩ := b.doneOk j c' st' r' via hm
    exact ⟨⟨t', .inl ht⟩, h3⟩
  · intro id bb c' a hm
    simp only [Client.log, List.mem_append, List.mem_singleton, reduceCtorEq, or_false] at hm ⊢
    exact b.complOk id bb c' a hm
  · simp only [Client.log]
    rw [Stats.ofTrace_append, ← b.stats, Stats.add_assoc]

/-- An event that is neither of a call nor of a transport. -/
theorem Books.mark (b : Books o own owed s) (e : Ev D) (he : e = .fired ∨ e = .destroyed) : Books o own owed (s.log e) := by
  have h1 : e.calledNo = none := by rcases he with rfl | rfl <;> rfl
  have h2 : e.sentId = none := by rcases he with rfl | rfl <;> rfl
  have h3 : e.completedId = none := by rcases he with rfl | rfl <;> rfl
  have h4 : e.doneNo = none := by rcases he with rfl | rfl <;> rfl
  have h5 : e.localNo = none := by rcases he with rfl | rfl <;> rfl
  have h6 : e.sentFor = none := by rcases he with rfl | rfl <;> rfl
  have hc : ∀ i c b, Ev.called i c b ≠ e := by rcases he with rfl | rfl <;> simp
  have hs : ∀ i c b, Ev.sent i c b ≠ e := by rcases he with rfl | rfl <;> simp
  have hk : ∀ i c b a, Ev.completed i c b a ≠ e := by rcases he with rfl | rfl <;> simp
  have hd : ∀ i c st r v, Ev.done i c st r v ≠ e := by rcases he with rfl | rfl <;> simp
  refine ⟨?_, ?_, ?_, ?_, ?_, ?_, ?_, ?_, ?_, ?_, b.heap, b.nodup, b.fresh, ?_, b.repOwn⟩
  · simp [Client.log, List.filterMap_append, b.called, h1]
  · simp [Client.log, List.filterMap_append, b.sentIds, h2]
  · simp only [Client.log, List.filterMap_append]
    rw [List.filterMap_cons_none h3]
    simpa using b.compl
  · simp only [Client.log]
    rw [outstanding_other _ _ h2 h3]
    exact b.pend
  · intro j
    have := b.account j
    simp only [Client.log]
    have ha : outstandingFor j (s.trace ++ [e]) = outstandingFor j s.trace := by
      unfold outstandingFor; rw [outstanding_other _ _ h2 h3]
    have hb : dones j (s.trace ++ [e]) = dones j s.trace := by simp [dones, List.countP_append, h4]
    rw [ha, hb]
    exact this
  · intro j
    have := b.sendsA j
    simp only [Client.log]
    have ha : sends j (s.trace ++ [e]) = sends j s.trace := by simp [sends, List.countP_append, h6]
    have hb : locals j (s.trace ++ [e]) = locals j s.trace := by simp [locals, List.countP_append, h5]
    rw [ha, hb]
    exact this
  · intro id j c' hm
    simp only [Client.log, List.mem_append, List.mem_singleton, hc, hs, or_false] at hm ⊢
    exact b.byOk id j c' hm
  · intro j c' v' hv'
    simp only [Client.log, List.mem_append, List.mem_singleton, hc, hk, or_false]
    exact b.openOk j c' v' hv'
  · intro j c' st' r' via hm
    simp only [Client.log, List.mem_append, List.mem_singleton, hc, hk, hd, or_false] at hm ⊢
    exact b.doneOk j c' st' r' via hm
  · intro id bb c' a hm
    simp only [Client.log, List.mem_append, List.mem_singleton, hs, hk, or_false] at hm ⊢
    exact b.complOk id bb c' a hm
  · simp only [Client.log]
    rw [Stats.ofTrace_append, ← b.stats]
    rcases he with rfl | rfl <;> rfl

end
end Verif.Client
