import Verif.Lemmas.ClientBooks
import Verif.Model.Threads
/-
The bookkeeping of a client used by many threads: as `Lemmas/ClientBooks.lean`, with any number of calls being
worked on.
-/
set_option linter.unusedSectionVars false
namespace Verif.Threads
open Client
variable {D : Type}

/-- The calls being worked on: number, call, and whether no transport was called for it. -/
abbrev Opens (D : Type) := List (Nat × Call D × Bool)

def openN (i : Nat) (os : Opens D) : Nat := os.countP (fun x => x.1 == i)
def unsentN (i : Nat) (os : Opens D) : Nat := os.countP (fun x => x.1 == i && x.2.2)

structure Books (os : Opens D) (own : List Nat) (owed : Stats) (s : Client D) : Prop where
  called : s.trace.filterMap Ev.calledNo = List.range s.calls
  sentIds : s.trace.filterMap Ev.sentId = List.range s.sends
  compl : (s.trace.filterMap Ev.completedId).Nodup
  pend : s.pend.map (fun p => (p.id, p.by_, p.req)) = outstanding s.trace
  account : ∀ i, dones i s.trace + outstandingFor i s.trace + openN i os = issued i s.calls
  sendsA : ∀ i, sends i s.trace + locals i s.trace + unsentN i os = issued i s.calls
  byOk : ∀ id i c, Ev.sent id (some i) c ∈ s.trace → ∃ b, Ev.called i c b ∈ s.trace
  openOk : ∀ i c u, (i, c, u) ∈ os → ∃ b, Ev.called i c b ∈ s.trace
  doneOk : ∀ i c st r via, Ev.done i c st r via ∈ s.trace → (∃ b, Ev.called i c b ∈ s.trace) ∧
    ∀ id, via = some id → ∃ a, Ev.completed id (some i) c a ∈ s.trace ∧ a.status = st ∧ r = replyOf c a
  complOk : ∀ id b c a, Ev.completed id b c a ∈ s.trace → Ev.sent id b c ∈ s.trace
  heap : s.heap.Perm (own ++ s.pend.flatMap (·.own))
  nodup : s.heap.Nodup
  fresh : ∀ p ∈ s.heap, p < s.nextAddr
  stats : s.stats.add owed = Stats.ofTrace s.trace

section
variable {os : Opens D} {own : List Nat} {owed : Stats} {s : Client D}

theorem Books.new {K : Setup} [DoubleOps D] (h : Client.new K = .ok s) : Books [] [] .zero s := by
  unfold Client.new at h
  cases h1 : Check.new (D := D) K.envC K.cfgC <;> simp only [h1, bind, Except.bind, reduceCtorEq] at h
  cases h2 : Quota.new (D := D) K.envQ K.cfgQ (K.depth + 1) <;> simp only [h2, reduceCtorEq] at h
  cases h3 : Report.new (D := D) K.envR K.cfgR <;> simp only [h3, reduceCtorEq] at h
  cases h
  constructor <;> simp [outstanding, dones, outstandingFor, openN, sends, locals, unsentN, issued, Stats.ofTrace, Stats.zero, Stats.add]

theorem Books.perm (b : Books os own owed s) {os' : Opens D} {own' : List Nat} (h1 : os'.Perm os) (h2 : own'.Perm own) :
    Books os' own' owed s := by
  refine ⟨b.called, b.sentIds, b.compl, b.pend, ?_, ?_, b.byOk, ?_, b.doneOk, b.complOk, ?_, b.nodup, b.fresh, b.stats⟩
  · intro i
    have : openN i os' = openN i os := h1.countP_eq _
    rw [this]; exact b.account i
  · intro i
    have : unsentN i os' = unsentN i os := h1.countP_eq _
    rw [this]; exact b.sendsA i
  · intro i c u h
    exact b.openOk i c u (h1.mem_iff.mp h)
  · exact b.heap.trans (h2.symm.append_right _)

/-- Completed calls were made. -/
theorem Books.id_lt (b : Books os own owed s) : ∀ id ∈ s.trace.filterMap Ev.completedId, id < s.sends := by
  intro id hid
  obtain ⟨e, he, h1⟩ := List.mem_filterMap.mp hid
  cases e <;> simp only [Ev.completedId, reduceCtorEq, Option.some.injEq] at h1
  subst h1
  have h2 := b.complOk _ _ _ _ he
  have h3 : _ ∈ s.trace.filterMap Ev.sentId := List.mem_filterMap.mpr ⟨_, h2, rfl⟩
  rw [b.sentIds] at h3
  exact List.mem_range.mp h3

/-- A change of the parts of the state the books do not concern. -/
theorem Books.congr (b : Books os own owed s) {s' : Client D} (h1 : s'.trace = s.trace) (h2 : s'.calls = s.calls)
    (h3 : s'.sends = s.sends) (h4 : s'.pend = s.pend) (h5 : s'.heap = s.heap) (h6 : s'.nextAddr = s.nextAddr)
    (h7 : s'.stats = s.stats) : Books os own owed s' := by
  constructor
  all_goals (try rw [h1]); (try rw [h2]); (try rw [h3]); (try rw [h4]); (try rw [h5]); (try rw [h6]); (try rw [h7])
  · exact b.called
  · exact b.sentIds
  · exact b.compl
  · exact b.pend
  · exact b.account
  · exact b.sendsA
  · exact b.byOk
  · exact b.openOk
  · exact b.doneOk
  · exact b.complOk
  · exact b.heap
  · exact b.nodup
  · exact b.fresh
  · exact b.stats

theorem bump_stats (s : Client D) (x : Stats) : bump s x = { s with stats := s.stats.add x } := rfl

theorem Books.pay {x : Stats} (b : Books os own (x.add owed) s) : Books os own owed (bump s x) :=
  ⟨b.called, b.sentIds, b.compl, b.pend, b.account, b.sendsA, b.byOk, b.openOk, b.doneOk, b.complOk, b.heap, b.nodup, b.fresh, by
    have := b.stats
    rw [← Stats.add_assoc] at this
    exact this⟩

theorem Books.alloc (b : Books os own owed s) : Books os (s.alloc.1 :: own) owed s.alloc.2 := by
  refine ⟨b.called, b.sentIds, b.compl, b.pend, b.account, b.sendsA, b.byOk, b.openOk, b.doneOk, b.complOk, ?_, ?_, ?_, b.stats⟩
  · show (s.heap ++ [s.nextAddr]).Perm (s.nextAddr :: own ++ s.pend.flatMap (·.own))
    refine List.perm_append_comm.trans ?_
    rw [List.singleton_append, List.cons_append]
    exact b.heap.cons _
  · show (s.heap ++ [s.nextAddr]).Nodup
    rw [List.nodup_append]
    refine ⟨b.nodup, by simp, ?_⟩
    intro a ha c hc
    rw [List.mem_singleton] at hc
    have := b.fresh a ha
    omega
  · intro p hp
    show p < s.nextAddr + 1
    rcases List.mem_append.mp hp with hp | hp
    · have := b.fresh p hp; omega
    · rw [List.mem_singleton] at hp; omega

theorem Books.free (b : Books os own owed s) {p : Nat} (hp : p ∈ own) :
    ∃ s', s.free p = .ok s' ∧ s' = { s with heap := s.heap.erase p } ∧ Books os (own.erase p) owed s' := by
  have hm : p ∈ s.heap := b.heap.mem_iff.mpr (List.mem_append_left _ hp)
  refine ⟨_, by unfold Client.free; rw [if_pos hm], rfl, ?_⟩
  refine ⟨b.called, b.sentIds, b.compl, b.pend, b.account, b.sendsA, b.byOk, b.openOk, b.doneOk, b.complOk, ?_, ?_, ?_, b.stats⟩
  · show (s.heap.erase p).Perm _
    refine (b.heap.erase p).trans ?_
    rw [List.erase_append_left _ hp]
  · exact b.nodup.erase p
  · exact fun q hq => b.fresh q (List.mem_of_mem_erase hq)

theorem Books.freeAll : ∀ (ps : List Nat) {own : List Nat} {s : Client D}, Books os (ps ++ own) owed s →
    ∃ s', s.freeAll ps = .ok s' ∧ Books os own owed s' ∧ s' = { s with heap := s'.heap }
  | [], _, s, b => ⟨s, rfl, b, rfl⟩
  | p :: ps, own, s, b => by
    obtain ⟨s1, h1, h2, b1⟩ := b.free (p := p) (by simp)
    rw [List.cons_append, List.erase_cons_head] at b1
    obtain ⟨s2, h3, b2, h4⟩ := Books.freeAll ps b1
    refine ⟨s2, ?_, b2, ?_⟩
    · unfold Client.freeAll at h3 ⊢
      rw [List.foldlM_cons, h1]
      exact h3
    · rw [h4, h2]

theorem Books.touch (b : Books os own owed s) {ps : List Nat} (h : ∀ p ∈ ps, p ∈ own) : s.touch ps = .ok () := by
  unfold Client.touch
  rw [if_pos]
  simp only [List.all_eq_true, decide_eq_true_eq]
  exact fun p hp => b.heap.mem_iff.mpr (List.mem_append_left _ (h p hp))

theorem openN_cons (i : Nat) (x : Nat × Call D × Bool) (os : Opens D) :
    openN i (x :: os) = openN i os + if x.1 = i then 1 else 0 := by
  simp [openN, List.countP_cons]

theorem unsentN_cons (i : Nat) (x : Nat × Call D × Bool) (os : Opens D) :
    unsentN i (x :: os) = unsentN i os + if x.1 = i ∧ x.2.2 = true then 1 else 0 := by
  simp [unsentN, List.countP_cons]

/-- The call of a transport: by a flush callback, or for a call being worked on. -/
theorem Books.send {os' : Opens D} {own' : List Nat} (b : Books os own owed s) (by_ : Option Nat) (c : Call D) (ps : List Nat)
    (hown : own = ps ++ own') (ho : by_ = none ∧ os' = os ∨ ∃ i, by_ = some i ∧ os = (i, c, true) :: os') :
    Books os' own' ((Stats.ofTrace [Ev.sent s.sends by_ c]).add owed) (s.send by_ c ps) := by
  have hid : s.sends ∉ s.trace.filterMap Ev.completedId := fun h => by have := b.id_lt _ h; omega
  refine ⟨?_, ?_, ?_, ?_, ?_, ?_, ?_, ?_, ?_, ?_, ?_, b.nodup, b.fresh, ?_⟩
  · simp only [Client.send, Client.log, List.filterMap_append, b.called]
    simp [Ev.calledNo]
  · simp only [Client.send, Client.log, List.filterMap_append, b.sentIds, List.range_succ]
    simp [Ev.sentId]
  · simp only [Client.send, Client.log, List.filterMap_append]
    rw [List.filterMap_cons_none (by rfl)]
    simpa using b.compl
  · simp only [Client.send, Client.log, List.map_append, b.pend]
    rw [outstanding_sent _ _ _ _ hid]
    rfl
  · intro i
    have h0 := b.account i
    simp only [Client.send, Client.log]
    rw [outstandingFor_sent _ _ _ _ hid]
    have hd : dones i (s.trace ++ [Ev.sent s.sends by_ c]) = dones i s.trace := by simp [dones, List.countP_append, Ev.doneNo]
    rw [hd]
    rcases ho with ⟨rfl, rfl⟩ | ⟨j, rfl, rfl⟩
    · exact h0
    · rw [openN_cons] at h0
      simp only [Option.some.injEq] at h0 ⊢
      rw [← h0]; omega
  · intro i
    have h0 := b.sendsA i
    simp only [Client.send, Client.log]
    have hd : locals i (s.trace ++ [Ev.sent s.sends by_ c]) = locals i s.trace := by simp [locals, List.countP_append, Ev.localNo]
    have hs : sends i (s.trace ++ [Ev.sent s.sends by_ c]) = sends i s.trace + if by_ = some i then 1 else 0 := by
      simp [sends, List.countP_append, Ev.sentFor, List.countP_cons]
    rw [hd, hs]
    rcases ho with ⟨rfl, rfl⟩ | ⟨j, rfl, rfl⟩
    · exact h0
    · rw [unsentN_cons] at h0
      simp only [Option.some.injEq, and_true] at h0 ⊢
      rw [← h0]; omega
  · intro id i c' hm
    simp only [Client.send, Client.log, List.mem_append, List.mem_singleton] at hm ⊢
    rcases hm with hm | hm
    · obtain ⟨t, ht⟩ := b.byOk id i c' hm; exact ⟨t, .inl ht⟩
    · cases hm
      rcases ho with ⟨h, _⟩ | ⟨j, h, rfl⟩
      · cases h
      · cases h
        obtain ⟨t, ht⟩ := b.openOk i c true List.mem_cons_self
        exact ⟨t, .inl ht⟩
  · intro i c' u hv
    simp only [Client.send, Client.log, List.mem_append, List.mem_singleton, reduceCtorEq, or_false]
    rcases ho with ⟨_, rfl⟩ | ⟨j, _, rfl⟩
    · exact b.openOk i c' u hv
    · exact b.openOk i c' u (List.mem_cons_of_mem _ hv)
  · intro i c' st r via hm
    simp only [Client.send, Client.log, List.mem_append, List.mem_singleton, reduceCtorEq, or_false] at hm ⊢
    exact b.doneOk i c' st r via hm
  · intro id bb c' a hm
    simp only [Client.send, Client.log, List.mem_append, List.mem_singleton, reduceCtorEq, or_false] at hm ⊢
    exact .inl (b.complOk id bb c' a hm)
  · show s.heap.Perm (own' ++ (s.pend ++ [(⟨s.sends, by_, c, ps⟩ : Pend D)]).flatMap (·.own))
    rw [List.flatMap_append]
    simp only [List.flatMap_cons, List.flatMap_nil, List.append_nil]
    refine b.heap.trans ?_
    rw [hown, List.append_assoc]
    refine List.perm_append_comm.trans ?_
    rw [List.append_assoc]
  · simp only [Client.send, Client.log]
    rw [Stats.ofTrace_append, ← b.stats, Stats.add_assoc, Stats.add_comm owed]

theorem outstanding_nodup (b : Books os own owed s) : ((outstanding s.trace).map (·.1)).Nodup := by
  rw [outstanding_eq]
  refine List.Nodup.sublist (List.Sublist.map _ List.filter_sublist) ?_
  rw [sentIds_sentList, b.sentIds]
  exact List.nodup_range

theorem Books.pend_nodup (b : Books os own owed s) : (s.pend.map (·.id)).Nodup := by
  have := outstanding_nodup b
  rw [← b.pend, List.map_map] at this
  exact this

/-- The call a completion answers. -/
def openOf (p : Pend D) : Opens D := match p.by_ with | some i => [(i, p.req, false)] | none => []

/-- A completion: the callback now holds what the closure owned and, for a call, answers it. -/
theorem Books.take (b : Books os own owed s) {id : Nat} {a : Answer} {p : Pend D} {s' : Client D}
    (h : s.take id a = .ok (p, s')) :
    s' = { s.log (.completed p.id p.by_ p.req a) with pend := s'.pend } ∧ p ∈ s.pend ∧ Books (openOf p ++ os) (p.own ++ own) owed s' := by
  unfold Client.take at h
  cases hf : s.pend.find? (·.id == id) with
  | none => rw [hf] at h; cases h
  | some q =>
    rw [hf] at h
    simp only [Except.ok.injEq, Prod.mk.injEq] at h
    obtain ⟨rfl, rfl⟩ := h
    have hid : q.id = id := by have := List.find?_some hf; simpa using this
    subst hid
    have hmem := List.mem_of_find?_eq_some hf
    have hout : (q.id, q.by_, q.req) ∈ outstanding s.trace := by
      rw [← b.pend]; exact List.mem_map_of_mem (f := fun p : Pend D => (p.id, p.by_, p.req)) hmem
    obtain ⟨hse, hnc⟩ := mem_outstanding hout
    simp only at hse hnc
    refine ⟨rfl, hmem, ?_, ?_, ?_, ?_, ?_, ?_, ?_, ?_, ?_, ?_, ?_, b.nodup, b.fresh, ?_⟩
    · simp only [Client.log, List.filterMap_append, b.called]
      simp [Ev.calledNo]
    · simp only [Client.log, List.filterMap_append, b.sentIds]
      simp [Ev.sentId]
    · simp only [Client.log, List.filterMap_append]
      rw [List.nodup_append]
      refine ⟨b.compl, by simp [Ev.completedId], ?_⟩
      intro x hx y hy
      simp only [List.filterMap_cons, List.filterMap_nil, Ev.completedId, List.mem_singleton] at hy
      subst hy
      intro h; exact hnc (h ▸ hx)
    · simp only [Client.log]
      rw [outstanding_completed, ← b.pend, List.filter_map]
      rfl
    · intro i
      have h0 := b.account i
      simp only [Client.log]
      have hd : dones i (s.trace ++ [Ev.completed q.id q.by_ q.req a]) = dones i s.trace := by simp [dones, List.countP_append, Ev.doneNo]
      rw [hd]
      have hc := countP_filter_ne (outstanding_nodup b) hout (fun x => x.2.1 == some i)
      have hof : outstandingFor i (s.trace ++ [Ev.completed q.id q.by_ q.req a]) + (if q.by_ = some i then 1 else 0) = outstandingFor i s.trace := by
        unfold outstandingFor
        rw [outstanding_completed]
        rw [← hc]
        simp
      cases h1 : q.by_ with
      | none =>
        rw [h1] at hof; simp only [reduceCtorEq, if_false, Nat.add_zero] at hof
        simp only [openOf, h1, List.nil_append]
        rw [hof]; exact h0
      | some j =>
        rw [h1] at hof
        simp only [openOf, h1, List.cons_append, List.nil_append, openN_cons, Option.some.injEq] at hof ⊢
        rw [← h0]; omega
    · intro i
      have h0 := b.sendsA i
      simp only [Client.log]
      have hd : locals i (s.trace ++ [Ev.completed q.id q.by_ q.req a]) = locals i s.trace := by simp [locals, List.countP_append, Ev.localNo]
      have hs : sends i (s.trace ++ [Ev.completed q.id q.by_ q.req a]) = sends i s.trace := by simp [sends, List.countP_append, Ev.sentFor]
      rw [hd, hs]
      cases h1 : q.by_ with
      | none => simp only [openOf, h1, List.nil_append]; exact h0
      | some j =>
        simp only [openOf, h1, List.cons_append, List.nil_append, unsentN_cons]
        simpa using h0
    · intro id i c' hm
      simp only [Client.log, List.mem_append, List.mem_singleton, reduceCtorEq, or_false] at hm ⊢
      exact b.byOk id i c' hm
    · intro i c' u hv
      simp only [Client.log, List.mem_append, List.mem_singleton, reduceCtorEq, or_false]
      rcases List.mem_append.mp hv with hv | hv
      · cases h1 : q.by_ with
        | none => simp [openOf, h1] at hv
        | some j =>
          simp only [openOf, h1, List.mem_singleton, Prod.mk.injEq] at hv
          obtain ⟨rfl, rfl, _⟩ := hv
          exact b.byOk q.id i q.req (h1 ▸ hse)
      · exact b.openOk i c' u hv
    · intro i c' st r via hm
      simp only [Client.log, List.mem_append, List.mem_singleton, reduceCtorEq, or_false] at hm ⊢
      obtain ⟨h1, h2⟩ := b.doneOk i c' st r via hm
      refine ⟨h1, fun id hv => ?_⟩
      obtain ⟨a', h3, h4⟩ := h2 id hv
      exact ⟨a', .inl h3, h4⟩
    · intro id bb c' a' hm
      simp only [Client.log, List.mem_append, List.mem_singleton, reduceCtorEq, or_false] at hm ⊢
      rcases hm with hm | hm
      · exact b.complOk id bb c' a' hm
      · cases hm; exact hse
    · show s.heap.Perm _
      refine b.heap.trans (((flatMap_filter_perm b.pend_nodup hmem).append_left own).trans ?_)
      rw [← List.append_assoc]
      exact List.perm_append_comm.append_right _
    · simp only [Client.log]
      rw [Stats.ofTrace_append, ← b.stats]
      rfl

/-- The done callback of a call being worked on. -/
theorem Books.done {i : Nat} {c : Call D} {via : Option Nat} (b : Books ((i, c, via.isNone) :: os) own owed s)
    (st : Status) (r : Reply)
    (hv : ∀ id, via = some id → ∃ a, Ev.completed id (some i) c a ∈ s.trace ∧ a.status = st ∧ r = replyOf c a) :
    Books os own owed (s.done i c st r via) := by
  refine ⟨?_, ?_, ?_, ?_, ?_, ?_, ?_, ?_, ?_, ?_, b.heap, b.nodup, b.fresh, ?_⟩
  · simp only [Client.done, Client.log, List.filterMap_append, b.called]
    simp [Ev.calledNo]
  · simp only [Client.done, Client.log, List.filterMap_append, b.sentIds]
    simp [Ev.sentId]
  · simp only [Client.done, Client.log, List.filterMap_append]
    rw [List.filterMap_cons_none (by rfl)]
    simpa using b.compl
  · simp only [Client.done, Client.log]
    rw [outstanding_other _ _ rfl rfl]
    exact b.pend
  · intro j
    have h0 := b.account j
    simp only [Client.done, Client.log]
    have h1 : dones j (s.trace ++ [Ev.done i c st r via]) = dones j s.trace + if i = j then 1 else 0 := by
      simp [dones, List.countP_append, Ev.doneNo, List.countP_cons]
    have h2 : outstandingFor j (s.trace ++ [Ev.done i c st r via]) = outstandingFor j s.trace := by
      unfold outstandingFor; rw [outstanding_other _ _ rfl rfl]
    rw [h1, h2]
    rw [openN_cons] at h0
    rw [← h0]; simp only; omega
  · intro j
    have h0 := b.sendsA j
    simp only [Client.done, Client.log]
    have h2 : sends j (s.trace ++ [Ev.done i c st r via]) = sends j s.trace := by
      simp [sends, List.countP_append, Ev.sentFor]
    rw [h2]
    rw [unsentN_cons] at h0
    cases via with
    | none =>
      have h1 : locals j (s.trace ++ [Ev.done i c st r none]) = locals j s.trace + if i = j then 1 else 0 := by
        simp [locals, List.countP_append, Ev.localNo, List.countP_cons]
      rw [h1]
      simp only [Option.isNone_none, and_true] at h0
      rw [← h0]; omega
    | some x =>
      have h1 : locals j (s.trace ++ [Ev.done i c st r (some x)]) = locals j s.trace := by
        simp [locals, List.countP_append, Ev.localNo]
      rw [h1]
      simpa using h0
  · intro id j c' hm
    simp only [Client.done, Client.log, List.mem_append, List.mem_singleton, reduceCtorEq, or_false] at hm ⊢
    exact b.byOk id j c' hm
  · intro j c' u hm
    simp only [Client.done, Client.log, List.mem_append, List.mem_singleton, reduceCtorEq, or_false]
    exact b.openOk j c' u (List.mem_cons_of_mem _ hm)
  · intro j c' st' r' via' hm
    simp only [Client.done, Client.log, List.mem_append, List.mem_singleton, reduceCtorEq, or_false] at hm ⊢
    rcases hm with hm | hm
    · exact b.doneOk j c' st' r' via' hm
    · cases hm
      exact ⟨b.openOk i c _ List.mem_cons_self, hv⟩
  · intro id bb c' a hm
    simp only [Client.done, Client.log, List.mem_append, List.mem_singleton, reduceCtorEq, or_false] at hm ⊢
    exact b.complOk id bb c' a hm
  · simp only [Client.done, Client.log]
    rw [Stats.ofTrace_append, ← b.stats]
    rfl

/-- A call begins. -/
theorem Books.begin (b : Books os own owed s) (c : Call D) (t : Bool) :
    Books ((s.calls, c, true) :: os) own ((Stats.ofTrace [Ev.called s.calls c t]).add owed)
      { s.log (.called s.calls c t) with calls := s.calls + 1 } := by
  refine ⟨?_, ?_, ?_, ?_, ?_, ?_, ?_, ?_, ?_, ?_, b.heap, b.nodup, b.fresh, ?_⟩
  · simp only [Client.log, List.filterMap_append, b.called, List.range_succ]
    simp [Ev.calledNo]
  · simp only [Client.log, List.filterMap_append, b.sentIds]
    simp [Ev.sentId]
  · simp only [Client.log, List.filterMap_append]
    rw [List.filterMap_cons_none (by rfl)]
    simpa using b.compl
  · simp only [Client.log]
    rw [outstanding_other _ _ rfl rfl]
    exact b.pend
  · intro j
    have h0 := b.account j
    simp only [Client.log]
    have h1 : dones j (s.trace ++ [Ev.called s.calls c t]) = dones j s.trace := by simp [dones, List.countP_append, Ev.doneNo]
    have h2 : outstandingFor j (s.trace ++ [Ev.called s.calls c t]) = outstandingFor j s.trace := by
      unfold outstandingFor; rw [outstanding_other _ _ rfl rfl]
    rw [h1, h2, openN_cons]
    simp only [issued] at h0 ⊢
    split at h0 <;> split <;> split <;> omega
  · intro j
    have h0 := b.sendsA j
    simp only [Client.log]
    have h1 : locals j (s.trace ++ [Ev.called s.calls c t]) = locals j s.trace := by simp [locals, List.countP_append, Ev.localNo]
    have h2 : sends j (s.trace ++ [Ev.called s.calls c t]) = sends j s.trace := by simp [sends, List.countP_append, Ev.sentFor]
    rw [h1, h2, unsentN_cons]
    simp only [issued, and_true] at h0 ⊢
    split at h0 <;> split <;> split <;> omega
  · intro id j c' hm
    simp only [Client.log, List.mem_append, List.mem_singleton, reduceCtorEq, or_false] at hm ⊢
    obtain ⟨t', ht⟩ := b.byOk id j c' hm
    exact ⟨t', .inl ht⟩
  · intro j c' u hv
    rcases List.mem_cons.mp hv with hv | hv
    · cases hv; exact ⟨t, by simp [Client.log]⟩
    · obtain ⟨t', ht⟩ := b.openOk j c' u hv
      exact ⟨t', by simp [Client.log, ht]⟩
  · intro j c' st' r' via hm
    simp only [Client.log, List.mem_append, List.mem_singleton, reduceCtorEq, or_false] at hm ⊢
    obtain ⟨⟨t', ht⟩, h3⟩ := b.doneOk j c' st' r' via hm
    exact ⟨⟨t', .inl ht⟩, h3⟩
  · intro id bb c' a hm
    simp only [Client.log, List.mem_append, List.mem_singleton, reduceCtorEq, or_false] at hm ⊢
    exact b.complOk id bb c' a hm
  · simp only [Client.log]
    rw [Stats.ofTrace_append, ← b.stats, Stats.add_assoc, Stats.add_comm owed]

/-- An event that is neither of a call nor of a transport. -/
theorem Books.mark (b : Books os own owed s) (e : Ev D) (he : e = .fired ∨ e = .destroyed) : Books os own owed (s.log e) := by
  have h1 : e.calledNo = none := by rcases he with rfl | rfl <;> rfl
  have h2 : e.sentId = none := by rcases he with rfl | rfl <;> rfl
  have h3 : e.completedId = none := by rcases he with rfl | rfl <;> rfl
  have h4 : e.doneNo = none := by rcases he with rfl | rfl <;> rfl
  have h5 : e.localNo = none := by rcases he with rfl | rfl <;> rfl
  have h6 : e.sentFor = none := by rcases he with rfl | rfl <;> rfl
  have hc : ∀ i c b, Ev.called i c b ≠ e := by rcases he with rfl | rfl <;> simp
  have hs : ∀ i c b, Ev.sent i c b ≠ e := by rcases he with rfl | rfl <;> simp
  have hk : ∀ i c b a, Ev.completed i c b a ≠ e := by rcases he with rfl | rfl <;> simp
  have hd : ∀ i c st r v, Ev.done i c st r v ≠ e := by rcases he with rfl | rfl <;> simp
  refine ⟨?_, ?_, ?_, ?_, ?_, ?_, ?_, ?_, ?_, ?_, b.heap, b.nodup, b.fresh, ?_⟩
  · simp [Client.log, List.filterMap_append, b.called, h1]
  · simp [Client.log, List.filterMap_append, b.sentIds, h2]
  · simp only [Client.log, List.filterMap_append]
    rw [List.filterMap_cons_none h3]
    simpa using b.compl
  · simp only [Client.log]
    rw [outstanding_other _ _ h2 h3]
    exact b.pend
  · intro j
    have := b.account j
    simp only [Client.log]
    have ha : outstandingFor j (s.trace ++ [e]) = outstandingFor j s.trace := by
      unfold outstandingFor; rw [outstanding_other _ _ h2 h3]
    have hb : dones j (s.trace ++ [e]) = dones j s.trace := by simp [dones, List.countP_append, h4]
    rw [ha, hb]
    exact this
  · intro j
    have := b.sendsA j
    simp only [Client.log]
    have ha : sends j (s.trace ++ [e]) = sends j s.trace := by simp [sends, List.countP_append, h6]
    have hb : locals j (s.trace ++ [e]) = locals j s.trace := by simp [locals, List.countP_append, h5]
    rw [ha, hb]
    exact this
  · intro id j c' hm
    simp only [Client.log, List.mem_append, List.mem_singleton, hc, hs, or_false] at hm ⊢
    exact b.byOk id j c' hm
  · intro j c' u hv'
    simp only [Client.log, List.mem_append, List.mem_singleton, hc, or_false]
    exact b.openOk j c' u hv'
  · intro j c' st' r' via hm
    simp only [Client.log, List.mem_append, List.mem_singleton, hc, hk, hd, or_false] at hm ⊢
    exact b.doneOk j c' st' r' via hm
  · intro id bb c' a hm
    simp only [Client.log, List.mem_append, List.mem_singleton, hs, hk, or_false] at hm ⊢
    exact b.complOk id bb c' a hm
  · simp only [Client.log]
    rw [Stats.ofTrace_append, ← b.stats]
    rcases he with rfl | rfl <;> rfl

end
end Verif.Threads
