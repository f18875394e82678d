import Verif.Lemmas.AggregatorPointers4
import Verif.Spec.AggregatorPointers
import Verif.Props.QuotaAggregator
import Verif.Props.CheckAggregator
/-
C107: the objects that the aggregators keep in their caches.
-/
set_option linter.unusedSectionVars false

namespace Verif
open Lru Lru.Ptr

section
variable {R ν : Type} {good : Bytes → ν → Prop} {ps : PAggState ν} {s : AggState ν}

theorem oneToOne_of (hS : Stands (R := R) good ps s) (hd : ∀ c, s.cache = some c → c.defer = []) : OneToOne ps := by
  cases hc : s.cache with
  | none =>
    obtain ⟨h1, h2⟩ := hS.none hc
    exact ⟨by simp [h2], fun _ => h2, fun c hcc => by rw [h1] at hcc; cases hcc⟩
  | some c =>
    obtain ⟨pc, h1, h2⟩ := hS.some c hc
    have sm := h2 none
    have hO : Owns good ⟨ps.heap, none⟩ (none : Slot R) c.nextId (items c ++ []) := sm.inv
    have hdef := hd c hc
    have hp : (pointers pc).Perm (c.nodes.map (·.ptr)) := by
      have h3 : pointers pc = (pc.table.filterMap (fun x => (pc.cell x.2).map (·.ptr))) := rfl
      rw [h3]
      refine (sm.tab.perm.filterMap _).trans (List.Perm.of_eq ?_)
      rw [List.filterMap_map]
      have hall : ∀ e ∈ c.nodes, pc.cell e.id = some (cellOf (owns R good).view e) := sm.rep.cellN
      clear h3 hdef hO hd
      revert hall
      generalize c.nodes = l
      intro hall
      induction l with
      | nil => rfl
      | cons e l ih =>
        rw [List.filterMap_cons]
        simp only [Function.comp, hall e (by simp), Option.map_some, List.map_cons]
        exact congrArg _ (ih (fun x hx => hall x (by simp [hx])))
    have hh : (ps.heap.map (·.1)).Perm (c.nodes.map (·.ptr)) := by
      refine (hO.heap.map _).trans (List.Perm.of_eq ?_)
      simp only [items, hdef, List.append_nil, List.map_map]
      rfl
    refine ⟨hO.keys, fun hn => (by rw [h1] at hn; cases hn), ?_⟩
    intro c' hc'
    rw [h1] at hc'
    cases hc'
    refine ⟨hh.trans hp.symm, ?_, ?_⟩
    · rw [hp.length_eq, sm.tab.perm.length_eq, List.length_map, List.length_map]
    · obtain ⟨G, g⟩ := sm.rep.groups
      show pc.defer = []
      have hG : ∀ x ∈ G, False := by
        intro x hx
        obtain ⟨i, hi⟩ := List.exists_mem_of_ne_nil _ (g.ne x hx)
        obtain ⟨e, he, _⟩ := g.key x hx i hi
        rw [hdef] at he
        cases he
      have hGn : G = [] := by
        cases G with
        | nil => rfl
        | cons x G => exact (hG x (by simp)).elim
      have := g.defer
      rw [hGn] at this
      simpa using this

theorem sameValues_of (hS : Stands (R := R) good ps s) (hd : ∀ c, s.cache = some c → c.defer = []) : SameValues ps s := by
  unfold SameValues
  cases hc : s.cache with
  | none => exact (hS.none hc).2
  | some c =>
    obtain ⟨pc, h1, h2⟩ := hS.some c hc
    have hO : Owns good ⟨ps.heap, none⟩ (none : Slot R) c.nextId (items c ++ []) := (h2 none).inv
    refine hO.heap.trans (List.Perm.of_eq ?_)
    simp only [items, hd c hc, List.append_nil, List.map_map]
    rfl

theorem flushAll_nodes {α : Type} {d a : α} {E : Env} {del : Deleter (Slot R) ν} {fl : List R} {s' : AggState ν} {out : α}
    (h : withBuffer (R := R) s d (fun w => do
      let w ← Lru.removeAll E del w
      .ok (w, a)) = .ok (s', out, fl)) : ∀ c, s'.cache = some c → c.nodes = [] := by
  unfold withBuffer at h
  cases hc : s.cache with
  | none => rw [hc] at h; cases h; intro c hcc; rw [hc] at hcc; cases hcc
  | some c =>
    rw [hc] at h
    simp only [bind, Except.bind, Lru.removeAll] at h
    split at h
    · cases h
    · rename_i x hx
      split at hx
      · cases hx
      · rename_i w hw
        split at hw
        · cases hw
        · cases hw
          cases hx
          cases h
          intro c' hc'
          cases hc'
          rfl

theorem empty_of (hS : Stands (R := R) good ps s) (hd : ∀ c, s.cache = some c → c.defer = [])
    (hn : ∀ c, s.cache = some c → c.nodes = []) : ps.heap = [] := by
  have h := sameValues_of hS hd
  unfold SameValues at h
  cases hc : s.cache with
  | none => rw [hc] at h; exact h
  | some c => rw [hc] at h; simp only at h; rw [hn c hc] at h; simpa using h
end

/-! ### Check -/
namespace Check
variable {D : Type} [DoubleOps D] {E : Env} {cfg : AggConfig} {h : Hist D} {tr : List (See D)} {s s' : AggState (Elem D)}
  {ps ps' : PAggState (Elem D)} {out : Out} {fl : List (CheckRequest D)}

theorem pStep_sim {c : Call D} (hS : St ps s) (hs : step E cfg c s = .ok (s', out, fl)) :
    ∃ ps', pStep E cfg c ps = .ok (ps', out, fl) ∧ St ps' s' := by
  cases c with
  | check r => exact pCheck_sim hS hs
  | cacheResponse r p => exact pCacheResponse_sim hS hs
  | flush => exact pFlush_sim hS hs
  | flushAll => exact pFlushAll_sim hS hs

theorem noDefer (r : Reach E cfg h s) : ∀ c, s.cache = some c → c.defer = [] := by
  intro c hc
  obtain ⟨_, L, q, _⟩ := r.inv.some c hc
  exact q.defer

/-- The call with objects does what the call without does, whether it returns or not. -/
theorem pStep_both (r : Reach E cfg h s) (hm : E.dbg = true → Mono E.clk) (hS : St ps s) (c : Call D) :
    (∃ s' ps' out fl, step E cfg c s = .ok (s', out, fl) ∧ pStep E cfg c ps = .ok (ps', out, fl) ∧ St ps' s') ∨
    (∃ q, c = .check q) ∧ step E cfg c s = .error .signedOverflow ∧ pStep E cfg c ps = .error .signedOverflow := by
  rcases C68_check_returns r hm c with ⟨⟨s', out, fl⟩, h1⟩ | ⟨⟨q, rfl⟩, h1⟩
  · obtain ⟨ps', h2, h3⟩ := pStep_sim hS h1
    exact .inl ⟨s', ps', out, fl, h1, h2, h3⟩
  · exact .inr ⟨⟨q, rfl⟩, h1, pCheck_err hS h1⟩

theorem PReach.stands (r : PReach E cfg tr ps) (hm : E.dbg = true → Mono E.clk) :
    ∃ h s, Reach E cfg h s ∧ seen h = tr ∧ St ps s := by
  induction r with
  | init hi =>
    obtain ⟨s, h1, _⟩ := init_inv (D := D) E cfg
    obtain ⟨ps0, h2, h3⟩ := pNew_sim h1
    rw [hi] at h2
    cases h2
    exact ⟨[], _, .init h1, rfl, h3.setCallback _⟩
  | @call tr ps c ps1 out fl r hs ih =>
    obtain ⟨h, s, h1, rfl, h2⟩ := ih
    rcases pStep_both h1 hm h2 c with ⟨s', ps', out', fl', e1, e2, e3⟩ | ⟨_, _, e2⟩
    · rw [hs] at e2
      cases e2
      exact ⟨_, s', .call h1 e1, rfl, e3⟩
    · rw [hs] at e2; cases e2

/-- C107: a check aggregator with objects on a heap behaves, seen from outside, as the one without;
every property of histories of the latter holds of it. -/
theorem C107_check_same (hm : E.dbg = true → Mono E.clk) (r : PReach E cfg tr ps) :
    ∃ h s, Reach E cfg h s ∧ seen h = tr ∧ ps.tick = s.tick ∧ SameValues ps s := by
  obtain ⟨h, s, h1, h2, h3⟩ := r.stands hm
  exact ⟨h, s, h1, h2, h3.tick, sameValues_of h3 (noDefer h1)⟩

/-- C107, the other way round, for any clock. -/
theorem C107_check_same_back (r : Reach E cfg h s) : ∃ ps, PReach E cfg (seen h) ps ∧ ps.tick = s.tick ∧ SameValues ps s := by
  have key : ∃ ps, PReach E cfg (seen h) ps ∧ St ps s := by
    induction r with
    | init h1 =>
      obtain ⟨ps, h2, h3⟩ := pNew_sim h1
      exact ⟨_, .init h2, h3.setCallback _⟩
    | call r hs ih =>
      obtain ⟨ps, h1, h2⟩ := ih
      obtain ⟨ps', e1, e2⟩ := pStep_sim h2 hs
      exact ⟨ps', .call h1 e1, e2⟩
  obtain ⟨ps, h1, h2⟩ := key
  exact ⟨ps, h1, h2.tick, sameValues_of h2 (noDefer r)⟩

/-- C107: no call uses an object after its deletion or deletes it twice: a call returns, unless a
check overflows an integer. -/
theorem C107_check_no_fault (hm : E.dbg = true → Mono E.clk) (r : PReach E cfg tr ps) (c : Call D) :
    (∃ res, pStep E cfg c ps = .ok res) ∨ (∃ q, c = .check q) ∧ pStep E cfg c ps = .error .signedOverflow := by
  obtain ⟨h, s, h1, _, h3⟩ := r.stands hm
  rcases pStep_both h1 hm h3 c with ⟨_, _, _, _, _, e, _⟩ | ⟨hq, _, e⟩
  · exact .inl ⟨_, e⟩
  · exact .inr ⟨hq, e⟩

/-- C107: between calls the objects are those the cache's entries point to, one each. -/
theorem C107_check_objects (hm : E.dbg = true → Mono E.clk) (r : PReach E cfg tr ps) : OneToOne ps := by
  obtain ⟨h, s, h1, _, h3⟩ := r.stands hm
  exact oneToOne_of h3 (noDefer h1)

/-- C107: `FlushAll`, hence the destructor, leaves no object. -/
theorem C107_check_no_leak (hm : E.dbg = true → Mono E.clk) (r : PReach E cfg tr ps) :
    ∃ ps' fl, pStep E cfg .flushAll ps = .ok (ps', ⟨.ok, none⟩, fl) ∧ ps'.heap = [] := by
  obtain ⟨h, s, h1, _, h3⟩ := r.stands hm
  rcases pStep_both h1 hm h3 .flushAll with ⟨s', ps', out, fl, e1, e2, e3⟩ | ⟨⟨q, hq⟩, _⟩
  · have ho : out = ⟨.ok, none⟩ := by
      simp only [step, flushAll, withBuffer] at e1
      cases hc : s.cache with
      | none => rw [hc] at e1; cases e1; rfl
      | some c =>
        rw [hc] at e1
        simp only [bind, Except.bind] at e1
        split at e1
        · cases e1
        · rename_i x hx
          split at hx
          · cases hx
          · cases hx; cases e1; rfl
    subst ho
    exact ⟨ps', fl, e2, empty_of e3 (noDefer (.call h1 e1)) (flushAll_nodes e1)⟩
  · cases hq
end Check

/-! ### Report -/
namespace Report
variable {D : Type} [DoubleOps D] {E : Env} {cfg : AggConfig} {h : Hist D} {tr : List (See D)} {s s' : AggState (OpAgg D)}
  {ps ps' : PAggState (OpAgg D)} {out : Status} {fl : List (ReportRequest D)}

theorem pStep_sim {c : Call D} (hS : St ps s) (hs : step E cfg c s = .ok (s', out, fl)) :
    ∃ ps', pStep E cfg c ps = .ok (ps', out, fl) ∧ St ps' s' := by
  cases c with
  | report r => exact pReport_sim hS hs
  | flush => exact pFlush_sim hS hs
  | flushAll => exact pFlushAll_sim hS hs

theorem noDefer (r : Reach E cfg h s) : ∀ c, s.cache = some c → c.defer = [] := by
  intro c hc
  obtain ⟨_, _, _, _, L, _, q, _⟩ := r.inv.some c hc
  exact q.defer

/-- The call with objects does what the call without does, whether it returns or not. -/
theorem pStep_both (r : Reach E cfg h s) (hm : E.dbg = true → Mono E.clk) (hS : St ps s) (c : Call D) :
    (∃ s' ps' out fl, step E cfg c s = .ok (s', out, fl) ∧ pStep E cfg c ps = .ok (ps', out, fl) ∧ St ps' s') ∨
    (∃ q, c = .report q) ∧ step E cfg c s = .error .signedOverflow ∧ pStep E cfg c ps = .error .signedOverflow := by
  rcases C64_report_returns r hm c with ⟨⟨s', out, fl⟩, h1⟩ | h1
  · obtain ⟨ps', h2, h3⟩ := pStep_sim hS h1
    exact .inl ⟨s', ps', out, fl, h1, h2, h3⟩
  · cases c with
    | report q => exact .inr ⟨⟨q, rfl⟩, h1, pReport_err hS h1⟩
    | flush => obtain ⟨⟨_, _, h2⟩, _⟩ := C64_report_flush_returns r hm; rw [h1] at h2; cases h2
    | flushAll => obtain ⟨_, _, _, h2⟩ := C64_report_flush_returns r hm; rw [h1] at h2; cases h2

theorem PReach.stands (r : PReach E cfg tr ps) (hm : E.dbg = true → Mono E.clk) :
    ∃ h s, Reach E cfg h s ∧ seen h = tr ∧ St ps s := by
  induction r with
  | init hi =>
    obtain ⟨s, h1, _⟩ := init_inv (D := D) E cfg
    obtain ⟨ps0, h2, h3⟩ := pNew_sim h1
    rw [hi] at h2
    cases h2
    exact ⟨[], _, .init h1, rfl, h3.setCallback _⟩
  | @call tr ps c ps1 out fl r hs ih =>
    obtain ⟨h, s, h1, rfl, h2⟩ := ih
    rcases pStep_both h1 hm h2 c with ⟨s', ps', out', fl', e1, e2, e3⟩ | ⟨_, _, e2⟩
    · rw [hs] at e2
      cases e2
      exact ⟨_, s', .call h1 e1, rfl, e3⟩
    · rw [hs] at e2; cases e2

/-- C107: a report aggregator with objects on a heap behaves, seen from outside, as the one without;
every property of histories of the latter holds of it. -/
theorem C107_report_same (hm : E.dbg = true → Mono E.clk) (r : PReach E cfg tr ps) :
    ∃ h s, Reach E cfg h s ∧ seen h = tr ∧ ps.tick = s.tick ∧ SameValues ps s := by
  obtain ⟨h, s, h1, h2, h3⟩ := r.stands hm
  exact ⟨h, s, h1, h2, h3.tick, sameValues_of h3 (noDefer h1)⟩

/-- C107, the other way round, for any clock. -/
theorem C107_report_same_back (r : Reach E cfg h s) : ∃ ps, PReach E cfg (seen h) ps ∧ ps.tick = s.tick ∧ SameValues ps s := by
  have key : ∃ ps, PReach E cfg (seen h) ps ∧ St ps s := by
    induction r with
    | init h1 =>
      obtain ⟨ps, h2, h3⟩ := pNew_sim h1
      exact ⟨_, .init h2, h3.setCallback _⟩
    | call r hs ih =>
      obtain ⟨ps, h1, h2⟩ := ih
      obtain ⟨ps', e1, e2⟩ := pStep_sim h2 hs
      exact ⟨ps', .call h1 e1, e2⟩
  obtain ⟨ps, h1, h2⟩ := key
  exact ⟨ps, h1, h2.tick, sameValues_of h2 (noDefer r)⟩

/-- C107: no call uses an object after its deletion or deletes it twice: a call returns, unless a
report overflows an integer. -/
theorem C107_report_no_fault (hm : E.dbg = true → Mono E.clk) (r : PReach E cfg tr ps) (c : Call D) :
    (∃ res, pStep E cfg c ps = .ok res) ∨ (∃ q, c = .report q) ∧ pStep E cfg c ps = .error .signedOverflow := by
  obtain ⟨h, s, h1, _, h3⟩ := r.stands hm
  rcases pStep_both h1 hm h3 c with ⟨_, _, _, _, _, e, _⟩ | ⟨hq, _, e⟩
  · exact .inl ⟨_, e⟩
  · exact .inr ⟨hq, e⟩

/-- C107: between calls the objects are those the cache's entries point to, one each. -/
theorem C107_report_objects (hm : E.dbg = true → Mono E.clk) (r : PReach E cfg tr ps) : OneToOne ps := by
  obtain ⟨h, s, h1, _, h3⟩ := r.stands hm
  exact oneToOne_of h3 (noDefer h1)

/-- C107: `FlushAll`, hence the destructor, leaves no object. -/
theorem C107_report_no_leak (hm : E.dbg = true → Mono E.clk) (r : PReach E cfg tr ps) :
    ∃ ps' fl, pStep E cfg .flushAll ps = .ok (ps', .ok, fl) ∧ ps'.heap = [] := by
  obtain ⟨h, s, h1, _, h3⟩ := r.stands hm
  obtain ⟨_, s', fl, e1⟩ := C64_report_flush_returns h1 hm
  obtain ⟨ps', e2, e3⟩ := pStep_sim h3 e1
  exact ⟨ps', fl, e2, empty_of e3 (noDefer (.call h1 e1)) (flushAll_nodes e1)⟩
end Report

/-! ### Quota -/
namespace Quota
variable {D : Type} {E : Env} {cfg : AggConfig} {h : Hist D} {tr : List (See D)} {s s' : State D}
  {ps ps' : PState D} {out : Out} {fl : List (AllocateQuotaRequest D)} {d : Nat}

theorem pStep_sim {c : Call D} (hS : St ps s) (hs : step E cfg (d + 1) c s = .ok (s', out, fl)) :
    ∃ ps', pStep E cfg (d + 1) c ps = .ok (ps', out, fl) ∧ St ps' s' := by
  cases c with
  | quota r => exact pQuota_sim hS hs
  | cacheResponse r p => exact pCacheResponse_sim hS hs
  | flush => exact pFlush_sim hS hs
  | flushAll => exact pFlushAll_sim hS hs

theorem Reach.objects (r : Reach E cfg h s) : ∃ ps, PReach E cfg (seen h) ps ∧ St ps s := by
  induction r with
  | init h1 =>
    obtain ⟨ps, h2, h3⟩ := pNew_sim h1
    exact ⟨_, .init h2, h3.base.setCallback _, h3.all⟩
  | call r hs ih =>
    obtain ⟨ps, h1, h2⟩ := ih
    obtain ⟨ps', e1, e2⟩ := pStep_sim h2 hs
    exact ⟨ps', .call h1 e1, e2⟩

section
variable (hm : Mono E.clk) (hf : 0 < E.extraFuel) (hpos : 0 < cfg.numEntries)
include hm hf hpos

theorem noDefer (r : Reach E cfg h s) : ∀ c, s.base.cache = some c → c.defer = [] := by
  obtain ⟨s0, inAll, rfl, _⟩ := r.inv hm hf hpos
  intro c hc
  simp only [stateOf, Option.some.injEq] at hc
  subst hc
  rfl

/-- Calls that always return. -/
theorem step_returns (r : Reach E cfg h s) (c : Call D) (hq : ∀ q, c ≠ .quota q) :
    ∃ res, step E cfg (d + 1) c s = .ok res := by
  obtain ⟨s0, inAll, rfl, hi⟩ := r.inv hm hf hpos
  cases c with
  | quota q => exact absurd rfl (hq q)
  | flush => exact ⟨_, flush_eq hm hf cfg inAll d s0 hi.inv hi.out⟩
  | flushAll => exact ⟨_, flushAll_eq cfg inAll d s0 hi.inv hi.out⟩
  | cacheResponse q p =>
    cases hfk : findKey (allocateQuotaSig cfg.H q) (expireAll E cfg inAll s0).N with
    | none => exact ⟨_, cacheResponse_miss hm hf cfg inAll d s0 hi.inv hi.out q p (findKey_none.mp hfk)⟩
    | some e =>
      obtain ⟨A, B, hN, hk, _⟩ := find_split hfk
      exact ⟨_, cacheResponse_hit hm hf cfg inAll d s0 hi.inv hi.out q p A B e hN hk⟩

/-- A failure of `Quota` with room in the cache happens in merging, after a lookup. -/
theorem quota_fails (r : Reach E cfg h s) (q : AllocateQuotaRequest D) {err : Fault}
    (hroom : ident (allocateQuotaSig cfg.H q) h ≠ none ∨ ((entriesOf s).length : Int) < cfg.numEntries)
    (hs : quota E cfg (d + 1) q s = .error err) (hS : St ps s) : pQuota E cfg (d + 1) q ps = .error err := by
  have hv : Valid cfg q := by
    by_contra hv
    have := C44_invalid_rejected (E := E) (s := s) (d := d + 1) q hv
    simp only [step] at this
    rw [hs] at this
    cases this
  refine pQuota_err hS hs ?_
  obtain ⟨s0, inAll, rfl, hi⟩ := r.inv hm hf hpos
  have hinv := (removeExpired_eq hm hf cfg inAll d s0 hi.inv).2
  obtain ⟨ht1, hn1, hbg⟩ := expireAll_bg E cfg inAll s0 hi.inv.keys hi.out
  have hrm := quota_miss_room hm hf cfg inAll d s0 hi.inv hi.out q hv
  have hq := quota_hit hm hf cfg inAll d s0 hi.inv hi.out q hv
  have hlk := lookup_eq hm hf cfg inAll d s0 hi.inv (allocateQuotaSig cfg.H q)
  have hsub := fun k => hbg.sub k
  have hit := hit_eq (E := E) cfg (onDelete E cfg inAll (d + 1)) _ hinv
  generalize expireAll E cfg inAll s0 = s1 at *
  intro w hw1 hw2 hw3
  have hw : w = s0.world (w0 cfg) := by
    obtain ⟨wc, wt, we⟩ := w
    simp only [stateOf, Option.some.injEq] at hw1 hw2 hw3
    subst hw1 hw2 hw3
    rw [world_eq, hi.out]
    rfl
  subst hw
  cases hfk : findKey (allocateQuotaSig cfg.H q) s1.N with
  | none =>
    exfalso
    have hno := findKey_none.mp hfk
    rw [hrm hno ?_] at hs
    · cases hs
    rcases hroom with h1 | h1
    · rw [hi.id] at h1
      have := length_lt_of_gone hinv.keys hsub _ (fun e => h1 (by rw [e]; rfl)) (view_none.mpr hno)
      have := hi.inv.len; omega
    · have := length_le_of_sub hinv.keys hsub
      simp only [entriesOf, stateOf, cacheOf, List.length_map] at h1
      omega
  | some e =>
    obtain ⟨A, B, hN, hk, hA⟩ := find_split hfk
    obtain ⟨w1, e1, hp, hval, hptr, ht, _, _⟩ := hit A B e _ hN hk (some (s1.out.map (·.2)))
    have hp' : Lru.pinKey true (allocateQuotaSig cfg.H q) (s1.world (w0 cfg)) = (w1, some e1) := by rw [world_eq]; exact hp
    rw [hp'] at hlk
    refine ⟨w1, e1, hlk, ?_⟩
    rw [hq A B e hN hk] at hs
    rw [hval, ht]
    generalize refresh E cfg e.val s1.t = rf at hs ⊢
    obtain ⟨v, t, qs⟩ := rf
    simp only at hs ⊢
    by_cases hpp : v.positive
    · rw [if_pos hpp] at hs
      refine ⟨hpp, ?_⟩
      cases hag : v.aggregate E q with
      | ok v' => rw [hag] at hs; cases hs
      | error x => rw [hag] at hs; cases hs; rfl
    · rw [if_neg hpp] at hs; cases hs

/-- C107: a quota aggregator with objects on a heap, whose deleter puts objects back into the cache,
behaves, seen from outside, as the one without.  For every history of the latter there is one with
objects: the same results, objects with the values of the entries, and from there every call that
returns without objects returns the same with them, and leaves the objects one to one with the
entries. -/
theorem C107_quota_same (r : Reach E cfg h s) : ∃ ps, PReach E cfg (seen h) ps ∧ ps.base.tick = s.base.tick ∧
    SameValues ps.base s.base ∧ OneToOne ps.base ∧
    ∀ d c s' out fl, step E cfg (d + 1) c s = .ok (s', out, fl) → ∃ ps', pStep E cfg (d + 1) c ps = .ok (ps', out, fl) ∧
      OneToOne ps'.base ∧ SameValues ps'.base s'.base := by
  obtain ⟨ps, h1, h2⟩ := r.objects
  refine ⟨ps, h1, h2.base.tick, sameValues_of h2.base (noDefer hm hf hpos r), oneToOne_of h2.base (noDefer hm hf hpos r), ?_⟩
  intro d c s' out fl hs
  obtain ⟨ps', e1, e2⟩ := pStep_sim h2 hs
  have hd := noDefer hm hf hpos (.call r hs)
  exact ⟨ps', e1, oneToOne_of e2.base hd, sameValues_of e2.base hd⟩

/-- C107: no call uses an object after its deletion or deletes it twice: with room in the cache a
call returns, unless merging the caller's operations fails by itself. -/
theorem C107_quota_no_fault (r : Reach E cfg h s) : ∃ ps, PReach E cfg (seen h) ps ∧ ∀ d c,
    (∀ q, c = .quota q → ident (allocateQuotaSig cfg.H q) h ≠ none ∨ ((entriesOf s).length : Int) < cfg.numEntries) →
    (∃ res, pStep E cfg (d + 1) c ps = .ok res) ∨
    ∃ q err x xs, c = .quota q ∧ pStep E cfg (d + 1) c ps = .error err ∧ QuotaAgg.aggregate E.dbg x xs = .error err ∧
      ∀ o ∈ x :: xs, ∃ r ∈ q :: requests h, allocateQuotaSig cfg.H r = allocateQuotaSig cfg.H q ∧ r.op = o := by
  obtain ⟨ps, h1, h2⟩ := r.objects
  refine ⟨ps, h1, ?_⟩
  intro d c hroom
  have good : ∀ res, step E cfg (d + 1) c s = .ok res → ∃ res, pStep E cfg (d + 1) c ps = .ok res := by
    intro ⟨s', out, fl⟩ hs
    obtain ⟨ps', e1, _⟩ := pStep_sim h2 hs
    exact ⟨_, e1⟩
  by_cases hq : ∃ q, c = .quota q
  · obtain ⟨q, rfl⟩ := hq
    by_cases hv : Valid cfg q
    · rcases C44_quota_total (d := d) hm hf hpos r q hv (hroom q rfl) with ⟨res, hs⟩ | ⟨err, x, xs, hs, hx⟩
      · exact .inl (good res hs)
      · exact .inr ⟨q, err, x, xs, rfl, quota_fails hm hf hpos r q (hroom q rfl) hs h2, hx⟩
    · exact .inl (good _ (C44_invalid_rejected q hv))
  · obtain ⟨res, hs⟩ := step_returns (d := d) hm hf hpos r c (fun q e => hq ⟨q, e⟩)
    exact .inl (good res hs)

/-- C107: `FlushAll`, hence the destructor, leaves no object. -/
theorem C107_quota_no_leak (r : Reach E cfg h s) : ∃ ps, PReach E cfg (seen h) ps ∧
    ∀ d, ∃ ps' fl, pStep E cfg (d + 1) .flushAll ps = .ok (ps', ⟨.ok, none⟩, fl) ∧ ps'.base.heap = [] := by
  obtain ⟨ps, h1, h2⟩ := r.objects
  refine ⟨ps, h1, fun d => ?_⟩
  obtain ⟨s0, inAll, rfl, hi⟩ := r.inv hm hf hpos
  have hs := flushAll_eq cfg inAll d s0 hi.inv hi.out
  obtain ⟨ps', e1, e2⟩ := pStep_sim (c := .flushAll) h2 hs
  refine ⟨ps', _, e1, empty_of e2.base (noDefer hm hf hpos (.call (c := .flushAll) r hs)) ?_⟩
  intro c hc
  simp only [done, stateOf, Option.some.injEq] at hc
  subst hc
  rfl
end
end Quota

/-! ### Examples -/
section examples

/-- A run from a given state. -/
def pRun {S C O R : Type} (st : C → S → Res (S × O × List R)) : List C → List (Seen C O R) → S → Res (List (Seen C O R) × S)
  | [], tr, s => .ok (tr, s)
  | c :: cs, tr, s => do
    let (s', out, fl) ← st c s
    pRun st cs (⟨c, out, fl⟩ :: tr) s'

theorem pRun_reach {S C O R : Type} {st : C → S → Res (S × O × List R)} {Rc : List (Seen C O R) → S → Prop}
    (hc : ∀ {tr s c s' out fl}, Rc tr s → st c s = .ok (s', out, fl) → Rc (⟨c, out, fl⟩ :: tr) s') :
    ∀ (cs : List C) {tr s tr' s'}, Rc tr s → pRun st cs tr s = .ok (tr', s') → Rc tr' s'
  | [], tr, s, tr', s', r, h => by cases h; exact r
  | c :: cs, tr, s, tr', s', r, h => by
    unfold pRun at h
    simp only [bind, Except.bind] at h
    split at h
    · cases h
    · rename_i v hv
      exact pRun_reach hc cs (hc r hv) h

/-- What a run from a new aggregator satisfies. -/
def pRunIs {S C O R : Type} (st : C → S → Res (S × O × List R)) (new : Res S) (mk : S → S) (cs : List C)
    (P : List (Seen C O R) → S → Prop) [∀ h s, Decidable (P h s)] : Bool :=
  match new with
  | .ok s => (match pRun st cs [] (mk s) with | .ok (tr, s) => decide (P tr s) | .error _ => false)
  | .error _ => false

theorem pRun_case {S C O R : Type} {st : C → S → Res (S × O × List R)} {Rc : List (Seen C O R) → S → Prop} {new : Res S}
    {mk : S → S} (hi : ∀ {s}, new = .ok s → Rc [] (mk s))
    (hc : ∀ {tr s c s' out fl}, Rc tr s → st c s = .ok (s', out, fl) → Rc (⟨c, out, fl⟩ :: tr) s')
    (cs : List C) (P : List (Seen C O R) → S → Prop) [∀ h s, Decidable (P h s)]
    (hb : pRunIs st new mk cs P = true) : ∃ tr s, Rc tr s ∧ P tr s := by
  unfold pRunIs at hb
  cases hn : new with
  | error e => rw [hn] at hb; cases hb
  | ok s0 =>
    rw [hn] at hb
    simp only at hb
    cases hr : pRun st cs [] (mk s0) with
    | error e => rw [hr] at hb; cases hb
    | ok v => rw [hr] at hb; exact ⟨v.1, v.2, pRun_reach hc cs (hi hn) hr, of_decide_eq_true hb⟩

/-- The third response evicts the first: its object is deleted, its operation flushed. -/
theorem example_check_objects : ∃ tr ps, Check.PReach (D := Int) Report.exEnv Check.exCfg tr ps ∧
    ps.heap.map (·.1) = [2, 1] ∧ tr.length = 5 ∧
    tr.map (fun x => x.flushed.length) = [1, 0, 0, 0, 0] ∧ OneToOne ps := by
  obtain ⟨tr, ps, r, h1, h2, h3⟩ := pRun_case (new := Check.pNew (D := Int) Report.exEnv Check.exCfg)
    (mk := fun s => s.setFlushCallback true) (st := Check.pStep Report.exEnv Check.exCfg)
    (Rc := Check.PReach Report.exEnv Check.exCfg) (fun h => .init h) (fun r h => .call r h)
    [.check (Check.exReq 1 5), .cacheResponse (Check.exReq 1 5) (Check.exYes 7), .check (Check.exReq 1 6),
      .cacheResponse (Check.exReq 2 1) Check.exNo, .cacheResponse (Check.exReq 3 1) (Check.exYes 8)]
    (fun tr ps => ps.heap.map (·.1) = [2, 1] ∧ tr.length = 5 ∧ tr.map (fun x => x.flushed.length) = [1, 0, 0, 0, 0])
    (by decide +kernel)
  exact ⟨tr, ps, r, h1, h2, h3, Check.C107_check_objects (fun _ => Report.exEnv_mono) r⟩

/-- Three operations in a cache for two: the first one's object is deleted and flushed. -/
theorem example_report_objects : ∃ tr ps, Report.PReach (D := Int) Report.exEnv Report.exCfg tr ps ∧
    ps.heap.map (·.1) = [2, 1] ∧ tr.map (fun x => (x.flushed.flatMap (·.operations)).map (·.operationName)) = [[[1]]] ∧ OneToOne ps := by
  obtain ⟨tr, ps, r, h1, h2⟩ := pRun_case (new := Report.pNew (D := Int) Report.exEnv Report.exCfg)
    (mk := fun s => s.setFlushCallback true) (st := Report.pStep Report.exEnv Report.exCfg)
    (Rc := Report.PReach Report.exEnv Report.exCfg) (fun h => .init h) (fun r h => .call r h)
    [Report.exReport [Report.exNamed 1 5, Report.exNamed 2 5, Report.exNamed 3 5]]
    (fun tr ps => ps.heap.map (·.1) = [2, 1] ∧
      tr.map (fun x => (x.flushed.flatMap (·.operations)).map (·.operationName)) = [[[1]]])
    (by decide +kernel)
  exact ⟨tr, ps, r, h1, h2, Report.C107_report_objects (fun _ => Report.exEnv_mono) r⟩

/-- The deleter puts an expired entry back, more than once, and sends what it holds; the object
stays the same. -/
theorem example_quota_objects : ∃ tr ps, Quota.PReach Quota.exEnv Quota.exCfg tr ps ∧
    ps.base.heap.map (·.1) = [1, 0] ∧
    (tr.flatMap (·.flushed)).map Quota.tokens = [15, 1, 5] ∧ tr.length = 11 := by
  exact pRun_case (new := Quota.pNew (D := Int) Quota.exEnv Quota.exCfg 3)
    (mk := fun s => { s with base := s.base.setFlushCallback true }) (st := Quota.pStep Quota.exEnv Quota.exCfg 3)
    (Rc := Quota.PReach Quota.exEnv Quota.exCfg) (fun h => .init h) (fun r h => .call r h)
    ([.quota (Quota.exQ 1 5), .cacheResponse (Quota.exQ 1 5) (Quota.exYes 1), .quota (Quota.exQ 1 7), .quota (Quota.exQ 2 1),
      .quota (Quota.exQ 1 8)] ++ List.replicate 6 .flush)
    (fun tr ps => ps.base.heap.map (·.1) = [1, 0] ∧ (tr.flatMap (·.flushed)).map Quota.tokens = [15, 1, 5] ∧ tr.length = 11)
    (by decide +kernel)

end examples
end Verif
