import Verif.Lemmas.ReportAggregator
import Verif.Spec.CheckAggregator
/-
The check aggregator as a function on lists of entries, and the invariant of its histories.
-/
set_option linter.unusedSectionVars false

namespace Verif.Check
open Lru

variable {D : Type} [DoubleOps D]

/-! ### Refinement to lists -/

abbrev CEnt (D : Type) := Ent (Elem D)

/-- What the deletion of an entry passes on. -/
def reqOf (cfg : AggConfig) (x : CEnt D) : Option (CheckRequest D) :=
  x.val.agg.map (fun _ => x.val.returnRequest cfg)

/-- The deleter, as a function on the buffer. -/
def addDel (cfg : AggConfig) (v : Elem D) (s : Slot (CheckRequest D)) : Slot (CheckRequest D) :=
  match v.agg with
  | none => s
  | some _ => addRemovedItem noMerge (v.returnRequest cfg) s

theorem onDelete_eq (cfg : AggConfig) : onDelete (D := D) cfg = valDel (addDel cfg) := by
  funext e w
  unfold onDelete valDel pureDel addDel
  cases h : e.val.agg <;> simp [h]

theorem bufferAdd_noMerge {R : Type} (items : List R) (r : R) : bufferAdd noMerge items r = items ++ [r] := by
  unfold bufferAdd noMerge
  cases items.getLast? <;> rfl

theorem outOf_spec (cfg : AggConfig) (G : List (CEnt D)) : ∀ items : List (CheckRequest D),
    outOf (addDel cfg) G (some items) = some (items ++ G.filterMap (reqOf cfg)) := by
  induction G with
  | nil => intro items; simp [outOf]
  | cons x G ih =>
    intro items
    unfold outOf at ih ⊢
    rw [List.foldl_cons]
    cases hx : x.val.agg with
    | none =>
      have h1 : addDel cfg x.val (some items) = some items := by simp [addDel, hx]
      have h2 : reqOf cfg x = none := by simp [reqOf, hx]
      rw [h1, ih, List.filterMap_cons_none h2]
    | some a =>
      have h1 : addDel cfg x.val (some items) = some (items ++ [x.val.returnRequest cfg]) := by
        simp [addDel, hx, addRemovedItem, bufferAdd_noMerge]
      have h2 : reqOf cfg x = some (x.val.returnRequest cfg) := by simp [reqOf, hx]
      rw [h1, ih, List.filterMap_cons_some h2]
      simp

/-- The parameters of the cache. -/
def params (cfg : AggConfig) : Params :=
  ⟨cfg.numEntries, match cfg.timeout cfg.expirationMs with | none => -1 | some c => c, true⟩

/-- A call on a list of entries, from clock reading `t`: the new list, the next clock reading, the
result, and the entries removed. -/
def aStep (E : Env) (cfg : AggConfig) (c : Call D) (L : List (CEnt D)) (t : Nat) :
    Res (List (CEnt D) × Nat × Out × List (CEnt D)) :=
  let K := keepOf (params cfg) (E.clk t) L
  let G := goneOf (params cfg) (E.clk t) L
  let t1 := t + ticksOf (params cfg)
  match c with
  | .check r =>
    if r.serviceName ≠ cfg.serviceName then .ok (L, t, ⟨.invalidArgument, none⟩, [])
    else match r.operation with
    | none => .ok (L, t, ⟨.invalidArgument, none⟩, [])
    | some o =>
      if o.importance ≠ importanceLow then .ok (L, t, ⟨.notFound, none⟩, [])
      else match findL (checkRequestSig cfg.H r) K with
      | none => .ok (K, t1, ⟨.notFound, none⟩, G)
      | some x => do
        let (v, t2, out) ← checkElem E cfg o x.val t1
        .ok (putL true (checkRequestSig cfg.H r) v (E.clk t2) K, t2 + 1, out, G)
  | .cacheResponse r resp =>
    match findL (checkRequestSig cfg.H r) K with
    | some x =>
      .ok (putL true (checkRequestSig cfg.H r)
        { x.val with lastCheck := E.clk t1, response := resp, quotaScale := 0, isFlushing := false }
        (E.clk (t1 + 1)) K, t1 + 2, ⟨.ok, none⟩, G)
    | none =>
      .ok (insL cfg.numEntries (checkRequestSig cfg.H r) ⟨resp, E.clk t1, 0, false, none⟩ (E.clk (t1 + 2)) K,
        t1 + 3, ⟨.ok, none⟩, G ++ evL cfg.numEntries K)
  | .flush => .ok (K, t1, ⟨.ok, none⟩, G)
  | .flushAll => .ok ([], t, ⟨.ok, none⟩, L)

theorem step_view (E : Env) (cfg : AggConfig) (call : Call D) (s : AggState (Elem D)) (c : Cache (Elem D))
    (hc : s.cache = some c) (L : List (CEnt D)) (q : Quiet (params cfg) L c) (hd : E.dbg = true → Sorted L) :
    match aStep E cfg call L s.tick with
    | .error e => step E cfg call s = .error e
    | .ok (L', t', out, G) => ∃ (c' : Cache (Elem D)) (G' : List (CEnt D)), step E cfg call s =
        .ok ({ s with cache := some c', tick := t' }, out, flushOut s.callback (G'.filterMap (reqOf cfg))) ∧
        Quiet (params cfg) L' c' ∧ G'.Perm G := by
  have hself : ({ s with cache := some c, tick := s.tick } : AggState (Elem D)) = s := by
    cases s; simp at hc; simp [hc]
  have hid : ∀ out : Out, ∃ (c' : Cache (Elem D)) (G' : List (CEnt D)), (Except.ok (s, out, []) : Res (AggState (Elem D) × Out × List (CheckRequest D))) =
      .ok ({ s with cache := some c', tick := s.tick }, out, flushOut s.callback (G'.filterMap (reqOf cfg))) ∧
        Quiet (params cfg) L c' ∧ G'.Perm [] := fun out =>
    ⟨c, [], by rw [hself]; simp [flushOut], q, .refl _⟩
  set w : World (Slot (CheckRequest D)) (Elem D) := { cache := c, tick := s.tick, ext := some [] } with hw
  have hnow : w.now E = E.clk s.tick := rfl
  have hwt : w.tick = s.tick := rfl
  have hwe : w.ext = some [] := rfl
  cases call with
  | check r =>
    simp only [aStep, step, check]
    by_cases h1 : r.serviceName ≠ cfg.serviceName
    · simp only [if_pos h1]; exact hid _
    simp only [if_neg h1]
    cases ho : r.operation with
    | none => exact hid _
    | some o =>
      simp only
      by_cases h2 : o.importance ≠ importanceLow
      · simp only [if_pos h2, decide_eq_true h2, Bool.true_or, if_true]; exact hid _
      simp only [if_neg h2, decide_eq_false h2, hc, Option.isNone_some, Bool.or_self, Bool.false_eq_true, if_false,
        withBuffer, onDelete_eq, ← hw]
      cases hf : findL (checkRequestSig cfg.H r) (keepOf (params cfg) (E.clk s.tick) L) with
      | none =>
        obtain ⟨w1, h1, q1, t1, e1⟩ := lookup_quiet_none E (addDel cfg) _ w q hd hf
        rw [h1]
        simp only [bind, Except.bind]
        refine ⟨w1.cache, goneOf (params cfg) (E.clk s.tick) L, ?_, q1, .refl _⟩
        rw [t1, e1, hwe, outOf_spec]
        rfl
      | some x =>
        obtain ⟨w1, e, h1, hval, t1, e1, hrel⟩ := lookup_quiet_some E (addDel cfg) _ w q hd x hf
        have t1' : w1.tick = s.tick + ticksOf (params cfg) := t1
        rw [h1]
        simp only [bind, Except.bind, hval, t1']
        cases hce : checkElem E cfg o x.val (s.tick + ticksOf (params cfg)) with
        | error er => simp
        | ok res =>
          obtain ⟨v, t2, out⟩ := res
          simp only
          obtain ⟨w3, h3, q3, t3, e3⟩ := hrel v t2 _ (Or.inl rfl)
          rw [h3]
          refine ⟨w3.cache, goneOf (params cfg) (E.clk s.tick) L, ?_, q3, .refl _⟩
          simp only
          rw [t3, e3, hwe, outOf_spec]
          rfl
  | cacheResponse r resp =>
    simp only [aStep, step, cacheResponse, withBuffer, hc, onDelete_eq, ← hw]
    cases hf : findL (checkRequestSig cfg.H r) (keepOf (params cfg) (E.clk s.tick) L) with
    | none =>
      obtain ⟨w1, h1, q1, t1, e1⟩ := lookup_quiet_none E (addDel cfg) _ w q hd hf
      have t1' : w1.tick = s.tick + ticksOf (params cfg) := t1
      rw [h1]
      simp only [bind, Except.bind]
      obtain ⟨w2, h2, q2, t2, e2⟩ := insert_quiet E (addDel cfg) (checkRequestSig cfg.H r)
        (⟨resp, E.clk w1.tick, 0, false, none⟩ : Elem D) w1.ticked q1 (findL_none.mp hf)
      have hn : w1.ticked.cache.nextId = w1.cache.nextId := rfl
      rw [h2]
      have ht : w1.ticked.tick = s.tick + ticksOf (params cfg) + 1 := by simp [World.ticked, t1']
      have hl : (params cfg).lru = true := rfl
      refine ⟨w2.cache, goneOf (params cfg) (E.clk s.tick) L ++
        evL cfg.numEntries (keepOf (params cfg) (E.clk s.tick) L), ?_, ?_, .refl _⟩
      · simp only
        have e1' : w1.ticked.ext = w1.ext := rfl
        rw [t2, ht, e2, e1', e1, hwe, hnow, ← outOf_append, outOf_spec, hl]
        rfl
      · rw [ht, t1', hl] at q2
        exact q2
    | some x =>
      obtain ⟨w1, e, h1, hval, t1, e1, hrel⟩ := lookup_quiet_some E (addDel cfg) _ w q hd x hf
      have t1' : w1.tick = s.tick + ticksOf (params cfg) := t1
      rw [h1]
      simp only [bind, Except.bind, hval]
      obtain ⟨w3, h3, q3, t3, e3⟩ := hrel
        { x.val with lastCheck := E.clk w1.tick, response := resp, quotaScale := 0, isFlushing := false }
        (w1.tick + 1) (setVal e.ptr _ w1.ticked) (Or.inl rfl)
      rw [h3]
      refine ⟨w3.cache, goneOf (params cfg) (E.clk s.tick) L, ?_, ?_, .refl _⟩
      · simp only
        rw [t3, e3, hwe, outOf_spec, t1']
        rfl
      · rw [t1'] at q3
        exact q3
  | flush =>
    simp only [aStep, step, flush, withBuffer, hc, onDelete_eq, ← hw]
    obtain ⟨w1, h1, q1, t1, e1, _⟩ := removeExpired_quiet E (addDel cfg) w q hd
    rw [h1]
    refine ⟨w1.cache, goneOf (params cfg) (E.clk s.tick) L, ?_, q1, .refl _⟩
    simp only [bind, Except.bind]
    rw [t1, e1, hwe, outOf_spec]
    rfl
  | flushAll =>
    simp only [aStep, step, flushAll, withBuffer, hc, onDelete_eq, ← hw]
    obtain ⟨w1, G, h1, q1, hp, t1, e1⟩ := removeAll_quiet E (addDel cfg) w q
    rw [h1]
    refine ⟨w1.cache, G, ?_, q1, hp⟩
    simp only [bind, Except.bind]
    rw [t1, e1, hwe, outOf_spec]
    rfl

/-! ### Groups -/

/-- `agg` is the aggregate of the operations `g`; none for no operations. -/
def AggOf (cfg : AggConfig) (agg : Option (OpAgg D)) (g : List (Operation D)) : Prop :=
  match agg with
  | none => g = []
  | some a => ∃ o os, g = o :: os ∧ OpAgg.aggregate cfg.H cfg.kinds o os = .ok a

theorem AggOf.add {cfg : AggConfig} {v v' : Elem D} {g : List (Operation D)} (h : AggOf cfg v.agg g) (o : Operation D)
    (ha : v.aggregate cfg o = .ok v') : AggOf cfg v'.agg (g ++ [o]) := by
  unfold Elem.aggregate at ha
  cases hv : v.agg with
  | none =>
    simp only [AggOf, hv] at h
    simp only [hv, bind, Except.bind] at ha
    cases hn : OpAgg.new cfg.H cfg.kinds o with
    | error e => simp [hn] at ha
    | ok a =>
      rw [hn] at ha
      cases ha
      refine ⟨o, [], by simp [h], ?_⟩
      simp only [OpAgg.aggregate, hn, bind, Except.bind, List.foldlM_nil]
      rfl
  | some b =>
    simp only [AggOf, hv] at h
    obtain ⟨x, xs, hg, hb⟩ := h
    simp only [hv, bind, Except.bind] at ha
    cases hn : b.mergeOperation cfg.H cfg.kinds o with
    | error e => simp [hn] at ha
    | ok a =>
      rw [hn] at ha
      cases ha
      refine ⟨x, xs ++ [o], by simp [hg], ?_⟩
      rw [aggregate_snoc, hb]
      exact hn

theorem AggOf.add_error {cfg : AggConfig} {v : Elem D} {g : List (Operation D)} (h : AggOf cfg v.agg g) (o : Operation D)
    (e : Fault) (ha : v.aggregate cfg o = .error e) : e = .signedOverflow := by
  unfold Elem.aggregate at ha
  cases hv : v.agg with
  | none =>
    simp only [hv, bind, Except.bind] at ha
    cases hn : OpAgg.new cfg.H cfg.kinds o with
    | error e' => rw [hn] at ha; cases ha; exact Report.new_error o e hn
    | ok a => rw [hn] at ha; cases ha
  | some b =>
    simp only [AggOf, hv] at h
    obtain ⟨x, xs, hg, hb⟩ := h
    simp only [hv, bind, Except.bind] at ha
    cases hn : b.mergeOperation cfg.H cfg.kinds o with
    | error e' =>
      rw [hn] at ha; cases ha
      refine C16_only_overflow cfg.H cfg.kinds x (xs ++ [o]) e ?_
      rw [aggregate_snoc, hb]; exact hn
    | ok a => rw [hn] at ha; cases ha

/-- The groups: those flushed, and one for each entry with a pending aggregate. -/
structure CG (cfg : AggConfig) (arr : List (Bytes × Operation D)) (out : List (Group D)) (outOps : List (Operation D))
    (grp : Bytes → List (Operation D)) (L : List (CEnt D)) : Prop where
  sums : List.Forall₂ (Group.Sum cfg) out outOps
  ent : ∀ x ∈ L, AggOf cfg x.val.agg (grp x.key)
  absent : ∀ k, (∀ x ∈ L, x.key ≠ k) → grp k = []
  split : ∀ k, (arr.filter (fun a => a.1 == k)).map (·.2) = (out.filter (·.sig == k)).flatMap (·.ops) ++ grp k

def upd (grp : Bytes → List (Operation D)) (k : Bytes) (g : List (Operation D)) : Bytes → List (Operation D) :=
  fun k' => if k' = k then g else grp k'

theorem CG.congr {cfg : AggConfig} {arr : List (Bytes × Operation D)} {out : List (Group D)}
    {outOps : List (Operation D)} {grp : Bytes → List (Operation D)} {L L' : List (CEnt D)}
    (h : CG cfg arr out outOps grp L) (hL : ∀ x, x ∈ L' ↔ x ∈ L) : CG cfg arr out outOps grp L' :=
  ⟨h.sums, fun x hx => h.ent x ((hL x).mp hx), fun k hk => h.absent k (fun x hx => hk x ((hL x).mpr hx)), h.split⟩

/-- Replacing or adding the entry of `k`. -/
theorem CG.set {cfg : AggConfig} {arr : List (Bytes × Operation D)} {out : List (Group D)}
    {outOps : List (Operation D)} {grp : Bytes → List (Operation D)} {L L' : List (CEnt D)}
    (h : CG cfg arr out outOps grp L) (y : CEnt D) (hm : ∀ z, z ∈ L' ↔ z = y ∨ z ∈ L ∧ z.key ≠ y.key)
    (add : List (Operation D)) (hg : AggOf cfg y.val.agg (grp y.key ++ add)) :
    CG cfg (arr ++ add.map (fun o => (y.key, o))) out outOps (upd grp y.key (grp y.key ++ add)) L' := by
  refine ⟨h.sums, ?_, ?_, ?_⟩
  · intro z hz
    rcases (hm z).mp hz with rfl | ⟨hz, hne⟩
    · simpa [upd] using hg
    · simp only [upd, hne, if_false]; exact h.ent z hz
  · intro k hk
    have hne : k ≠ y.key := fun e => hk y ((hm y).mpr (Or.inl rfl)) e.symm
    simp only [upd, hne, if_false]
    refine h.absent k (fun z hz e => hk z ((hm z).mpr (Or.inr ⟨hz, ?_⟩)) e)
    rw [e]; exact hne
  · intro k
    rw [List.filter_append, List.map_append, h.split k]
    by_cases hk : k = y.key
    · subst hk
      have : (add.map (fun o => (y.key, o))).filter (fun a => a.1 == y.key) = add.map (fun o => (y.key, o)) := by
        rw [List.filter_eq_self]; simp
      simp [upd, this, List.map_map, Function.comp_def]
    · have : (add.map (fun o => (y.key, o))).filter (fun a => a.1 == k) = [] := by
        rw [List.filter_eq_nil_iff]; simp [Ne.symm hk]
      simp [upd, this, hk]

theorem CG.evict {cfg : AggConfig} {arr : List (Bytes × Operation D)} (G : List (CEnt D)) :
    ∀ {out : List (Group D)} {outOps : List (Operation D)} {grp : Bytes → List (Operation D)}
    {L K : List (CEnt D)}, CG cfg arr out outOps grp L → (L.map (·.key)).Nodup → (G ++ K).Perm L →
    ∃ out' grp', CG cfg arr out' (outOps ++ (G.filterMap (reqOf cfg)).filterMap (·.operation)) grp' K := by
  induction G with
  | nil =>
    intro out outOps grp L K h _ hp
    exact ⟨out, grp, by simpa using h.congr (fun x => hp.mem_iff)⟩
  | cons x G ih =>
    intro out outOps grp L K h hk hp
    have h1 : CG cfg arr out outOps grp (x :: (G ++ K)) := h.congr (fun y => hp.mem_iff)
    have hk1 : ((x :: (G ++ K)).map (·.key)).Nodup := ((hp.map _).nodup_iff).mpr hk
    simp only [List.map_cons, List.nodup_cons, List.mem_map, not_exists, not_and] at hk1
    have hag := h1.ent x (by simp)
    cases hx : x.val.agg with
    | none =>
      rw [List.filterMap_cons_none (by simp [reqOf, hx])]
      refine ih (L := G ++ K) ⟨h1.sums, fun y hy => h1.ent y (by simp [hy]), ?_, h1.split⟩ hk1.2 (.refl _)
      intro k hkk
      by_cases e : x.key = k
      · rw [← e]; simpa [AggOf, hx] using hag
      · refine h1.absent k (fun y hy => ?_)
        rcases List.mem_cons.mp hy with rfl | hy
        · exact e
        · exact hkk y hy
    | some a =>
      have hr : reqOf cfg x = some (x.val.returnRequest cfg) := by simp [reqOf, hx]
      have ho : (x.val.returnRequest cfg).operation = some (a.toProto cfg.U) := by simp [Elem.returnRequest, hx]
      rw [List.filterMap_cons_some hr, List.filterMap_cons_some ho]
      simp only [AggOf, hx] at hag
      obtain ⟨o, os, hg, ha⟩ := hag
      have h2 : CG cfg arr (out ++ [⟨x.key, grp x.key⟩]) (outOps ++ [a.toProto cfg.U]) (upd grp x.key []) (G ++ K) := by
        refine ⟨List.rel_append h1.sums (.cons ⟨o, os, a, hg, ha, rfl⟩ .nil), ?_, ?_, ?_⟩
        · intro y hy
          have : y.key ≠ x.key := fun e => hk1.1 y hy e
          simp only [upd, this, if_false]
          exact h1.ent y (by simp [hy])
        · intro k hkk
          unfold upd
          split
          · rfl
          · rename_i hne
            refine h1.absent k (fun y hy => ?_)
            rcases List.mem_cons.mp hy with rfl | hy
            · exact fun e => hne e.symm
            · exact hkk y hy
        · intro k
          rw [h1.split k]
          by_cases e : x.key = k
          · subst e; simp [upd]
          · have : (x.key == k) = false := by simp [e]
            simp [upd, Ne.symm e, this]
      obtain ⟨out', grp', h3⟩ := ih h2 hk1.2 (.refl _)
      exact ⟨out', grp', by simpa using h3⟩

/-! ### Entries and the history -/

structure EntInv (E : Env) (cfg : AggConfig) (h : Hist D) (x : CEnt D) : Prop where
  cached : lastCached cfg.H x.key h = some x.val.response
  refreshed : ∃ ev i, lastRefresh cfg x.key h = some ev ∧ ev.reads i ∧ x.val.lastCheck = E.clk i
  used : ∃ ev i, lastUse cfg x.key h = some ev ∧ ev.reads i ∧ x.used = E.clk i

theorem EntInv.other {E : Env} {cfg : AggConfig} {h : Hist D} {x : CEnt D} (hi : EntInv E cfg h x) (ev : Event D)
    (hu : ¬ Uses cfg x.key ev.call) (hf : ev.call ≠ .flushAll) : EntInv E cfg (ev :: h) x := by
  refine ⟨?_, ?_, ?_⟩
  · unfold lastCached
    split
    · rename_i r p hc
      rw [if_neg]
      · exact hi.cached
      · intro e; apply hu; rw [hc]; exact e
    · rename_i hc; exact absurd hc hf
    · exact hi.cached
  · unfold lastRefresh
    rw [List.find?_cons_of_neg]
    · exact hi.refreshed
    · simp [Refreshes, hu]
  · unfold lastUse
    rw [List.find?_cons_of_neg]
    · exact hi.used
    · simp [hu]

theorem checkElem_spec (E : Env) (cfg : AggConfig) (o : Operation D) (v v' : Elem D) (t t' : Nat) (out : Out)
    (h : checkElem E cfg o v t = .ok (v', t', out)) :
    v'.response = v.response ∧ t < t' ∧
    ((out = ⟨.ok, some v.response⟩ ∧ v'.lastCheck = v.lastCheck ∧ E.clk t - v.lastCheck < interval cfg) ∨
     (out = ⟨.notFound, none⟩ ∧ v'.lastCheck = E.clk (t + 1) ∧ t + 1 < t' ∧ interval cfg ≤ E.clk t - v.lastCheck)) ∧
    ((v.response.checkErrors ≠ [] ∧ v'.agg = v.agg) ∨
     (v.response.checkErrors = [] ∧ ∃ v2, v.aggregate cfg o = .ok v2 ∧ v'.agg = v2.agg)) := by
  unfold checkElem at h
  by_cases he : v.response.checkErrors.length > 0
  · have hne : v.response.checkErrors ≠ [] := by intro e; simp [e] at he
    rw [if_pos he] at h
    by_cases hs : shouldFlush E cfg v t = true
    · rw [if_pos hs] at h
      cases h
      refine ⟨rfl, by omega, Or.inr ⟨rfl, rfl, by omega, ?_⟩, Or.inl ⟨hne, rfl⟩⟩
      simpa [shouldFlush] using hs
    · rw [if_neg hs] at h
      cases h
      refine ⟨rfl, by omega, Or.inl ⟨rfl, rfl, ?_⟩, Or.inl ⟨hne, rfl⟩⟩
      simpa [shouldFlush] using hs
  · have hne : v.response.checkErrors = [] := by
      cases hc : v.response.checkErrors with
      | nil => rfl
      | cons a l => simp [hc] at he
    rw [if_neg he] at h
    cases ha : v.aggregate cfg o with
    | error e => rw [ha] at h; cases h
    | ok v2 =>
      rw [ha] at h
      simp only [bind, Except.bind] at h
      have h2 : v2.response = v.response ∧ v2.lastCheck = v.lastCheck := by
        unfold Elem.aggregate at ha
        simp only [bind, Except.bind] at ha
        split at ha <;> split at ha <;> cases ha <;> exact ⟨rfl, rfl⟩
      by_cases hs : shouldFlush E cfg v2 t = true
      · rw [if_pos hs] at h
        cases h
        refine ⟨h2.1, by omega, Or.inr ⟨rfl, rfl, by omega, ?_⟩, Or.inr ⟨hne, v2, rfl, rfl⟩⟩
        rw [← h2.2]; simpa [shouldFlush] using hs
      · rw [if_neg hs] at h
        cases h
        refine ⟨h2.1, by omega, Or.inl ⟨by rw [h2.1], h2.2, ?_⟩, Or.inr ⟨hne, v', rfl, rfl⟩⟩
        rw [← h2.2]; simpa [shouldFlush] using hs

theorem checkElem_error (E : Env) (cfg : AggConfig) (o : Operation D) (v : Elem D) (t : Nat) (e : Fault)
    (h : checkElem E cfg o v t = .error e) : v.aggregate cfg o = .error e := by
  unfold checkElem at h
  split at h
  · split at h <;> cases h
  · cases ha : v.aggregate cfg o with
    | error e' => rw [ha] at h; cases h; rfl
    | ok v2 =>
      rw [ha] at h
      simp only [bind, Except.bind] at h
      split at h <;> cases h

/-- The invariant of a list of entries. -/
structure AInv (E : Env) (cfg : AggConfig) (h : Hist D) (L : List (CEnt D)) : Prop where
  ent : ∀ x ∈ L, EntInv E cfg h x
  groups : ∃ out grp, CG cfg (absorbed cfg h) out (flushedOps h) grp L

theorem mem_put {k : Bytes} {v : Elem D} {now : Int} {K : List (CEnt D)} (z : CEnt D) :
    z ∈ putL true k v now K ↔ z = ⟨k, v, now⟩ ∨ z ∈ K ∧ z.key ≠ k := by
  simp [putL]

theorem find_refresh_pos {cfg : AggConfig} {k : Bytes} {ev : Event D} {h : Hist D} (hr : Refreshes cfg k ev) :
    lastRefresh cfg k (ev :: h) = some ev := by
  unfold lastRefresh
  rw [List.find?_cons_of_pos (by simpa using hr)]

theorem find_refresh_neg {cfg : AggConfig} {k : Bytes} {ev : Event D} {h : Hist D} (hr : ¬ Refreshes cfg k ev) :
    lastRefresh cfg k (ev :: h) = lastRefresh cfg k h := by
  unfold lastRefresh
  rw [List.find?_cons_of_neg (by simpa using hr)]

theorem find_use_pos {cfg : AggConfig} {k : Bytes} {ev : Event D} {h : Hist D} (hr : Uses cfg k ev.call) :
    lastUse cfg k (ev :: h) = some ev := by
  unfold lastUse
  rw [List.find?_cons_of_pos (by simpa using hr)]

theorem astep_inv (E : Env) (cfg : AggConfig) {h : Hist D} {L : List (CEnt D)} (hi : AInv E cfg h L)
    (hk : (L.map (·.key)).Nodup) (c : Call D) (t : Nat) :
    aStep E cfg c L t = .error .signedOverflow ∨
    ∃ L' t' out G, aStep E cfg c L t = .ok (L', t', out, G) ∧ t ≤ t' ∧
      (∀ G' : List (CEnt D), G'.Perm G → AInv E cfg (⟨c, out, G'.filterMap (reqOf cfg), t, t', L'.map (·.key)⟩ :: h) L') ∧
      (Mono E.clk → SortedT E t L → SortedT E t' L') := by
  have hperm := keep_perm (params cfg) (E.clk t) L
  have hKk : ((keepOf (params cfg) (E.clk t) L).map (·.key)).Nodup := hk.sublist ((keep_sublist _ _ _).map _)
  have hKs : ∀ x ∈ keepOf (params cfg) (E.clk t) L, x ∈ L := fun x hx => (keep_sublist _ _ _).subset hx
  obtain ⟨out0, grp0, hg0⟩ := hi.groups
  -- the groups after the removal of expired entries
  have hgK : ∀ G' : List (CEnt D), G'.Perm (goneOf (params cfg) (E.clk t) L) → ∃ out' grp',
      CG cfg (absorbed cfg h) out' (flushedOps h ++ (G'.filterMap (reqOf cfg)).filterMap (·.operation)) grp'
        (keepOf (params cfg) (E.clk t) L) := fun G' hG' =>
    hg0.evict G' hk ((hG'.append_right _).trans hperm)
  -- a check that is not answered by the cache and does not use it
  have hnot : ∀ (r : CheckRequest D) (out : Out), ¬ Cacheable cfg r → out.status ≠ .ok →
      ∀ G' : List (CEnt D), G'.Perm [] → AInv E cfg (⟨.check r, out, G'.filterMap (reqOf cfg), t, t, L.map (·.key)⟩ :: h) L := by
    intro r out hc hs G' hG'
    rw [hG'.eq_nil]
    refine ⟨fun x hx => (hi.ent x hx).other _ (fun hu => hc hu.1) (by simp), out0, grp0, ?_⟩
    have ha : absorbedBy cfg (⟨.check r, out, [], t, t, L.map (·.key)⟩ : Event D) h = [] := by
      simp only [absorbedBy]
      split
      · rw [if_neg (by simp [hs, hc])]
      · rfl
    have := hg0
    rw [← List.append_nil (absorbed cfg h), ← List.append_nil (flushedOps h), ← ha] at this
    exact this
  cases c with
  | check r =>
    simp only [aStep]
    by_cases h1 : r.serviceName ≠ cfg.serviceName
    · rw [if_pos h1]
      exact Or.inr ⟨_, _, _, _, rfl, Nat.le_refl _, hnot r _ (fun hc => h1 hc.1) (by simp), fun _ hs => hs⟩
    rw [if_neg h1]
    cases ho : r.operation with
    | none =>
      exact Or.inr ⟨_, _, _, _, rfl, Nat.le_refl _, hnot r _ (by simp [ho]) (by simp), fun _ hs => hs⟩
    | some o =>
      simp only
      by_cases h2 : o.importance ≠ importanceLow
      · rw [if_pos h2]
        exact Or.inr ⟨_, _, _, _, rfl, Nat.le_refl _, hnot r _ (by simp [ho, h2]) (by simp), fun _ hs => hs⟩
      rw [if_neg h2]
      have hca : Cacheable cfg r := ⟨by simpa using h1, o, ho, by simpa using h2⟩
      set k := checkRequestSig cfg.H r with hkd
      have huse : ∀ k', Uses cfg k' (.check r) ↔ k = k' := fun k' => ⟨fun hu => hu.2, fun e => ⟨hca, e⟩⟩
      cases hf : findL k (keepOf (params cfg) (E.clk t) L) with
      | none =>
        right
        have hno := findL_none.mp hf
        refine ⟨_, _, _, _, rfl, Nat.le_add_right _ _, ?_, ?_⟩
        · intro G' hG'
          obtain ⟨out', grp', hg⟩ := hgK G' hG'
          refine ⟨fun x hx => (hi.ent x (hKs x hx)).other _ (fun hu => hno x hx ((huse _).mp hu).symm) (by simp),
            out', grp', ?_⟩
          have hns : k ∉ (keepOf (params cfg) (E.clk t) L).map (·.key) := by
            intro hm
            obtain ⟨x, hx, e⟩ := List.mem_map.mp hm
            exact hno x hx e
          set ev : Event D := ⟨.check r, ⟨.notFound, none⟩, G'.filterMap (reqOf cfg), t, t + ticksOf (params cfg),
            (keepOf (params cfg) (E.clk t) L).map (·.key)⟩ with hev
          have ha : absorbedBy cfg ev h = [] := by
            simp only [absorbedBy, hev, ho, ← hkd]
            cases lastCached cfg.H k h with
            | none => rfl
            | some p => simp only; rw [if_neg]; simp only [reduceCtorEq, false_or, hns, and_false, not_false_eq_true]
          rw [← List.append_nil (absorbed cfg h), ← ha] at hg
          exact hg
        · intro hm hs
          exact (hs.sublist (keep_sublist _ _ _)).later hm (Nat.le_add_right _ _)
      | some x =>
        obtain ⟨hxm, hxk⟩ := (findL_some hKk).mp hf
        simp only
        cases hce : checkElem E cfg o x.val (t + ticksOf (params cfg)) with
        | error e =>
          left
          have h3 := checkElem_error E cfg o x.val _ e hce
          have h4 := (hg0.ent x (hKs x hxm)).add_error o e h3
          rw [h4]; rfl
        | ok res =>
          right
          obtain ⟨v, t2, out⟩ := res
          obtain ⟨hresp, htt, hout, hagg⟩ := checkElem_spec E cfg o x.val v _ t2 out hce
          refine ⟨_, t2 + 1, _, _, rfl, by omega, ?_, ?_⟩
          · intro G' hG'
            obtain ⟨out', grp', hg⟩ := hgK G' hG'
            set L' := putL true k v (E.clk t2) (keepOf (params cfg) (E.clk t) L) with hL'
            set ev : Event D := ⟨.check r, out, G'.filterMap (reqOf cfg), t, t2 + 1, L'.map (·.key)⟩ with hev
            have hx := hi.ent x (hKs x hxm)
            have hxr := hx.refreshed
            have hxc := hx.cached
            rw [hxk] at hxr hxc
            refine ⟨?_, ?_⟩
            · intro z hz
              rcases (mem_put z).mp hz with rfl | ⟨hz, hne⟩
              · refine ⟨?_, ?_, ⟨ev, t2, find_use_pos ((huse k).mpr rfl), ⟨by show t ≤ t2; omega, by show t2 < t2 + 1; omega⟩, rfl⟩⟩
                · show lastCached cfg.H k h = some v.response
                  rw [hresp, hxc]
                · rcases hout with ⟨ho', hl, _⟩ | ⟨ho', hl, ht3, _⟩
                  · obtain ⟨ev0, i, he0, hr0, hc0⟩ := hxr
                    refine ⟨ev0, i, ?_, hr0, by show v.lastCheck = _; rw [hl, hc0]⟩
                    rw [find_refresh_neg]
                    · exact he0
                    · rintro ⟨_, hst⟩
                      have := hst ⟨r, rfl⟩
                      rw [hev] at this
                      simp [ho'] at this
                  · refine ⟨ev, _, find_refresh_pos ⟨(huse k).mpr rfl, fun _ => by rw [hev]; simp [ho']⟩, ?_, hl⟩
                    exact ⟨by show t ≤ _; omega, by show _ < t2 + 1; omega⟩
              · exact (hi.ent z (hKs z hz)).other ev (fun hu => hne ((huse _).mp hu).symm) (by simp [hev])
            · have hkin : k ∈ L'.map (·.key) :=
                List.mem_map.mpr ⟨⟨k, v, E.clk t2⟩, (mem_put _).mpr (Or.inl rfl), rfl⟩
              have hst : out.status = .ok ∨ out.status = .notFound := by
                rcases hout with ⟨h5, _⟩ | ⟨h5, _⟩ <;> simp [h5]
              have hab : absorbedBy cfg ev h = if x.val.response.checkErrors = [] then [(k, o)] else [] := by
                simp only [absorbedBy, hev, ho, ← hkd, hxc]
                by_cases he : x.val.response.checkErrors = []
                · rw [if_pos he, if_pos]
                  refine ⟨he, ?_⟩
                  rcases hst with h6 | h6
                  · exact Or.inl h6
                  · exact Or.inr ⟨h6, hca, hkin⟩
                · rw [if_neg he, if_neg (fun hh => he hh.1)]
              have hm : ∀ z, z ∈ L' ↔ z = (⟨k, v, E.clk t2⟩ : CEnt D) ∨ z ∈ keepOf (params cfg) (E.clk t) L ∧
                  z.key ≠ (⟨k, v, E.clk t2⟩ : CEnt D).key := fun z => mem_put z
              have hgx := hg.ent x hxm
              rw [hxk] at hgx
              rcases hagg with ⟨he, ha⟩ | ⟨he, v2, ha, ha2⟩
              · have := hg.set ⟨k, v, E.clk t2⟩ hm [] (by simpa [ha] using hgx)
                rw [if_neg he] at hab
                rw [List.map_nil, ← hab] at this
                exact ⟨out', _, this⟩
              · have := hg.set ⟨k, v, E.clk t2⟩ hm [o] (by simpa [ha2] using hgx.add o ha)
                rw [if_pos he] at hab
                rw [List.map_cons, List.map_nil, ← hab] at this
                exact ⟨out', _, this⟩
          · intro hm hs
            exact ((hs.sublist (keep_sublist _ _ _)).put hm (t' := t2) (by omega) true k v).later hm (by omega)
  | cacheResponse r resp =>
    right
    simp only [aStep]
    set k := checkRequestSig cfg.H r with hkd
    have huse : ∀ k', Uses cfg k' (.cacheResponse r resp) ↔ k = k' := fun k' => Iff.rfl
    have hsp : ∀ ev : Event D, ev.call = .cacheResponse r resp → ∀ t1, ev.reads t1 → ∀ t2, ev.reads t2 → ∀ v : Elem D,
        v.response = resp → v.lastCheck = E.clk t1 → EntInv E cfg (ev :: h) ⟨k, v, E.clk t2⟩ := by
      intro ev hev t1 hr1 t2 hr2 v hv1 hv2
      have hu : Uses cfg k ev.call := by rw [hev]; exact (huse k).mpr rfl
      refine ⟨?_, ⟨ev, t1, find_refresh_pos ⟨hu, by rw [hev]; simp⟩, hr1, hv2⟩, ⟨ev, t2, find_use_pos hu, hr2, rfl⟩⟩
      show lastCached cfg.H k (ev :: h) = some v.response
      unfold lastCached
      rw [hev]
      simp [← hkd, hv1]
    cases hf : findL k (keepOf (params cfg) (E.clk t) L) with
    | some x =>
      obtain ⟨hxm, hxk⟩ := (findL_some hKk).mp hf
      refine ⟨_, _, _, _, rfl, by omega, ?_, ?_⟩
      · intro G' hG'
        obtain ⟨out', grp', hg⟩ := hgK G' hG'
        refine ⟨?_, ?_⟩
        · intro z hz
          rcases (mem_put z).mp hz with rfl | ⟨hz, hne⟩
          · refine hsp _ rfl (t + ticksOf (params cfg)) ⟨?_, ?_⟩ (t + ticksOf (params cfg) + 1) ⟨?_, ?_⟩ _ rfl rfl <;>
              simp only <;> omega
          · exact (hi.ent z (hKs z hz)).other _ (fun hu => hne ((huse _).mp hu).symm) (by simp)
        · have hgx := hg.ent x hxm
          rw [hxk] at hgx
          let v : Elem D := ⟨resp, E.clk (t + ticksOf (params cfg)), 0, false, x.val.agg⟩
          have := hg.set ⟨k, v, E.clk (t + ticksOf (params cfg) + 1)⟩ (fun z => mem_put z) [] (by simpa using hgx)
          exact ⟨out', _, this⟩
      · intro hm hs
        exact ((hs.sublist (keep_sublist _ _ _)).put hm (t' := t + ticksOf (params cfg) + 1) (by omega) true k _).later
          hm (by omega)
    | none =>
      have hno := findL_none.mp hf
      obtain ⟨K', hK', hpK, hsub⟩ := ins_perm (cap := cfg.numEntries) k (⟨resp, E.clk (t + ticksOf (params cfg)), 0, false, none⟩ : Elem D)
        (E.clk (t + ticksOf (params cfg) + 2)) (keepOf (params cfg) (E.clk t) L)
      refine ⟨_, _, _, _, rfl, by omega, ?_, ?_⟩
      · intro G' hG'
        have hp2 : (G' ++ K').Perm L := by
          refine ((hG'.append_right _).trans ?_)
          rw [List.append_assoc]
          exact ((hpK.append_left _).trans hperm)
        obtain ⟨out', grp', hg⟩ := hg0.evict G' hk hp2
        have hnK : ∀ z ∈ K', z.key ≠ k := fun z hz => hno z (hsub.subset hz)
        refine ⟨?_, ?_⟩
        · intro z hz
          rw [hK'] at hz
          rcases List.mem_cons.mp hz with rfl | hz
          · refine hsp _ rfl (t + ticksOf (params cfg)) ⟨?_, ?_⟩ (t + ticksOf (params cfg) + 2) ⟨?_, ?_⟩ _ rfl rfl <;>
              simp only <;> omega
          · exact (hi.ent z (hKs z (hsub.subset hz))).other _ (fun hu => hnK z hz ((huse _).mp hu).symm) (by simp)
        · have hab := hg.absent k hnK
          have := hg.set ⟨k, (⟨resp, E.clk (t + ticksOf (params cfg)), 0, false, none⟩ : Elem D),
            E.clk (t + ticksOf (params cfg) + 2)⟩ (L' := insL cfg.numEntries k
              (⟨resp, E.clk (t + ticksOf (params cfg)), 0, false, none⟩ : Elem D)
              (E.clk (t + ticksOf (params cfg) + 2)) (keepOf (params cfg) (E.clk t) L))
            (fun z => by
              rw [hK']
              simp only [List.mem_cons]
              constructor
              · rintro (e | hz)
                · exact Or.inl e
                · exact Or.inr ⟨hz, hnK z hz⟩
              · rintro (e | hz)
                · exact Or.inl e
                · exact Or.inr hz.1) [] (by simp [AggOf, hab])
          exact ⟨out', _, this⟩
      · intro hm hs
        rw [hK']
        exact (((hs.sublist (keep_sublist _ _ _)).sublist hsub).cons hm (t' := t + ticksOf (params cfg) + 2) (by omega) _ _).later
          hm (by omega)
  | flush =>
    right
    refine ⟨_, _, _, _, rfl, Nat.le_add_right _ _, ?_, ?_⟩
    · intro G' hG'
      obtain ⟨out', grp', hg⟩ := hgK G' hG'
      refine ⟨fun x hx => (hi.ent x (hKs x hx)).other _ (by simp [Uses]) (by simp), out', grp', ?_⟩
      rw [← List.append_nil (absorbed cfg h)] at hg
      exact hg
    · intro hm hs
      exact (hs.sublist (keep_sublist _ _ _)).later hm (Nat.le_add_right _ _)
  | flushAll =>
    right
    refine ⟨_, _, _, _, rfl, Nat.le_refl _, ?_, fun _ _ => SortedT.nil E t⟩
    intro G' hG'
    obtain ⟨out', grp', hg⟩ := hg0.evict G' hk (K := []) (by simpa using hG')
    refine ⟨by simp, out', grp', ?_⟩
    rw [← List.append_nil (absorbed cfg h)] at hg
    exact hg

/-! ### Histories -/

/-- A cache without entries after `SetTimeout`. -/
theorem setTimeout_new {σ β : Type} (E : Env) (del : Deleter σ β) (n : Int) (hn : 0 < n) (tmo : Option Nat) (lru : Bool)
    (ext : σ) :
    ∃ w : World σ β, setTimeout E del (tmo.map Int.ofNat) lru { cache := Cache.new n, tick := 0, ext := ext } = .ok w ∧
      Quiet ⟨n, match tmo with | none => -1 | some c => c, lru⟩ [] w.cache := by
  have hz : ∀ w : World σ β, w.cache.nodes = [] → ∀ m : Nat, discardIdle E del (Int.ofNat m) w = .ok w.ticked := by
    intro w hw m
    unfold discardIdle
    rw [if_neg (by simp), hw]
    unfold idleLoop
    rfl
  unfold setTimeout
  cases tmo with
  | none =>
    refine ⟨_, rfl, ⟨⟨⟨by simp [Cache.new], by simp [Cache.new]⟩, by simp [Cache.new], by simp [Cache.new]⟩,
      rfl, rfl, rfl, rfl, ?_, ?_, rfl, rfl, rfl⟩⟩
    · show (0 : Int) ≤ n; omega
    · show (1 : Int) ≤ n; omega
  | some c =>
    simp only [Option.map_some]
    rw [if_neg (by simp [Cache.new]), hz _ rfl]
    refine ⟨_, rfl, ⟨⟨⟨by simp [Cache.new, World.ticked], by simp [Cache.new, World.ticked]⟩,
      by simp [Cache.new, World.ticked], by simp [Cache.new, World.ticked]⟩, rfl, rfl, rfl, rfl, ?_, ?_, rfl, rfl, rfl⟩⟩
    · show (0 : Int) ≤ n; omega
    · show (1 : Int) ≤ n; omega

structure Inv (E : Env) (cfg : AggConfig) (h : Hist D) (s : AggState (Elem D)) : Prop where
  cb : s.callback = true
  none : s.cache = none → cfg.numEntries ≤ 0 ∧ absorbed cfg h = [] ∧ flushedOps h = [] ∧
    ∀ ev ∈ h, ∀ r, ev.call = .check r → ev.out.status ≠ .ok
  some : ∀ c, s.cache = some c → 0 < cfg.numEntries ∧ ∃ L, Quiet (params cfg) L c ∧ AInv E cfg h L ∧
    (Mono E.clk → SortedT E s.tick L)

theorem init_inv (E : Env) (cfg : AggConfig) : ∃ s, new (D := D) E cfg = .ok s ∧
    Inv E cfg [] (s.setFlushCallback true) := by
  unfold new
  split
  · rename_i hn
    have ht : cfg.timeout cfg.expirationMs =
        (if cfg.expirationMs < 0 then none else some (cfg.cyc cfg.expirationMs.toNat) : Option Nat).map Int.ofNat := by
      unfold AggConfig.timeout; split <;> rfl
    obtain ⟨w, h1, q⟩ := setTimeout_new E (onDelete (D := D) cfg) cfg.numEntries hn
      (if cfg.expirationMs < 0 then none else some (cfg.cyc cfg.expirationMs.toNat)) true (none : Slot (CheckRequest D))
    rw [ht, h1]
    refine ⟨_, rfl, rfl, by simp [AggState.setFlushCallback], ?_⟩
    intro c hc
    simp only [AggState.setFlushCallback, Option.some.injEq] at hc
    subst hc
    refine ⟨hn, [], ?_, ⟨by simp, [], fun _ => [], .nil, by simp, by simp, by simp [absorbed]⟩, fun _ => SortedT.nil E _⟩
    have : params cfg = ⟨cfg.numEntries, match (if cfg.expirationMs < 0 then none else
        some (cfg.cyc cfg.expirationMs.toNat) : Option Nat) with | none => -1 | some c => c, true⟩ := by
      unfold params AggConfig.timeout
      by_cases h2 : cfg.expirationMs < 0 <;> simp [h2]
    rw [this]
    exact q
  · rename_i hn
    exact ⟨_, rfl, rfl, fun _ => ⟨by omega, rfl, rfl, by simp⟩, by simp [AggState.setFlushCallback]⟩

theorem cachedSigs_eq {s : AggState (Elem D)} {c : Cache (Elem D)} {P : Params} {L : List (CEnt D)} (hc : s.cache = some c)
    (q : Quiet P L c) : cachedSigs s = L.map (·.key) := by
  unfold cachedSigs
  rw [hc, ← q.view, List.map_map]
  rfl

/-- One call from a state with a cache. -/
theorem step_some (E : Env) (cfg : AggConfig) {h : Hist D} {s : AggState (Elem D)} {c : Cache (Elem D)}
    (hcb : s.callback = true) (hc : s.cache = some c) {L : List (CEnt D)}
    (q : Quiet (params cfg) L c) (hi : AInv E cfg h L) (hd : E.dbg = true → Sorted L) (call : Call D) :
    step E cfg call s = .error .signedOverflow ∨
    ∃ (c' : Cache (Elem D)) (L' : List (CEnt D)) (t' : Nat) (out : Out) (G G' : List (CEnt D)), aStep E cfg call L s.tick = .ok (L', t', out, G) ∧ G'.Perm G ∧
      step E cfg call s = .ok ({ s with cache := some c', tick := t' }, out, G'.filterMap (reqOf cfg)) ∧
      Quiet (params cfg) L' c' ∧
      AInv E cfg (⟨call, out, G'.filterMap (reqOf cfg), s.tick, t', L'.map (·.key)⟩ :: h) L' ∧ s.tick ≤ t' ∧
      (Mono E.clk → SortedT E s.tick L → SortedT E t' L') := by
  have hv := step_view E cfg call s c hc L q hd
  rcases astep_inv E cfg hi q.keys call s.tick with he | ⟨L', t', out, G, h1, ht, h2, h3⟩
  · left; rw [he] at hv; exact hv
  · right
    rw [h1] at hv
    obtain ⟨c', G', h4, h5, h6⟩ := hv
    refine ⟨c', L', t', out, G, G', h1, h6, ?_, h5, h2 G' h6, ht, h3⟩
    rw [h4]
    simp [flushOut, hcb]

theorem step_none (E : Env) (cfg : AggConfig) {s : AggState (Elem D)} (hc : s.cache = none) (call : Call D) :
    ∃ out, step E cfg call s = .ok (s, out, []) ∧ (∀ r, call = .check r → out.status ≠ .ok) := by
  cases call with
  | check r =>
    simp only [step, check, withBuffer, hc]
    split
    · exact ⟨_, rfl, by simp⟩
    · split
      · exact ⟨_, rfl, by simp⟩
      · simp only [Option.isNone_none, Bool.or_true, if_true]
        exact ⟨_, rfl, by simp⟩
  | cacheResponse r resp => simp only [step, cacheResponse, withBuffer, hc]; exact ⟨_, rfl, by simp⟩
  | flush => simp only [step, flush, withBuffer, hc]; exact ⟨_, rfl, by simp⟩
  | flushAll => simp only [step, flushAll, withBuffer, hc]; exact ⟨_, rfl, by simp⟩

theorem step_inv (E : Env) (cfg : AggConfig) {h : Hist D} {s : AggState (Elem D)} (hi : Inv E cfg h s)
    (hm : E.dbg = true → Mono E.clk) (call : Call D) :
    step E cfg call s = .error .signedOverflow ∨
    ∃ s' out fl, step E cfg call s = .ok (s', out, fl) ∧
      Inv E cfg (⟨call, out, fl, s.tick, s'.tick, cachedSigs s'⟩ :: h) s' := by
  cases hc : s.cache with
  | none =>
    right
    obtain ⟨out, h1, h2⟩ := step_none E cfg hc call
    obtain ⟨i1, i2, i3, i4⟩ := hi.none hc
    refine ⟨s, out, [], h1, hi.cb, fun _ => ⟨i1, ?_, ?_, ?_⟩, by simp [hc]⟩
    · simp only [absorbed, i2, List.nil_append, absorbedBy, cachedSigs, hc]
      cases call with
      | check r =>
        simp only
        split
        · rw [if_neg]
          simp [h2 r rfl]
        · rfl
      | _ => rfl
    · simp [flushedOps, i3]
    · intro ev hev
      rcases List.mem_cons.mp hev with rfl | hev
      · exact h2
      · exact i4 ev hev
  | some c =>
    obtain ⟨hn, L, q, ha, hs⟩ := hi.some c hc
    rcases step_some E cfg hi.cb hc q ha (fun hd => (hs (hm hd)).1) call with he | ⟨c', L', t', out, G, G', _, _, h2, h3, h4, ht, h5⟩
    · exact Or.inl he
    · right
      refine ⟨_, _, _, h2, hi.cb, by simp, ?_⟩
      intro c2 hc2
      simp only [Option.some.injEq] at hc2
      subst hc2
      refine ⟨hn, L', h3, ?_, fun hmono => h5 hmono (hs hmono)⟩
      rw [cachedSigs_eq (s := { s with cache := some c', tick := t' }) rfl h3]
      exact h4

theorem step_imp (E : Env) (cfg : AggConfig) (c : Call D) (s : AggState (Elem D)) :
    Imp (step E cfg c s) (step E.rel cfg c s) := by
  cases c with
  | check r =>
    simp only [step, check]
    refine Imp.ite (Imp.refl _) ?_
    cases r.operation with
    | none => exact Imp.refl _
    | some o =>
      simp only
      refine Imp.ite (Imp.refl _) (Report.withBuffer_imp _ _ (fun w => Imp.bind (lookup_imp E _ _ _ _) (fun p => ?_)))
      obtain ⟨w, found⟩ := p
      cases found with
      | none => exact Imp.refl _
      | some e => exact Imp.bind (Imp.refl _) (fun _ => Imp.bind (release_imp E _ _ _ _ _) (fun _ => Imp.refl _))
  | cacheResponse r resp =>
    simp only [step, cacheResponse]
    refine Report.withBuffer_imp _ _ (fun w => Imp.bind (lookup_imp E _ _ _ _) (fun p => ?_))
    obtain ⟨w, found⟩ := p
    cases found with
    | some e => exact Imp.bind (release_imp E _ _ _ _ _) (fun _ => Imp.refl _)
    | none =>
      exact Imp.bind (Imp.bind (insertPinned_imp E _ _ _ _ _ _) (fun _ => release_imp E _ _ _ _ _)) (fun _ => Imp.refl _)
  | flush =>
    simp only [step, flush]
    exact Report.withBuffer_imp _ _ (fun w => Imp.bind (removeExpired_imp E _ _) (fun _ => Imp.refl _))
  | flushAll =>
    simp only [step, flushAll]
    exact Report.withBuffer_imp _ _ (fun w => Imp.bind (removeAll_imp E _ _) (fun _ => Imp.refl _))

theorem Inv.of_rel {E : Env} {cfg : AggConfig} {h : Hist D} {s : AggState (Elem D)} (hi : Inv E.rel cfg h s) :
    Inv E cfg h s :=
  ⟨hi.cb, hi.none, fun c hc => by
    obtain ⟨h1, L, h2, h3, h4⟩ := hi.some c hc
    exact ⟨h1, L, h2, ⟨fun x hx => ⟨(h3.ent x hx).cached, (h3.ent x hx).refreshed, (h3.ent x hx).used⟩, h3.groups⟩, h4⟩⟩

theorem Inv.to_rel {E : Env} {cfg : AggConfig} {h : Hist D} {s : AggState (Elem D)} (hi : Inv E cfg h s) :
    Inv E.rel cfg h s :=
  ⟨hi.cb, hi.none, fun c hc => by
    obtain ⟨h1, L, h2, h3, h4⟩ := hi.some c hc
    exact ⟨h1, L, h2, ⟨fun x hx => ⟨(h3.ent x hx).cached, (h3.ent x hx).refreshed, (h3.ent x hx).used⟩, h3.groups⟩, h4⟩⟩

theorem Reach.inv {E : Env} {cfg : AggConfig} {h : Hist D} {s : AggState (Elem D)} (r : Reach E cfg h s) :
    Inv E cfg h s := by
  induction r with
  | init h0 =>
    obtain ⟨s', h1, hi⟩ := init_inv (D := D) E cfg
    rw [h1] at h0; cases h0; exact hi
  | call _ hs ih =>
    have h1 := step_imp E cfg _ _ _ hs
    rcases step_inv E.rel cfg ih.to_rel (by simp) _ with he | ⟨s', st, fl, h2, hi⟩
    · rw [h1] at he; cases he
    · rw [h1] at h2; cases h2; exact hi.of_rel

/-- A successful call from a reachable state, in terms of the list of entries. -/
theorem Reach.step {E : Env} {cfg : AggConfig} {h : Hist D} {s s' : AggState (Elem D)} {call : Call D} {out : Out}
    {fl : List (CheckRequest D)} (r : Reach E cfg h s) (hs : step E cfg call s = .ok (s', out, fl))
    {c : Cache (Elem D)} (hc : s.cache = some c) :
    ∃ (c' : Cache (Elem D)) (L L' G G' : List (CEnt D)), Quiet (params cfg) L c ∧ AInv E cfg h L ∧ (Mono E.clk → SortedT E s.tick L) ∧
      aStep E cfg call L s.tick = .ok (L', s'.tick, out, G) ∧ G'.Perm G ∧ s'.cache = some c' ∧
      Quiet (params cfg) L' c' ∧ fl = G'.filterMap (reqOf cfg) ∧ s.tick ≤ s'.tick := by
  obtain ⟨hn, L, q, ha, hs4⟩ := r.inv.some c hc
  have hi' := r.inv.to_rel
  obtain ⟨_, L2, q2, ha2, hs2⟩ := hi'.some c hc
  have hL : L = L2 := by rw [← q.view, q2.view]
  subst hL
  rcases step_some E.rel cfg hi'.cb hc q ha2 (by simp) call with he | ⟨c', L', t', out', G, G', h1, hp, h2, h3, h4, ht, h5⟩
  · rw [step_imp E cfg _ _ _ hs] at he; cases he
  · rw [step_imp E cfg _ _ _ hs] at h2
    cases h2
    exact ⟨c', L, L', G, G', q, ha, hs4, h1, hp, rfl, h3, rfl, ht⟩

end Verif.Check
