import Verif.Lemmas.QuotaAggregator
import Verif.Spec.QuotaAggregator
/-
The calls on a quota aggregator, on lists of entries.
-/
set_option linter.unusedSectionVars false

namespace Verif.Quota
open Lru

variable {D : Type}

/-- `max_idle_` of the cache. -/
def limitOf (cfg : AggConfig) : Int := (cfg.timeout cfg.flushMs).getD (-1)

theorem limitOf_nonneg (cfg : AggConfig) : 0 ≤ limitOf cfg ↔ 0 ≤ cfg.flushMs := by
  unfold limitOf AggConfig.timeout
  split
  · simp only [Option.getD_none]; omega
  · simp only [Option.getD_some, Int.ofNat_eq_natCast]; omega

/-- The cache at rest. -/
def cacheOf (cfg : AggConfig) (N : List (QElem D)) (nid : Nat) : Cache (Elem D) :=
  ⟨N, [], N.length, 0, cfg.numEntries, limitOf cfg, false, nid⟩

/-- The aggregator at rest. -/
def stateOf (cfg : AggConfig) (inAll : Bool) (s : S D) : State D :=
  ⟨⟨some (cacheOf cfg s.N s.nid), s.t, true⟩, inAll⟩

def w0 (cfg : AggConfig) : QWorld D := ⟨cacheOf cfg [] 0, 0, some []⟩

theorem w0_base (cfg : AggConfig) : Base cfg.numEntries (w0 cfg : QWorld D) := ⟨rfl, rfl, rfl⟩

theorem world_eq (cfg : AggConfig) (s : S D) : s.world (w0 cfg) = ⟨cacheOf cfg s.N s.nid, s.t, some (s.out.map (·.2))⟩ := by
  simp [S.world, w0, World.upd, cacheOf]

/-- Expiry at the beginning of a call. -/
def expireAll (E : Env) (cfg : AggConfig) (inAll : Bool) (s : S D) : S D :=
  if 0 ≤ limitOf cfg then
    expire E cfg inAll (E.clk s.t - limitOf cfg) s.N.reverse ⟨[], s.nid, s.t + 1, s.out⟩
  else s

theorem removeExpired_eq {E : Env} (hm : Mono E.clk) (hf : 0 < E.extraFuel) (cfg : AggConfig) (inAll : Bool) (d : Nat) (s : S D)
    (h : SInv E cfg.numEntries s) :
    removeExpired E (onDelete E cfg inAll (d + 1)) (s.world (w0 cfg)) = .ok ((expireAll E cfg inAll s).world (w0 cfg)) ∧
      SInv E cfg.numEntries (expireAll E cfg inAll s) := by
  unfold expireAll
  by_cases hl : 0 ≤ limitOf cfg
  · rw [if_pos hl]
    have hrev : ([] : List (QElem D)) ++ s.N.reverse.reverse = s.N := by simp
    have := idleLoop_expire hm cfg inAll d cfg.numEntries (w0 cfg) (w0_base cfg) (E.clk s.t - limitOf cfg) s.N.reverse
      (s.N.length + E.extraFuel) (ringLast s.N) 0 ⟨[], s.nid, s.t + 1, s.out⟩
      (by simp only [hrev]; exact h.later hm _ (Nat.le_succ _) _) (by rw [List.length_reverse]; omega)
      (by have := hm.le (Nat.le_succ s.t); simp only [Nat.succ_eq_add_one] at this ⊢; omega) (by simp)
      (by intro e he; have := (h.used e (by simpa using he)).1; omega) (Or.inl (by simp only [hrev]))
    simp only [hrev] at this
    refine ⟨?_, this.2⟩
    rw [← this.1]
    unfold removeExpired discardIdle
    rw [if_pos (show (s.world (w0 cfg)).cache.maxIdle ≥ 0 from hl), if_neg (by show ¬ limitOf cfg < 0; omega)]
    rfl
  · rw [if_neg hl]
    refine ⟨?_, h⟩
    unfold removeExpired
    rw [if_neg (show ¬ (s.world (w0 cfg)).cache.maxIdle ≥ 0 from hl)]

theorem find_split {k : Bytes} {N : List (QElem D)} {e : QElem D} (h : findKey k N = some e) :
    ∃ A B, N = A ++ e :: B ∧ e.key = k ∧ ∀ a ∈ A, a.key ≠ k := by
  unfold findKey at h
  obtain ⟨h1, A, B, h2, h3⟩ := List.find?_eq_some_iff_append.mp h
  exact ⟨A, B, h2, by simpa using h1, fun a ha => by simpa using h3 a ha⟩

/-- Pinning an entry, changing its value and unpinning it. -/
theorem hit_eq {E : Env} (cfg : AggConfig) (del : Deleter (Slot (QReq D)) (Elem D)) (s : S D) (h : SInv E cfg.numEntries s)
    (A B : List (QElem D)) (e : QElem D) (k : Bytes) (hN : s.N = A ++ e :: B) (hk : e.key = k) (x0 : Slot (QReq D)) :
    ∃ w1 e1, pinKey true k ⟨cacheOf cfg s.N s.nid, s.t, x0⟩ = (w1, some e1) ∧ e1.val = e.val ∧ e1.ptr = e.ptr ∧ w1.tick = s.t ∧
      w1.ext = x0 ∧
      ∀ v t x, release E del true k e.ptr { setVal e.ptr v w1 with tick := t, ext := x } =
        .ok ⟨cacheOf cfg (A ++ { e with val := v } :: B) s.nid, t, x⟩ := by
  have hids := h.ids; have hkeys := h.keys; have hptrs := h.ptrs
  rw [hN] at hids hkeys hptrs
  obtain ⟨hA, hB⟩ := mid_ids hids
  have hpA : ∀ a ∈ A, a.ptr ≠ e.ptr := by
    rw [List.map_append, List.nodup_append] at hptrs
    exact fun a ha => hptrs.2.2 a.ptr (List.mem_map_of_mem ha) _ (by simp)
  have hpB : ∀ a ∈ B, a.ptr ≠ e.ptr := by
    rw [List.map_append, List.nodup_append, List.map_cons, List.nodup_cons] at hptrs
    exact fun a ha hx => hptrs.2.1.1 (by rw [← hx]; exact List.mem_map_of_mem ha)
  obtain ⟨hl, hu, _, _, hp, _⟩ := h.elem e (by rw [hN]; simp)
  have hlen := h.len
  let e1 : QElem D := { e with pin := 1 }
  let w1 : QWorld D := ⟨{ cacheOf cfg (A ++ e1 :: B) s.nid with pinnedUnits := 1 }, s.t, x0⟩
  refine ⟨w1, e1, ?_, rfl, rfl, rfl, rfl, ?_⟩
  · unfold pinKey
    have hf : findKey k s.N = some e := by rw [hN, ← hk]; exact findKey_mid (mid_keys hkeys).1
    simp only [cacheOf, hf, hp]
    have hset : setElem e1 s.N = A ++ e1 :: B := by rw [hN]; exact setElem_mid (e := e) e1 rfl hA hB
    have he : (⟨e.id, e.key, e.ptr, e.val, 0 + 1, 1, e.lastUse, e.linked⟩ : QElem D) = e1 := by simp [e1, hu]
    simp only [Bool.false_eq_true, false_and, and_false, if_false, if_true, hu]
    rw [he, hset, show s.N.length = (A ++ e1 :: B).length by rw [hN]; simp]
    rfl
  · intro v t x
    have hsv := setVal_mid w1 A B e1 v rfl rfl hpA hpB
    have hsv' : setVal e.ptr v w1 = _ := hsv
    rw [hsv']
    have hd : Distinct (A ++ ({ e1 with val := v } : QElem D) :: B) := by
      refine ⟨?_, ?_⟩
      · simpa [e1] using hids
      · simpa [e1] using hkeys
    have := release_eq E del k ({ e1 with val := v } : QElem D)
      ({ w1 with cache := { w1.cache with nodes := A ++ { e1 with val := v } :: B }, tick := t, ext := x } : QWorld D) A B rfl hd rfl rfl
      hk rfl
    refine this.trans ?_
    simp only
    rw [if_neg]
    · have he : (⟨e.id, e.key, e.ptr, v, 0, e.units, e.lastUse, e.linked⟩ : QElem D) = { e with val := v } := by rw [← hp]
      simp only [w1, e1, cacheOf, hu] at he ⊢
      rw [he]
      simp
    · simp only [Cache.overfull, w1, e1, cacheOf]
      rw [hN] at hlen
      simp only [List.length_append, List.length_cons] at hlen ⊢
      omega

/-- What a call that leaves the nodes of `s` returns. -/
def done (cfg : AggConfig) (inAll : Bool) (s : S D) (o : Out) : State D × Out × List (QReq D) :=
  (stateOf cfg inAll s, o, s.out.map (·.2))

/-- The list before a call: nothing triggered yet. -/
abbrev S.fresh (s : S D) : Prop := s.out = []

theorem lookup_eq {E : Env} (hm : Mono E.clk) (hf : 0 < E.extraFuel) (cfg : AggConfig) (inAll : Bool) (d : Nat) (s : S D)
    (h : SInv E cfg.numEntries s) (k : Bytes) :
    lookup E (onDelete E cfg inAll (d + 1)) true k (s.world (w0 cfg)) =
      .ok (pinKey true k ((expireAll E cfg inAll s).world (w0 cfg))) := by
  unfold lookup
  rw [(removeExpired_eq hm hf cfg inAll d s h).1]
  rfl

theorem noMerge_add (q : QReq D) (x : Slot (QReq D)) : addRemovedItem noMerge q x = x.map (· ++ [q]) := by
  cases x with
  | none => rfl
  | some l =>
    simp only [addRemovedItem, Option.map_some, bufferAdd, noMerge]
    cases l.getLast? <;> rfl

theorem noMerge_fold (qs : List (QReq D)) (x : Slot (QReq D)) :
    qs.foldl (fun x q => addRemovedItem noMerge q x) x = x.map (· ++ qs) := by
  induction qs generalizing x with
  | nil => cases x <;> simp
  | cons q qs ih => rw [List.foldl_cons, ih, noMerge_add]; cases x <;> simp

/-- The new entry of a request. -/
def fresh (E : Env) (cfg : AggConfig) (r : QReq D) (s : S D) : QElem D :=
  ⟨s.nid, allocateQuotaSig cfg.H r, s.nid, ⟨r, .default, allocateQuotaSig cfg.H r, E.clk s.t, true, none⟩, 0, 1, E.clk (s.t + 1), true⟩

section
variable {E : Env} (hm : Mono E.clk) (hf : 0 < E.extraFuel) (cfg : AggConfig) (inAll : Bool) (d : Nat) (s : S D)
  (h : SInv E cfg.numEntries s) (hout : s.out = []) (r : QReq D) (hv : Valid cfg r)
include hm hf h hout hv

theorem quota_start (X : Res (State D × Out × List (QReq D)))
    (hX : ∀ sig, sig = allocateQuotaSig cfg.H r →
      (do
        let (b, out, fl) ← (do
          let (w, a) ← (do
            let (w, found) ← Except.ok (pinKey true sig ((expireAll E cfg inAll s).world (w0 cfg)))
            match found with
            | none => do
              let v : Elem D := ⟨r, .default, sig, E.clk w.tick, true, none⟩
              let p := w.cache.nextId
              let w ← insert E (onDelete E cfg inAll (d + 1)) sig p v 1 w.ticked
              let w := { w with ext := addRemovedItem noMerge r w.ext }
              let v ← deref p w
              .ok (w, (⟨.ok, some v.response⟩ : Out))
            | some e => do
              let (v, t, qs) := refresh E cfg e.val w.tick
              let w := { w with ext := qs.foldl (fun x q => addRemovedItem noMerge q x) w.ext }
              let v ← if v.positive then v.aggregate E r else .ok v
              let w ← release E (onDelete E cfg inAll (d + 1)) true sig e.ptr { setVal e.ptr v w with tick := t }
              .ok (w, ⟨.ok, some v.response⟩))
          .ok ({ (⟨some (cacheOf cfg s.N s.nid), s.t, true⟩ : AggState (Elem D)) with cache := some w.cache, tick := w.tick }, a,
            flushOut true (w.ext.getD [])))
        .ok (⟨b, inAll⟩, out, fl) : Res (State D × Out × List (QReq D))) = X) :
    quota E cfg (d + 1) r (stateOf cfg inAll s) = X := by
  rw [← hX _ rfl, ← lookup_eq hm hf cfg inAll d s h]
  unfold quota
  rw [if_neg (by simp [hv.1]), if_neg hv.2]
  rw [world_eq, hout]
  rfl

theorem quota_hit (A B : List (QElem D)) (e : QElem D) (hN : (expireAll E cfg inAll s).N = A ++ e :: B)
    (hk : e.key = allocateQuotaSig cfg.H r) :
    quota E cfg (d + 1) r (stateOf cfg inAll s) =
      match (refresh E cfg e.val (expireAll E cfg inAll s).t) with
      | (v, t, qs) =>
        (if v.positive then v.aggregate E r else .ok v).map fun v' =>
          done cfg inAll ⟨A ++ { e with val := v' } :: B, (expireAll E cfg inAll s).nid, t,
            (expireAll E cfg inAll s).out ++ qs.map (fun q => (e.key, q))⟩ ⟨.ok, some v'.response⟩ := by
  refine quota_start hm hf cfg inAll d s h hout r hv _ ?_
  intro sig hsig
  have h1 := (removeExpired_eq hm hf cfg inAll d s h).2
  obtain ⟨w1, e1, hp, hval, hptr, ht, hx, hrel⟩ := hit_eq cfg (onDelete E cfg inAll (d + 1)) _ h1 A B e sig hN (hk.trans hsig.symm)
    (some ((expireAll E cfg inAll s).out.map (·.2)))
  rw [world_eq, hp]
  simp only [bind, Except.bind, hval, ht, hptr]
  generalize refresh E cfg e.val (expireAll E cfg inAll s).t = res
  obtain ⟨v, t, qs⟩ := res
  simp only
  have key : ∀ v' : Elem D, release E (onDelete E cfg inAll (d + 1)) true sig e.ptr
      ({ setVal e.ptr v' { w1 with ext := qs.foldl (fun x q => addRemovedItem noMerge q x) w1.ext } with tick := t } : QWorld D) =
      .ok ⟨cacheOf cfg (A ++ { e with val := v' } :: B) (expireAll E cfg inAll s).nid, t,
        some ((expireAll E cfg inAll s).out.map (·.2) ++ qs)⟩ := by
    intro v'
    have hrel' := hrel v' t (qs.foldl (fun x q => addRemovedItem noMerge q x) w1.ext)
    have : ({ setVal e.ptr v' { w1 with ext := qs.foldl (fun x q => addRemovedItem noMerge q x) w1.ext } with tick := t } : QWorld D) =
        { setVal e.ptr v' w1 with tick := t, ext := qs.foldl (fun x q => addRemovedItem noMerge q x) w1.ext } := rfl
    rw [this, hrel', hx, noMerge_fold]
    rfl
  have fin : ∀ v' : Elem D, (⟨⟨some (cacheOf cfg (A ++ { e with val := v' } :: B) (expireAll E cfg inAll s).nid), t, true⟩, inAll⟩,
      ⟨.ok, some v'.response⟩, flushOut true ((some ((expireAll E cfg inAll s).out.map (·.2) ++ qs)).getD [])) =
      done cfg inAll (⟨A ++ { e with val := v' } :: B, (expireAll E cfg inAll s).nid, t,
            (expireAll E cfg inAll s).out ++ qs.map (fun q => (e.key, q))⟩ : S D) ⟨.ok, some v'.response⟩ := by
    intro v'
    simp [done, stateOf, flushOut, List.map_map, Function.comp_def]
  rw [ht] at key
  by_cases hpos : v.positive
  · rw [if_pos hpos, if_pos hpos]
    cases hag : v.aggregate E r with
    | error f => rfl
    | ok v' =>
      simp only [Except.map, ← fin v']
      rw [key v']
  · rw [if_neg hpos, if_neg hpos]
    simp only [Except.map, ← fin v]
    rw [key v]

theorem quota_miss_room (hN : ∀ e ∈ (expireAll E cfg inAll s).N, e.key ≠ allocateQuotaSig cfg.H r)
    (hroom : ((expireAll E cfg inAll s).N.length : Int) < cfg.numEntries) :
    quota E cfg (d + 1) r (stateOf cfg inAll s) =
      .ok (done cfg inAll ⟨fresh E cfg r (expireAll E cfg inAll s) :: (expireAll E cfg inAll s).N, (expireAll E cfg inAll s).nid + 1,
        (expireAll E cfg inAll s).t + 2, (expireAll E cfg inAll s).out ++ [(allocateQuotaSig cfg.H r, r)]⟩ ⟨.ok, some .default⟩) := by
  refine quota_start hm hf cfg inAll d s h hout r hv _ ?_
  intro sig hsig
  have h1 := (removeExpired_eq hm hf cfg inAll d s h).2
  generalize hs1 : expireAll E cfg inAll s = s1 at *
  have hfk : findKey sig s1.N = none := findKey_none.mpr (by rw [hsig]; exact hN)
  have hp : pinKey true sig (s1.world (w0 cfg)) = (s1.world (w0 cfg), none) := by
    unfold pinKey
    rw [show (s1.world (w0 cfg)).cache.nodes = s1.N from rfl, hfk]
  rw [hp]
  simp only [bind, Except.bind]
  have hins := insert_room E (onDelete E cfg inAll (d + 1)) sig s1.nid (⟨r, .default, sig, E.clk s1.t, true, none⟩ : Elem D)
    (s1.world (w0 cfg)).ticked (h1.later hm (s1.t + 1) (Nat.le_succ _) s1.out |>.ageN (w0_base cfg)) (by rw [hsig]; exact hN) hroom
  have hins' : insert E (onDelete E cfg inAll (d + 1)) sig (s1.world (w0 cfg)).cache.nextId
    (⟨r, .default, sig, E.clk (s1.world (w0 cfg)).tick, true, none⟩ : Elem D) 1 (s1.world (w0 cfg)).ticked = _ := hins
  rw [hins']
  simp only
  rw [show (s1.world (w0 cfg)).cache.nextId = (newElem E sig s1.nid (⟨r, .default, sig, E.clk s1.t, true, none⟩ : Elem D)
    (s1.world (w0 cfg)).ticked 0).ptr from rfl, deref_mid _ [] s1.N _ rfl (by simp)]
  simp only [done, stateOf, flushOut, if_true, noMerge_add, List.map_append]
  subst hsig
  simp [World.upd, S.world, w0, World.ticked, fresh, newElem, World.now, cacheOf]

theorem quota_miss_full (hN : ∀ e ∈ (expireAll E cfg inAll s).N, e.key ≠ allocateQuotaSig cfg.H r) (hpos : 0 < cfg.numEntries)
    (hfull : ((expireAll E cfg inAll s).N.length : Int) = cfg.numEntries) :
    (∀ F R' nid' t' o, evict E cfg inAll (expireAll E cfg inAll s).N.reverse ((expireAll E cfg inAll s).nid + 1)
        ((expireAll E cfg inAll s).t + 2) = some (F, R', nid', t', o) →
      (F.length < d + 1 → quota E cfg (d + 1) r (stateOf cfg inAll s) =
        .ok (done cfg inAll ⟨F ++ fresh E cfg r (expireAll E cfg inAll s) :: R'.reverse, nid', t',
          (expireAll E cfg inAll s).out ++ o ++ [(allocateQuotaSig cfg.H r, r)]⟩ ⟨.ok, some .default⟩)) ∧
      (d + 1 ≤ F.length → quota E cfg (d + 1) r (stateOf cfg inAll s) = .error .outOfFuel)) ∧
    (evict E cfg inAll (expireAll E cfg inAll s).N.reverse ((expireAll E cfg inAll s).nid + 1)
        ((expireAll E cfg inAll s).t + 2) = none →
      ∃ err, quota E cfg (d + 1) r (stateOf cfg inAll s) = .error err) ∧
    (inAll = false → (∀ y ∈ (expireAll E cfg inAll s).N, ∀ t, (expireAll E cfg inAll s).t ≤ t → shouldDrop E cfg y.val t = false) →
      quota E cfg (d + 1) r (stateOf cfg inAll s) = .error .outOfFuel) := by
  have h1 := (removeExpired_eq hm hf cfg inAll d s h).2
  have start : ∀ X, _ := fun X => quota_start hm hf cfg inAll d s h hout r hv X
  generalize hs1 : expireAll E cfg inAll s = s1 at *
  have hfk : ∀ sig, sig = allocateQuotaSig cfg.H r → findKey sig s1.N = none := fun sig hsig =>
    findKey_none.mpr (by rw [hsig]; exact hN)
  have hp : ∀ sig, sig = allocateQuotaSig cfg.H r → pinKey true sig (s1.world (w0 cfg)) = (s1.world (w0 cfg), none) := by
    intro sig hsig
    unfold pinKey
    rw [show (s1.world (w0 cfg)).cache.nodes = s1.N from rfl, hfk sig hsig]
  have h2 := h1.later hm (s1.t + 1) (Nat.le_succ _) s1.out
  have hne : s1.N ≠ [] := by intro h0; rw [h0] at hfull; simp at hfull; omega
  have hnew := insert_new_full E cfg inAll (d + 1) (allocateQuotaSig cfg.H r) s1.nid
    (⟨r, .default, allocateQuotaSig cfg.H r, E.clk s1.t, true, none⟩ : Elem D)
    (s1.world (w0 cfg)).ticked (h2.ageN (w0_base cfg)) hne
    (fun e he => ⟨(h1.elem e he).2.2.2.2.1, (h1.elem e he).2.2.2.2.2⟩) hN
    (fun e he => Nat.ne_of_lt (h1.elem e he).2.2.2.1) (Nat.le_refl _) hfull
  obtain ⟨n1, n2, n3⟩ := hnew
  have fails : ∀ err, insert E (onDelete E cfg inAll (d + 1)) (allocateQuotaSig cfg.H r) s1.nid
      (⟨r, .default, allocateQuotaSig cfg.H r, E.clk s1.t, true, none⟩ : Elem D) 1 (s1.world (w0 cfg)).ticked = .error err →
      quota E cfg (d + 1) r (stateOf cfg inAll s) = .error err := by
    intro err herr
    refine start _ ?_
    intro sig hsig
    rw [hp sig hsig]
    subst hsig
    simp only [bind, Except.bind]
    have herr' : insert E (onDelete E cfg inAll (d + 1)) (allocateQuotaSig cfg.H r) (s1.world (w0 cfg)).cache.nextId
      (⟨r, .default, allocateQuotaSig cfg.H r, E.clk (s1.world (w0 cfg)).tick, true, none⟩ : Elem D) 1 (s1.world (w0 cfg)).ticked =
      .error err := herr
    rw [herr']
  refine ⟨?_, ?_, ?_⟩
  · intro F R' nid' t' o he
    obtain ⟨m1, m2⟩ := n1 F R' nid' t' o he
    refine ⟨fun hlt => ?_, fun hge => fails _ (m2 hge)⟩
    refine start _ ?_
    intro sig hsig
    rw [hp sig hsig]
    subst hsig
    simp only [bind, Except.bind]
    have hins := m1 hlt
    have hins' : insert E (onDelete E cfg inAll (d + 1)) (allocateQuotaSig cfg.H r) (s1.world (w0 cfg)).cache.nextId
      (⟨r, .default, allocateQuotaSig cfg.H r, E.clk (s1.world (w0 cfg)).tick, true, none⟩ : Elem D) 1
      (s1.world (w0 cfg)).ticked = _ := hins
    rw [hins']
    simp only
    have hsh := evict_shape E cfg inAll _ _ _ _ _ _ _ _ he
    obtain ⟨_, ⟨z2, hpt⟩, _⟩ := hsh
    have hFp : ∀ a ∈ F, a.ptr ≠ s1.nid := by
      intro a ha
      have : a.ptr ∈ s1.N.reverse.map (·.ptr) := by
        rw [hpt]
        refine List.mem_append_left _ ?_
        exact List.mem_map_of_mem (f := fun x : QElem D => x.ptr) (List.mem_reverse.mpr ha)
      obtain ⟨b, hb, hab⟩ := List.mem_map.mp this
      have := (h1.elem b (by simpa using hb)).2.2.2.1
      omega
    rw [show (s1.world (w0 cfg)).cache.nextId = (newElem E (allocateQuotaSig cfg.H r) s1.nid
      (⟨r, .default, allocateQuotaSig cfg.H r, E.clk s1.t, true, none⟩ : Elem D)
      (s1.world (w0 cfg)).ticked 0).ptr from rfl, deref_mid _ F R'.reverse _ rfl hFp]
    simp only [done, stateOf, flushOut, if_true, noMerge_add, List.map_append]
    simp [World.upd, S.world, w0, World.ticked, fresh, newElem, World.now, cacheOf]
  · intro he
    obtain ⟨err, herr⟩ := n2 he
    exact ⟨err, fails err herr⟩
  · intro h3 h4
    refine fails _ (n3 h3 (fun y hy t ht => h4 y hy t ?_))
    have : s1.t + 1 ≤ t := ht
    omega

end

section
variable {E : Env} (hm : Mono E.clk) (hf : 0 < E.extraFuel) (cfg : AggConfig) (inAll : Bool) (d : Nat) (s : S D)
  (h : SInv E cfg.numEntries s) (hout : s.out = [])
include hm hf h hout

theorem cacheResponse_hit (r : QReq D) (resp : AllocateQuotaResponse) (A B : List (QElem D)) (e : QElem D)
    (hN : (expireAll E cfg inAll s).N = A ++ e :: B) (hk : e.key = allocateQuotaSig cfg.H r) :
    cacheResponse E cfg (d + 1) r resp (stateOf cfg inAll s) =
      .ok (done cfg inAll ⟨A ++ { e with val := { e.val with inFlight := false }.setResponse resp } :: B,
        (expireAll E cfg inAll s).nid, (expireAll E cfg inAll s).t, (expireAll E cfg inAll s).out⟩ ⟨.ok, none⟩) := by
  have h1 := (removeExpired_eq hm hf cfg inAll d s h).2
  have hl := lookup_eq hm hf cfg inAll d s h (allocateQuotaSig cfg.H r)
  obtain ⟨w1, e1, hp, hval, hptr, ht, hx, hrel⟩ := hit_eq cfg (onDelete E cfg inAll (d + 1)) _ h1 A B e _ hN hk
    (some ((expireAll E cfg inAll s).out.map (·.2)))
  rw [world_eq, world_eq, hp, hout] at hl
  unfold cacheResponse withBuffer
  simp only [stateOf]
  simp only [bind, Except.bind]
  have hl' : lookup E (onDelete E cfg inAll (d + 1)) true (allocateQuotaSig cfg.H r)
      (⟨cacheOf cfg s.N s.nid, s.t, some []⟩ : QWorld D) = _ := hl
  rw [hl']
  simp only [hval, hptr]
  have := hrel ({ e.val with inFlight := false }.setResponse resp) w1.tick w1.ext
  have hs : setVal e.ptr ({ e.val with inFlight := false }.setResponse resp) w1 =
    { setVal e.ptr ({ e.val with inFlight := false }.setResponse resp) w1 with tick := w1.tick, ext := w1.ext } := rfl
  rw [hs, this, hx, ht]
  rfl

theorem cacheResponse_miss (r : QReq D) (resp : AllocateQuotaResponse)
    (hN : ∀ e ∈ (expireAll E cfg inAll s).N, e.key ≠ allocateQuotaSig cfg.H r) :
    cacheResponse E cfg (d + 1) r resp (stateOf cfg inAll s) =
      .ok (done cfg inAll (expireAll E cfg inAll s) ⟨.ok, none⟩) := by
  have hl := lookup_eq hm hf cfg inAll d s h (allocateQuotaSig cfg.H r)
  have hp : pinKey true (allocateQuotaSig cfg.H r) ((expireAll E cfg inAll s).world (w0 cfg)) =
      ((expireAll E cfg inAll s).world (w0 cfg), none) := by
    unfold pinKey
    rw [show ((expireAll E cfg inAll s).world (w0 cfg)).cache.nodes = (expireAll E cfg inAll s).N from rfl, findKey_none.mpr hN]
  rw [hp, world_eq, world_eq, hout] at hl
  unfold cacheResponse withBuffer
  simp only [stateOf, bind, Except.bind]
  have hl' : lookup E (onDelete E cfg inAll (d + 1)) true (allocateQuotaSig cfg.H r)
      (⟨cacheOf cfg s.N s.nid, s.t, some []⟩ : QWorld D) = _ := hl
  rw [hl']
  rfl

theorem flush_eq : flush E cfg (d + 1) (stateOf cfg inAll s) = .ok (done cfg inAll (expireAll E cfg inAll s) ⟨.ok, none⟩) := by
  have hl := (removeExpired_eq hm hf cfg inAll d s h).1
  rw [world_eq, world_eq, hout] at hl
  unfold flush withBuffer
  simp only [stateOf, bind, Except.bind]
  have hl' : removeExpired E (onDelete E cfg inAll (d + 1)) (⟨cacheOf cfg s.N s.nid, s.t, some []⟩ : QWorld D) = _ := hl
  rw [hl']
  rfl

omit hm hf in
theorem flushAll_eq : flushAll E cfg (d + 1) (stateOf cfg inAll s) =
    .ok (done cfg true ⟨[], s.nid, s.t, []⟩ ⟨.ok, none⟩) := by
  have loop : ∀ (L : List (QElem D)) (c : Cache (Elem D)), (∀ e ∈ L, e.pin = 0 ∧ e.units = 1) →
      L.foldlM (fun w e => removeElem E (onDelete E cfg true (d + 1)) e w) (⟨c, s.t, some []⟩ : QWorld D) =
        .ok ⟨{ c with units := c.units - L.length }, s.t, some []⟩ := by
    intro L
    induction L with
    | nil => intro c _; simp [pure, Except.pure]
    | cons e L ih =>
      intro c hL
      have he := hL e (by simp)
      rw [List.foldlM_cons]
      have : removeElem E (onDelete E cfg true (d + 1)) e (⟨c, s.t, some []⟩ : QWorld D) =
          .ok ⟨{ c with units := c.units - 1 }, s.t, some []⟩ := by
        simp only [removeElem, if_neg (show ¬ e.pin > 0 by omega), Lru.discard]
        rw [assertThat_pos E _ he.1, he.2]
        simp only [onDelete, if_true, bind, Except.bind]
        rfl
      rw [this]
      simp only [bind, Except.bind]
      rw [ih _ (fun x hx => hL x (by simp [hx]))]
      simp only [List.length_cons]
      congr 3
      push_cast; omega
  have hperm : (tableOrder E s.N).Perm s.N := tableOrder_perm E s.N
  have hL : ∀ e ∈ tableOrder E s.N, e.pin = 0 ∧ e.units = 1 := fun e he =>
    ⟨(h.elem e (hperm.mem_iff.mp he)).2.2.2.2.1, (h.elem e (hperm.mem_iff.mp he)).2.1⟩
  unfold flushAll withBuffer
  simp only [stateOf, bind, Except.bind]
  unfold removeAll
  have := loop (tableOrder E s.N) (cacheOf cfg s.N s.nid) hL
  have h2 : (tableOrder E (cacheOf cfg s.N s.nid).nodes).foldlM (fun w e => removeElem E (onDelete E cfg true (d + 1)) e w)
    (⟨cacheOf cfg s.N s.nid, s.t, some []⟩ : QWorld D) = _ := this
  simp only
  rw [h2]
  simp only [bind, Except.bind, done, stateOf, cacheOf, hperm.length_eq]
  simp [flushOut]

end

end Verif.Quota
