import Verif.Spec.QuotaTokens
import Verif.Props.QuotaAggregator
/-
C73: the part that holds.
-/
set_option linter.unusedSectionVars false

namespace Verif.Quota
open Lru

variable {D : Type} {E E' : Env} {cfg : AggConfig} {h : Hist D} {s s' : State D} {d d' : Nat} {out : Out}
  {fl : List (AllocateQuotaRequest D)}

/-- An entry with other identities. -/
def shift (n : Nat) (e : QElem D) : QElem D := { e with id := e.id + n, ptr := e.ptr + n }

/-- The same entries at the same time, up to identities and the number of clock readings. -/
structure Like (T t0 n : Nat) (s s' : S D) : Prop where
  N : s.N = s'.N.map (shift n)
  nid : s.nid = s'.nid + n
  t : ∃ i, s.t = T + i ∧ s'.t = t0 + i

/-- Nothing has expired. -/
theorem expireAll_keep {inAll : Bool} {s : S D} (hu : ∀ e ∈ s.N, 0 ≤ limitOf cfg → E.clk s.t - limitOf cfg ≤ e.lastUse) :
    expireAll E cfg inAll s = { s with t := if 0 ≤ limitOf cfg then s.t + 1 else s.t } := by
  unfold expireAll
  by_cases hl : 0 ≤ limitOf cfg
  · rw [if_pos hl]
    simp only [if_pos hl]
    cases hN : s.N.reverse with
    | nil =>
      have : s.N = [] := List.reverse_eq_nil_iff.mp hN
      rw [expire, this]
    | cons x R =>
      have hx : x ∈ s.N := List.mem_reverse.mp (by rw [hN]; simp)
      rw [expire, if_neg (by have := hu x hx hl; omega)]
      simp only [List.nil_append]
      rw [← hN, List.reverse_reverse]
  · rw [if_neg hl]
    simp only [if_neg hl]

theorem like_refresh {T t0 : Nat} (hclk : ∀ i, E.clk (T + i) = E'.clk (t0 + i)) (v : Elem D) (i : Nat) :
    ∃ j v1 qs, refresh E cfg v (T + i) = (v1, T + j, qs) ∧ refresh E' cfg v (t0 + i) = (v1, t0 + j, qs) := by
  have h0 := hclk i
  have h1 := hclk (i + 1)
  rw [← Nat.add_assoc, ← Nat.add_assoc] at h1
  unfold refresh shouldRefresh
  rw [h0, h1]
  split
  · split
    · exact ⟨i + 2, _, _, rfl, rfl⟩
    · exact ⟨i + 1, _, _, rfl, rfl⟩
  · exact ⟨i, _, _, rfl, rfl⟩

theorem findKey_shift (k : Bytes) (n : Nat) (N : List (QElem D)) : findKey k (N.map (shift n)) = (findKey k N).map (shift n) := by
  unfold findKey
  rw [List.find?_map]
  rfl

/-- One call on two such aggregators. -/
theorem like_step {T t0 n : Nat} (hm : Mono E.clk) (hm' : Mono E'.clk) (hf : 0 < E.extraFuel) (hf' : 0 < E'.extraFuel)
    (hdbg : E.dbg = E'.dbg) (hclk : ∀ i, E.clk (T + i) = E'.clk (t0 + i)) {b b' : Bool} {s s' : S D} (hl : Like T t0 n s s')
    (hi : SInv E cfg.numEntries s) (hi' : SInv E' cfg.numEntries s') (ho : s.out = []) (ho' : s'.out = [])
    (hu : ∀ e ∈ s.N, 0 ≤ limitOf cfg → E.clk s.t - limitOf cfg ≤ e.lastUse) (c : Call D)
    (hroom : ∀ r, c = .quota r → (∀ e ∈ s.N, e.key ≠ allocateQuotaSig cfg.H r) → (s.N.length : Int) < cfg.numEntries)
    {st' : State D} {out : Out} {fl : List (QReq D)} (hs : step E' cfg (d' + 1) c (stateOf cfg b' s') = .ok (st', out, fl)) :
    ∃ (s1 s1' : S D) (b1 b1' : Bool), step E cfg (d + 1) c (stateOf cfg b s) = .ok (stateOf cfg b1 s1, out, fl) ∧ st' = stateOf cfg b1' s1' ∧
      Like T t0 n s1 s1' ∧ s1.out = [] ∧ s1'.out = [] ∧
      (∀ e ∈ s1.N, (∃ e' ∈ s.N, e.lastUse = e'.lastUse ∧ e.key = e'.key) ∨
        (E.clk s.t ≤ e.lastUse ∧ ∃ r, c = .quota r ∧ e.key = allocateQuotaSig cfg.H r)) := by
  obtain ⟨i, ht, ht'⟩ := hl.t
  have hu' : ∀ e ∈ s'.N, 0 ≤ limitOf cfg → E'.clk s'.t - limitOf cfg ≤ e.lastUse := by
    intro e he h0
    have := hu (shift n e) (by rw [hl.N]; exact List.mem_map_of_mem he) h0
    rw [ht, hclk] at this
    rw [ht']; exact this
  obtain ⟨j, hj, hj', hij⟩ : ∃ j, (if 0 ≤ limitOf cfg then s.t + 1 else s.t) = T + j ∧ (if 0 ≤ limitOf cfg then s'.t + 1 else s'.t) = t0 + j ∧ i ≤ j := by
    by_cases h0 : 0 ≤ limitOf cfg
    · exact ⟨i + 1, by rw [if_pos h0, ht, Nat.add_assoc], by rw [if_pos h0, ht', Nat.add_assoc], Nat.le_succ i⟩
    · exact ⟨i, by rw [if_neg h0, ht], by rw [if_neg h0, ht'], Nat.le_refl i⟩
  have hex := expireAll_keep (E := E) (cfg := cfg) (inAll := b) hu
  have hex' := expireAll_keep (E := E') (cfg := cfg) (inAll := b') hu'
  rw [hj] at hex
  rw [hj'] at hex'
  have hkeep : ∀ e ∈ s.N, (∃ e' ∈ s.N, e.lastUse = e'.lastUse ∧ e.key = e'.key) := fun e he => ⟨e, he, rfl, rfl⟩
  cases c with
  | quota r =>
    simp only [step] at hs ⊢
    by_cases hv : Valid cfg r
    · cases hfk : findKey (allocateQuotaSig cfg.H r) s'.N with
      | none =>
        have hno' : ∀ e ∈ s'.N, e.key ≠ allocateQuotaSig cfg.H r := findKey_none.mp hfk
        have hno : ∀ e ∈ s.N, e.key ≠ allocateQuotaSig cfg.H r := by
          refine findKey_none.mp ?_
          rw [hl.N, findKey_shift, hfk]; rfl
        have hr1 := hroom r rfl hno
        have hlen : s.N.length = s'.N.length := by rw [hl.N, List.length_map]
        have h1 := quota_miss_room hm hf cfg b d s hi ho r hv (by rw [hex]; exact hno) (by rw [hex]; exact hr1)
        have h2 := quota_miss_room hm' hf' cfg b' d' s' hi' ho' r hv (by rw [hex']; exact hno') (by rw [hex']; rw [hlen] at hr1; exact hr1)
        rw [h2] at hs
        rw [hex] at h1
        rw [hex'] at hs
        simp only [done, Except.ok.injEq, Prod.mk.injEq] at hs
        obtain ⟨hs1, hs2, hs3⟩ := hs
        subst hs1 hs2 hs3
        rw [h1]
        refine ⟨⟨fresh E cfg r { s with t := T + j } :: s.N, s.nid + 1, T + j + 2, []⟩,
          ⟨fresh E' cfg r { s' with t := t0 + j } :: s'.N, s'.nid + 1, t0 + j + 2, []⟩, b, b', ?_, rfl, ⟨?_, ?_, ?_⟩, rfl, rfl, ?_⟩
        · simp only [done, ho, ho']; rfl
        · show fresh E cfg r { s with t := T + j } :: s.N = shift n (fresh E' cfg r { s' with t := t0 + j }) :: s'.N.map (shift n)
          rw [hl.N]
          have h5 := hclk (j + 1)
          rw [← Nat.add_assoc, ← Nat.add_assoc] at h5
          simp only [fresh, shift, hl.nid, hclk, h5]
        · show s.nid + 1 = s'.nid + 1 + n
          rw [hl.nid]; omega
        · exact ⟨j + 2, by simp only; omega, by simp only; omega⟩
        · intro e he
          rcases List.mem_cons.mp he with rfl | he
          · right
            refine ⟨?_, r, rfl, rfl⟩
            show E.clk s.t ≤ E.clk (T + j + 1)
            exact hm.le (by omega)
          · exact .inl (hkeep e he)
      | some e =>
        obtain ⟨A, B, hN, hk, _⟩ := find_split hfk
        have hN1 : s.N = A.map (shift n) ++ shift n e :: B.map (shift n) := by rw [hl.N, hN]; simp
        have h1 := quota_hit hm hf cfg b d s hi ho r hv (A.map (shift n)) (B.map (shift n)) (shift n e) (by rw [hex]; exact hN1) hk
        have h2 := quota_hit hm' hf' cfg b' d' s' hi' ho' r hv A B e (by rw [hex']; exact hN) hk
        rw [h2] at hs
        rw [hex] at h1
        rw [hex'] at hs
        simp only at h1 hs
        obtain ⟨m, v1, qs, hr1, hr2⟩ := like_refresh (cfg := cfg) hclk e.val j
        rw [show (shift n e).val = e.val from rfl, hr1] at h1
        rw [hr2] at hs
        simp only at h1 hs
        have hag : v1.aggregate E r = v1.aggregate E' r := by unfold Elem.aggregate; rw [hdbg]
        rw [hag] at h1
        generalize hgv : (if v1.positive then v1.aggregate E' r else .ok v1) = gv at h1 hs
        cases gv with
        | error f => cases hs
        | ok v2 =>
          simp only [Except.map, done, Except.ok.injEq, Prod.mk.injEq] at hs
          obtain ⟨hs1, hs2, hs3⟩ := hs
          subst hs1 hs2 hs3
          rw [h1]
          refine ⟨⟨A.map (shift n) ++ { shift n e with val := v2 } :: B.map (shift n), s.nid, T + m, []⟩,
            ⟨A ++ { e with val := v2 } :: B, s'.nid, t0 + m, []⟩, b, b', ?_, rfl, ⟨?_, hl.nid, ⟨m, rfl, rfl⟩⟩, rfl, rfl, ?_⟩
          · simp only [Except.map, done, ho, ho']; simp [stateOf, List.map_map, Function.comp_def]
          · simp only [List.map_append, List.map_cons]; rfl
          · intro e0 he0
            left
            rcases List.mem_append.mp he0 with he0 | he0
            · exact ⟨e0, by rw [hN1]; simp [he0], rfl, rfl⟩
            · rcases List.mem_cons.mp he0 with rfl | he0
              · exact ⟨shift n e, by rw [hN1]; simp, rfl, rfl⟩
              · exact ⟨e0, by rw [hN1]; simp [he0], rfl, rfl⟩
    · have h1 := C44_invalid_rejected (E := E) (d := d + 1) (s := stateOf cfg b s) r hv
      have h2 := C44_invalid_rejected (E := E') (d := d' + 1) (s := stateOf cfg b' s') r hv
      simp only [step] at h1 h2
      rw [h2] at hs
      cases hs
      exact ⟨s, s', b, b', h1, rfl, hl, ho, ho', fun e he => .inl (hkeep e he)⟩
  | cacheResponse r resp =>
    simp only [step] at hs ⊢
    cases hfk : findKey (allocateQuotaSig cfg.H r) s'.N with
    | none =>
      have hno' : ∀ e ∈ s'.N, e.key ≠ allocateQuotaSig cfg.H r := findKey_none.mp hfk
      have hno : ∀ e ∈ s.N, e.key ≠ allocateQuotaSig cfg.H r := by
        refine findKey_none.mp ?_
        rw [hl.N, findKey_shift, hfk]; rfl
      have h1 := cacheResponse_miss hm hf cfg b d s hi ho r resp (by rw [hex]; exact hno)
      have h2 := cacheResponse_miss hm' hf' cfg b' d' s' hi' ho' r resp (by rw [hex']; exact hno')
      rw [h2, hex'] at hs
      rw [hex] at h1
      simp only [done, Except.ok.injEq, Prod.mk.injEq] at hs
      obtain ⟨hs1, hs2, hs3⟩ := hs
      subst hs1 hs2 hs3
      rw [h1]
      refine ⟨{ s with t := T + j }, { s' with t := t0 + j }, b, b', ?_, rfl, ⟨hl.N, hl.nid, j, rfl, rfl⟩, ho, ho', fun e he => .inl (hkeep e he)⟩
      simp only [done, ho, ho']
    | some e =>
      obtain ⟨A, B, hN, hk, _⟩ := find_split hfk
      have hN1 : s.N = A.map (shift n) ++ shift n e :: B.map (shift n) := by rw [hl.N, hN]; simp
      have h1 := cacheResponse_hit hm hf cfg b d s hi ho r resp (A.map (shift n)) (B.map (shift n)) (shift n e) (by rw [hex]; exact hN1) hk
      have h2 := cacheResponse_hit hm' hf' cfg b' d' s' hi' ho' r resp A B e (by rw [hex']; exact hN) hk
      rw [h2, hex'] at hs
      rw [hex] at h1
      simp only [done, Except.ok.injEq, Prod.mk.injEq] at hs
      obtain ⟨hs1, hs2, hs3⟩ := hs
      subst hs1 hs2 hs3
      rw [h1]
      refine ⟨⟨A.map (shift n) ++ { shift n e with val := { e.val with inFlight := false }.setResponse resp } :: B.map (shift n), s.nid, T + j, []⟩,
        ⟨A ++ { e with val := { e.val with inFlight := false }.setResponse resp } :: B, s'.nid, t0 + j, []⟩, b, b', ?_, rfl,
        ⟨?_, hl.nid, j, rfl, rfl⟩, rfl, rfl, ?_⟩
      · simp only [done, ho, ho']; rfl
      · simp only [List.map_append, List.map_cons]; rfl
      · intro e0 he0
        left
        rcases List.mem_append.mp he0 with he0 | he0
        · exact ⟨e0, by rw [hN1]; simp [he0], rfl, rfl⟩
        · rcases List.mem_cons.mp he0 with rfl | he0
          · exact ⟨shift n e, by rw [hN1]; simp, rfl, rfl⟩
          · exact ⟨e0, by rw [hN1]; simp [he0], rfl, rfl⟩
  | flush =>
    simp only [step] at hs ⊢
    have h1 := flush_eq hm hf cfg b d s hi ho
    have h2 := flush_eq hm' hf' cfg b' d' s' hi' ho'
    rw [h2, hex'] at hs
    rw [hex] at h1
    simp only [done, Except.ok.injEq, Prod.mk.injEq] at hs
    obtain ⟨hs1, hs2, hs3⟩ := hs
    subst hs1 hs2 hs3
    rw [h1]
    refine ⟨{ s with t := T + j }, { s' with t := t0 + j }, b, b', ?_, rfl, ⟨hl.N, hl.nid, j, rfl, rfl⟩, ho, ho', fun e he => .inl (hkeep e he)⟩
    simp only [done, ho, ho']
  | flushAll =>
    simp only [step] at hs ⊢
    have h1 := flushAll_eq cfg b d s hi ho
    have h2 := flushAll_eq cfg b' d' s' hi' ho'
    rw [h2] at hs
    simp only [done, Except.ok.injEq, Prod.mk.injEq] at hs
    obtain ⟨hs1, hs2, hs3⟩ := hs
    subst hs1 hs2 hs3
    rw [h1]
    exact ⟨⟨[], s.nid, s.t, []⟩, ⟨[], s'.nid, s'.t, []⟩, true, true, rfl, rfl, ⟨rfl, hl.nid, i, ht, ht'⟩, rfl, rfl, by simp⟩

theorem stateOf_inj {b b' : Bool} {s s' : S D} (hs : stateOf cfg b s = stateOf cfg b' s') (ho : s.out = []) (ho' : s'.out = []) : s = s' := by
  obtain ⟨N, nid, t, o⟩ := s
  obtain ⟨N', nid', t', o'⟩ := s'
  simp only [stateOf, cacheOf, State.mk.injEq, AggState.mk.injEq, Option.some.injEq, Cache.mk.injEq] at hs
  simp only at ho ho'
  obtain ⟨⟨⟨h1, _, _, _, _, _, _, h2⟩, h3, _⟩, _⟩ := hs
  subst h1 h2 h3 ho ho'
  rfl

/-- The clock only moves on. -/
theorem calls_tick (hm : Mono E.clk) (hf : 0 < E.extraFuel) (hpos : 0 < cfg.numEntries) (cs : List (Call D)) :
    ∀ {b : Bool} {s : S D}, SInv E cfg.numEntries s → s.out = [] → ∀ {outs : List (Out × List (QReq D))} {st : State D},
    calls E cfg d cs (stateOf cfg b s) = .ok (outs, st) → s.t ≤ st.base.tick := by
  induction cs with
  | nil =>
    intro b s _ _ outs st hc
    simp only [calls, Except.ok.injEq, Prod.mk.injEq] at hc
    obtain ⟨rfl, rfl⟩ := hc
    exact Nat.le_refl _
  | cons c cs ih =>
    intro b s hi ho outs st hc
    simp only [calls, bind, Except.bind] at hc
    cases hs : step E cfg (d + 1) c (stateOf cfg b s) with
    | error f => rw [hs] at hc; cases hc
    | ok v =>
      obtain ⟨st', out, fl⟩ := v
      rw [hs] at hc
      simp only at hc
      obtain ⟨s2, b2, o, hst, hso, hsi, _, htt, _⟩ := step_view hm hf cfg hpos b d s hi ho c _ out fl hs
      subst hst
      cases hcs : calls E cfg d cs (stateOf cfg b2 s2) with
      | error f => rw [hcs] at hc; cases hc
      | ok w =>
        obtain ⟨outs', st''⟩ := w
        rw [hcs] at hc
        simp only [Except.ok.injEq, Prod.mk.injEq] at hc
        obtain ⟨rfl, rfl⟩ := hc
        exact Nat.le_trans htt (ih hsi hso hcs)

/-- Calls on two such aggregators. -/
theorem like_calls {T t0 n : Nat} (hm : Mono E.clk) (hm' : Mono E'.clk) (hf : 0 < E.extraFuel) (hf' : 0 < E'.extraFuel)
    (hpos : 0 < cfg.numEntries) (hdbg : E.dbg = E'.dbg) (hclk : ∀ i, E.clk (T + i) = E'.clk (t0 + i)) (K : List Bytes)
    (hK : (K.length : Int) ≤ cfg.numEntries) (cs : List (Call D)) :
    ∀ {b b' : Bool} {s s' : S D}, Like T t0 n s s' → SInv E cfg.numEntries s → SInv E' cfg.numEntries s' → s.out = [] → s'.out = [] →
    (∀ e ∈ s.N, E.clk T ≤ e.lastUse ∧ e.key ∈ K) → (∀ k ∈ signatures cfg.H cs, k ∈ K) →
    ∀ {outs : List (Out × List (QReq D))} {st : State D}, calls E' cfg d' cs (stateOf cfg b' s') = .ok (outs, st) →
    (0 ≤ limitOf cfg → E'.clk st.base.tick - E'.clk t0 ≤ limitOf cfg) →
    ∃ st1, calls E cfg d cs (stateOf cfg b s) = .ok (outs, st1) := by
  induction cs with
  | nil =>
    intro b b' s s' _ _ _ _ _ _ _ outs st hc _
    simp only [calls, Except.ok.injEq, Prod.mk.injEq] at hc ⊢
    obtain ⟨rfl, rfl⟩ := hc
    exact ⟨_, rfl, rfl⟩
  | cons c cs ih =>
    intro b b' s s' hl hi hi' ho ho' hu hsg outs st hc hsoon
    simp only [calls, bind, Except.bind] at hc
    cases hs : step E' cfg (d' + 1) c (stateOf cfg b' s') with
    | error f => rw [hs] at hc; cases hc
    | ok v =>
      obtain ⟨st', out, fl⟩ := v
      rw [hs] at hc
      simp only at hc
      cases hcs : calls E' cfg d' cs st' with
      | error f => rw [hcs] at hc; cases hc
      | ok w =>
        obtain ⟨outs', st''⟩ := w
        rw [hcs] at hc
        simp only [Except.ok.injEq, Prod.mk.injEq] at hc
        obtain ⟨rfl, rfl⟩ := hc
        obtain ⟨s2', b2', o', hst', hso', hsi', hfl', htt', _⟩ := step_view hm' hf' cfg hpos b' d' s' hi' ho' c st' out fl hs
        -- the clock at the beginning of the call is within the limit
        have hlast : 0 ≤ limitOf cfg → E.clk s.t - E.clk T ≤ limitOf cfg := by
          intro h0
          rw [hst'] at hcs
          have h1 := calls_tick hm' hf' hpos cs hsi' hso' hcs
          obtain ⟨i, hi1, hi2⟩ := hl.t
          have h2 := hm'.le (Nat.le_trans htt' h1)
          have h3 := hsoon h0
          have h4 := hclk i
          have h5 := hclk 0
          rw [← hi1, ← hi2] at h4
          simp only [Nat.add_zero] at h5
          omega
        have hroom : ∀ r, c = .quota r → (∀ e ∈ s.N, e.key ≠ allocateQuotaSig cfg.H r) → (s.N.length : Int) < cfg.numEntries := by
          intro r hr hno
          have hk : allocateQuotaSig cfg.H r ∈ K := hsg _ (by simp [signatures, hr])
          have hsub : (allocateQuotaSig cfg.H r :: s.N.map (·.key)) ⊆ K := by
            intro y hy
            rcases List.mem_cons.mp hy with rfl | hy
            · exact hk
            · obtain ⟨e, he, rfl⟩ := List.mem_map.mp hy
              exact (hu e he).2
          have hnd : (allocateQuotaSig cfg.H r :: s.N.map (·.key)).Nodup := by
            refine List.nodup_cons.mpr ⟨?_, hi.keys⟩
            intro hc
            obtain ⟨e, he, hek⟩ := List.mem_map.mp hc
            exact hno e he hek
          have := (List.subperm_of_subset hnd hsub).length_le
          simp only [List.length_cons, List.length_map] at this
          omega
        obtain ⟨s1, s1', b1, b1', h1, h2, h3, h4, h5, h6⟩ := like_step (d := d) (b := b) hm hm' hf hf' hdbg hclk hl hi hi' ho ho'
          (fun e he h0 => by have := hlast h0; have := (hu e he).1; omega) c hroom hs
        obtain ⟨s2, b2, o, hst, hso, hsi, _, htt, _⟩ := step_view hm hf cfg hpos b d s hi ho c _ out fl h1
        have e1 := stateOf_inj hst h4 hso
        have e2 := stateOf_inj (h2.symm.trans hst') h5 hso'
        subst e1 e2
        rw [h2] at hcs
        have hTt : T ≤ s.t := by obtain ⟨i, hi, _⟩ := hl.t; omega
        obtain ⟨st1, g2⟩ := ih (b := b1) (b' := b1') h3 hsi hsi' h4 h5 (by
          intro e he
          rcases h6 e he with ⟨e', he', h7, h8⟩ | ⟨h7, r, hr, h8⟩
          · rw [h7, h8]; exact hu e' he'
          · refine ⟨Int.le_trans (hm.le hTt) h7, ?_⟩
            rw [h8]
            exact hsg _ (by simp [signatures, hr])) (fun k hk => hsg k (by
              simp only [signatures, List.filterMap_cons]
              split
              · exact hk
              · exact List.mem_cons_of_mem _ hk)) hcs hsoon
        refine ⟨st1, ?_⟩
        simp only [calls, bind, Except.bind, h1, g2]

/-- `FlushAll` drops all entries and sends nothing. -/
theorem C73_empties_partial (hm : Mono E.clk) (hf : 0 < E.extraFuel) (hpos : 0 < cfg.numEntries) (r : Reach E cfg h s) :
    ∃ s', step E cfg (d + 1) .flushAll s = .ok (s', ⟨.ok, none⟩, []) ∧ entriesOf s' = [] ∧ s'.base.tick = s.base.tick := by
  obtain ⟨s0, b, rfl, hi⟩ := r.inv hm hf hpos
  exact ⟨_, flushAll_eq cfg b d s0 hi.inv hi.out, rfl, rfl⟩

/-- C73, the part that holds: after `FlushAll` the calls `cs` return and send what they return and
send on a new aggregator, as long as they use no more signatures than the cache has room for and take
no longer than the refresh interval `L` of the cache.  The new aggregator reads the clock at the same times. -/
theorem C73_like_new_partial (hm : Mono E.clk) (hf : 0 < E.extraFuel) (hpos : 0 < cfg.numEntries) (r : Reach E cfg h s)
    (hs : step E cfg (d + 1) .flushAll s = .ok (s', out, fl))
    (hm' : Mono E'.clk) (hf' : 0 < E'.extraFuel) (hdbg : E.dbg = E'.dbg) {s0 : State D} (hn : new E' cfg (d' + 1) = .ok s0)
    (hclk : ∀ i, E.clk (s'.base.tick + i) = E'.clk (s0.base.tick + i)) (cs : List (Call D)) (K : List Bytes)
    (hK : (K.length : Int) ≤ cfg.numEntries) (hsig : ∀ k ∈ signatures cfg.H cs, k ∈ K)
    {outs : List (Out × List (QReq D))} {st : State D}
    (hc : calls E' cfg d' cs { s0 with base := s0.base.setFlushCallback true } = .ok (outs, st))
    (hsoon : ∀ L, cfg.timeout cfg.flushMs = some L → E'.clk st.base.tick - E'.clk s0.base.tick ≤ L) :
    ∃ st', calls E cfg d cs s' = .ok (outs, st') := by
  obtain ⟨t, b, rfl, hi⟩ := r.inv hm hf hpos
  obtain ⟨t', hst⟩ := new_eq (D := D) E' cfg hpos
  replace hst := hst (d' + 1)
  rw [hn] at hst
  simp only [Except.map, Except.ok.injEq] at hst
  have ht0 : s0.base.tick = t' := by
    have : ({ s0 with base := s0.base.setFlushCallback true } : State D).base.tick = t' := by rw [hst]; rfl
    exact this
  have hfa := flushAll_eq (E := E) cfg b d t hi.inv hi.out
  rw [show step E cfg (d + 1) .flushAll (stateOf cfg b t) = _ from hfa] at hs
  simp only [done, Except.ok.injEq, Prod.mk.injEq] at hs
  obtain ⟨rfl, _, _⟩ := hs
  rw [hst] at hc
  refine like_calls (T := t.t) (t0 := t') (n := t.nid) hm hm' hf hf' hpos hdbg ?_ K hK cs (b := true) (b' := false)
    (s := ⟨[], t.nid, t.t, []⟩) (s' := ⟨[], 0, t', []⟩) ⟨rfl, by simp, 0, rfl, rfl⟩ ?_ (SInv.empty hpos t') rfl rfl (by simp) hsig hc ?_
  · intro i; rw [← ht0]; exact hclk i
  · exact (hi.inv.sublist [] (List.nil_sublist _)).later hm t.t (Nat.le_refl _) []
  · intro h0
    have h1 := hsoon (limitOf cfg)
    rw [ht0] at h1
    refine h1 ?_
    unfold limitOf at h0 ⊢
    cases hx : cfg.timeout cfg.flushMs with
    | none => rw [hx] at h0; simp at h0
    | some L => rfl

section examples

/-- `exEnv` four readings later. -/
def exLater : Env := { exEnv with clk := fun i => exEnv.clk (i + 4) }

theorem exLater_mono : Mono exLater.clk := by
  constructor
  · simp only [exLater, exEnv]; omega
  · intro i; simp only [exLater, exEnv]; omega

/-- Calls on two signatures. -/
def exAfter : List (Call Int) :=
  [.quota (exQ 1 5), .cacheResponse (exQ 1 5) (exYes 1), .quota (exQ 2 7), .quota (exQ 1 3), .flush]

/-- A case with all the hypotheses of `C73_like_new_partial`: three calls and `FlushAll`, then the
calls `exAfter`, two of which send a request. -/
example : ∃ (h : Hist Int) (s s' s0 st : State Int) (outs : List (Out × List (AllocateQuotaRequest Int))),
    Reach exEnv exCfg h s ∧ entriesOf s ≠ [] ∧ step exEnv exCfg 3 .flushAll s = .ok (s', ⟨.ok, none⟩, []) ∧
    new exLater exCfg 3 = .ok s0 ∧ (∀ i, exEnv.clk (s'.base.tick + i) = exLater.clk (s0.base.tick + i)) ∧
    calls exLater exCfg 2 exAfter { s0 with base := s0.base.setFlushCallback true } = .ok (outs, st) ∧
    (∀ k ∈ signatures exCfg.H exAfter, k ∈ [exSig 1, exSig 2]) ∧
    (∀ L, exCfg.timeout exCfg.flushMs = some L → exLater.clk st.base.tick - exLater.clk s0.base.tick ≤ L) ∧
    outs.map (fun x => x.2.map tokens) = [[5], [], [7], [], []] := by
  obtain ⟨h, s, _, hr, h2, h3⟩ := run_case (E := exEnv) (cfg := exCfg) 2
    [.quota (exQ 1 5), .cacheResponse (exQ 1 5) (exYes 1)]
    (fun _ s => entriesOf s ≠ [] ∧ s.base.tick = 5) (by decide +kernel)
  obtain ⟨s', h4, _, h5⟩ := C73_empties_partial (d := 2) exEnv_mono (by decide) (by decide) hr
  have key : (match new (D := Int) exLater exCfg 3 with
      | .ok s0 => match calls exLater exCfg 2 exAfter { s0 with base := s0.base.setFlushCallback true } with
        | .ok (outs, st) => decide (s0.base.tick = 1 ∧ st.base.tick ≤ 12 ∧ outs.map (fun x => x.2.map tokens) = [[5], [], [7], [], []])
        | .error _ => false
      | .error _ => false) = true := by decide +kernel
  cases hn : new (D := Int) exLater exCfg 3 with
  | error f => rw [hn] at key; cases key
  | ok s0 =>
    rw [hn] at key
    simp only at key
    cases hc : calls exLater exCfg 2 exAfter { s0 with base := s0.base.setFlushCallback true } with
    | error f => rw [hc] at key; cases key
    | ok v =>
      obtain ⟨outs, st⟩ := v
      rw [hc] at key
      obtain ⟨k1, k2, k3⟩ := of_decide_eq_true key
      refine ⟨h, s, s', s0, st, outs, hr, h2, h4, rfl, ?_, hc, by decide +kernel, ?_, k3⟩
      · intro i
        rw [h5, h3, k1]
        simp only [exLater, exEnv]
        congr 2
        omega
      · intro L hL
        have hL' : L = 3000 := by
          have : exCfg.timeout exCfg.flushMs = some 3000 := by decide
          rw [this] at hL; cases hL; rfl
        rw [hL', k1]
        simp only [exLater, exEnv]
        omega

end examples

end Verif.Quota
