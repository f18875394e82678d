import Verif.Props.QuotaTimer
/-
C127: an expired quota entry is gone after the timer.
-/
set_option linter.unusedSectionVars false

namespace Verif.Quota
open Lru

variable {D : Type} {E : Env} {cfg : AggConfig} {h h1 : Hist D} {s s1 s' : State D} {d : Nat} {out : Out}
  {fl : List (AllocateQuotaRequest D)} {k : Bytes} {ev : Event D}

/-- Where the entries after a call come from: they were there before and were not put back, or the call asked the server for
them, or the entry had not expired. -/
def Comes (E : Env) (cfg : AggConfig) (s : S D) (c : Call D) (fl : List (QReq D)) (e' : QElem D) : Prop :=
  (∃ e ∈ s.N, e.key = e'.key ∧ e.lastUse = e'.lastUse) ∨
  (∃ r, c = .quota r ∧ r ∈ fl ∧ allocateQuotaSig cfg.H r = e'.key) ∨ Alive E cfg s.t s.N e'.key

theorem stateOf_nodes {b b' : Bool} {s s' : S D} (h : stateOf cfg b s = stateOf cfg b' s') : s.N = s'.N := by
  have := congrArg (fun st : State D => st.base.cache.map (·.nodes)) h
  simpa [stateOf, cacheOf] using this

section
variable (hm : Mono E.clk) (hf : 0 < E.extraFuel) (hpos : 0 < cfg.numEntries)
include hm hf hpos

theorem step_age {inAll b : Bool} {s s2 : S D} (h : SInv E cfg.numEntries s) (hout : s.out = []) {c : Call D}
    (hs : step E cfg (d + 1) c (stateOf cfg inAll s) = .ok (stateOf cfg b s2, out, fl)) :
    ∀ e' ∈ s2.N, Comes E cfg s c fl e' := by
  have hinv := (removeExpired_eq hm hf cfg inAll d s h).2
  have ht1 := (expireAll_bg E cfg inAll s h.keys hout).1
  have old : ∀ e ∈ (expireAll E cfg inAll s).N, Comes E cfg s c fl e := by
    intro e he
    rcases expireAll_age E cfg inAll s e he with h1 | h1
    · exact .inl ⟨e, h1, rfl, rfl⟩
    · exact .inr (.inr h1)
  have alive : ∀ k, Alive E cfg (expireAll E cfg inAll s).t (expireAll E cfg inAll s).N k → Alive E cfg s.t s.N k := by
    rintro k ⟨e, he, rfl, j, h1, h2⟩
    rcases expireAll_age E cfg inAll s e he with h3 | h3
    · exact ⟨e, h3, rfl, j, by omega, h2⟩
    · exact h3
  have hhit := fun k e (hfk : findKey k (expireAll E cfg inAll s).N = some e) => find_split hfk
  -- a change of the value leaves key and time
  have mid : ∀ (A B : List (QElem D)) (e : QElem D) (v : Elem D), (expireAll E cfg inAll s).N = A ++ e :: B →
      ∀ e' ∈ A ++ { e with val := v } :: B, Comes E cfg s c fl e' := by
    intro A B e v hN e' he'
    rcases List.mem_append.mp he' with h1 | h1
    · exact old e' (by rw [hN]; simp [h1])
    · rcases List.mem_cons.mp h1 with rfl | h1
      · exact old e (by rw [hN]; simp)
      · exact old e' (by rw [hN]; simp [h1])
  cases c with
  | quota r =>
    simp only [step] at hs
    by_cases hv : Valid cfg r
    · have hroom := quota_miss_room hm hf cfg inAll d s h hout r hv
      have hfull := quota_miss_full hm hf cfg inAll d s h hout r hv
      have hq := quota_hit hm hf cfg inAll d s h hout r hv
      generalize expireAll E cfg inAll s = s0 at *
      cases hfk : findKey (allocateQuotaSig cfg.H r) s0.N with
      | none =>
        have hno := findKey_none.mp hfk
        by_cases hr : (s0.N.length : Int) < cfg.numEntries
        · rw [hroom hno hr] at hs
          simp only [done, Except.ok.injEq, Prod.mk.injEq] at hs
          obtain ⟨hst, _, hfl⟩ := hs
          rw [← stateOf_nodes hst]
          intro e' he'
          rcases List.mem_cons.mp he' with rfl | he'
          · exact .inr (.inl ⟨r, rfl, by rw [← hfl]; simp, rfl⟩)
          · exact old e' he'
        · have hr' : (s0.N.length : Int) = cfg.numEntries := by have := hinv.len; omega
          obtain ⟨f1, f2, _⟩ := hfull hno hpos hr'
          cases hev : evict E cfg inAll s0.N.reverse (s0.nid + 1) (s0.t + 2) with
          | none =>
            obtain ⟨err, herr⟩ := f2 hev
            rw [herr] at hs; cases hs
          | some x =>
            obtain ⟨F, R', nid', t', o⟩ := x
            obtain ⟨g1, g2⟩ := f1 _ _ _ _ _ hev
            obtain ⟨a1, a2⟩ := evict_age E cfg inAll _ _ _ _ _ _ _ _ hev
            by_cases hd : F.length < d + 1
            · rw [g1 hd] at hs
              simp only [done, Except.ok.injEq, Prod.mk.injEq] at hs
              obtain ⟨hst, _, hfl⟩ := hs
              rw [← stateOf_nodes hst]
              intro e' he'
              simp only [List.mem_append, List.mem_cons, List.mem_reverse] at he'
              rcases he' with he' | rfl | he'
              · exact .inr (.inr (alive _ ((a1 e' he').mono (by omega) (by simp))))
              · exact .inr (.inl ⟨r, rfl, by rw [← hfl]; simp, rfl⟩)
              · exact old e' (by simpa using a2 e' he')
            · rw [g2 (by omega)] at hs; cases hs
      | some e =>
        obtain ⟨A, B, hN, hk, hA⟩ := hhit _ e hfk
        rw [hq A B e hN hk] at hs
        cases hrf : refresh E cfg e.val s0.t with
        | mk v1 x =>
          obtain ⟨t2, qs⟩ := x
          rw [hrf] at hs
          simp only at hs
          cases hag : (if v1.positive then v1.aggregate E r else .ok v1) with
          | error err => rw [hag] at hs; cases hs
          | ok v2 =>
            rw [hag] at hs
            simp only [Except.map, done, Except.ok.injEq, Prod.mk.injEq] at hs
            rw [← stateOf_nodes hs.1]
            exact mid A B e v2 hN
    · have : quota E cfg (d + 1) r (stateOf cfg inAll s) = .ok (stateOf cfg inAll s, ⟨.invalidArgument, none⟩, []) := by
        unfold quota
        split
        · rfl
        · rename_i h1
          split
          · rfl
          · rename_i h2; exact absurd ⟨by simpa using h1, h2⟩ hv
      rw [this] at hs
      simp only [Except.ok.injEq, Prod.mk.injEq] at hs
      rw [← stateOf_nodes hs.1]
      exact fun e he => .inl ⟨e, he, rfl, rfl⟩
  | cacheResponse r resp =>
    simp only [step] at hs
    cases hfk : findKey (allocateQuotaSig cfg.H r) (expireAll E cfg inAll s).N with
    | none =>
      rw [cacheResponse_miss hm hf cfg inAll d s h hout r resp (findKey_none.mp hfk)] at hs
      simp only [done, Except.ok.injEq, Prod.mk.injEq] at hs
      rw [← stateOf_nodes hs.1]
      exact old
    | some e =>
      obtain ⟨A, B, hN, hk, hA⟩ := hhit _ e hfk
      rw [cacheResponse_hit hm hf cfg inAll d s h hout r resp A B e hN hk] at hs
      simp only [done, Except.ok.injEq, Prod.mk.injEq] at hs
      rw [← stateOf_nodes hs.1]
      exact mid A B e _ hN
  | flush =>
    simp only [step] at hs
    rw [flush_eq hm hf cfg inAll d s h hout] at hs
    simp only [done, Except.ok.injEq, Prod.mk.injEq] at hs
    rw [← stateOf_nodes hs.1]
    exact old
  | flushAll =>
    simp only [step] at hs
    rw [flushAll_eq cfg inAll d s h hout] at hs
    simp only [done, Except.ok.injEq, Prod.mk.injEq] at hs
    rw [← stateOf_nodes hs.1]
    exact fun e he => by cases he

/-- C127: if at some moment (after the calls `h1`) the expiration interval had passed since the last request of a signature was
sent, and from then on no `Quota` call of the signature sends one - in particular if there is none -, then nothing at all is sent
for it, and a `Flush` later than the flush interval after that moment leaves no entry of the signature. -/
theorem C127_expires (r : Reach E cfg (ev :: h) s') (hcall : ev.call = .flush) (hsuf : h1 <:+ h) (hfl : 0 ≤ cfg.flushMs)
    {ev0 : Event D} (hlast : lastSent cfg.H k h1 = some ev0)
    (hexp : ∀ e ∈ h1.head?, ∀ i, ev0.reads i → 1000 * cfg.expirationMs ≤ E.clk e.last - E.clk i)
    (hquiet : ∀ e t r, e :: t <:+ h → h1 <:+ t → e.call = .quota r → allocateQuotaSig cfg.H r = k → sent cfg.H k e = [])
    (hold : ∀ e ∈ h1.head?, ∀ i, i < e.last → E.clk i + cfg.cyc cfg.flushMs.toNat < E.clk ev.first)
    (hnc : NoCollision cfg.H (ev :: h)) :
    ident k (ev :: h) = none ∧ ∀ e t, e :: t <:+ ev :: h → h1 <:+ t → sent cfg.H k e = [] := by
  obtain ⟨s1, r1, l⟩ := r.split (hsuf.trans (List.suffix_cons _ _))
  have hlim : limitOf cfg = cfg.cyc cfg.flushMs.toNat := by
    have : ¬ cfg.flushMs < 0 := by omega
    simp [limitOf, AggConfig.timeout, this]
  have hl0 : 0 ≤ limitOf cfg := by rw [hlim]; omega
  have hexp' : ∀ i, ev0.reads i → 1000 * cfg.expirationMs ≤ E.clk s1.base.tick - E.clk i := by
    cases h1 with
    | nil => cases hlast
    | cons e t => rw [r1.tick]; exact hexp e rfl
  have hold' : ∀ i, i < s1.base.tick → E.clk i + cfg.cyc cfg.flushMs.toNat < E.clk ev.first := by
    cases h1 with
    | nil => cases hlast
    | cons e t => rw [r1.tick]; exact hold e rfl
  -- an entry of the signature has expired
  have dead : ∀ {h : Hist D} {s0 : S D} {b : Bool}, RInv E cfg h s0 b → NoCollision cfg.H h → lastSent cfg.H k h = some ev0 →
      s1.base.tick ≤ s0.t → ¬ Alive E cfg s0.t s0.N k := by
    rintro h s0 b hi hnc hls ht ⟨e, he, hk, j, hj, hd⟩
    obtain ⟨ev', i, g1, g2, g3⟩ := (hi.full hnc k).last _ _ ((view_some hi.inv.keys).mpr ⟨e, he, hk, rfl, rfl⟩)
    rw [hls] at g1
    cases g1
    have h1 := hexp' i g2
    have h2 := hm.le (Nat.le_trans ht hj)
    unfold shouldDrop at hd
    rw [expiration_eq, g3] at hd
    simp only [decide_eq_false_iff_not] at hd
    omega
  -- so nothing is sent for it
  have silent : ∀ {h : Hist D} {s0 : S D} {b : Bool} {d : Nat} {c : Call D} {st' : State D} {out : Out} {fl : List (QReq D)},
      RInv E cfg h s0 b → NoCollision cfg.H h → lastSent cfg.H k h = some ev0 → s1.base.tick ≤ s0.t →
      step E cfg (d + 1) c (stateOf cfg b s0) = .ok (st', out, fl) →
      (∀ r, c = .quota r → allocateQuotaSig cfg.H r = k → sent cfg.H k (evOf c (stateOf cfg b s0) (st', out, fl)) = []) →
      sent cfg.H k (evOf c (stateOf cfg b s0) (st', out, fl)) = [] := by
    intro h s0 b d c st' out fl hi hnc hls ht hs hq
    obtain ⟨s2, b2, o, rfl, h3, _, h6, _, _, _, hse⟩ := hi.step_ripe hm hf hpos hs
    have ho : ∀ k, ∀ q ∈ outAt k o, allocateQuotaSig cfg.H q = k := fun k => (h6.at k).outSig hnc (hi.base k)
    by_contra hne
    obtain ⟨q, hx⟩ := List.exists_mem_of_ne_nil _ hne
    rw [sent_outAt (ev := evOf c (stateOf cfg b s0) (stateOf cfg b2 s2, out, fl)) h3 ho k] at hx
    obtain ⟨⟨k', q'⟩, hm1, _⟩ := List.mem_map.mp hx
    obtain ⟨hm2, hm3⟩ := List.mem_filter.mp hm1
    have hk : k' = k := by simpa using hm3
    subst hk
    rcases hse _ hm2 with ⟨r, g1, g2⟩ | g
    · exact hne (hq r g1 g2)
    · exact dead hi hnc hls ht g
  have key : ∀ {h : Hist D} {s : State D}, Later E cfg h1 s1 h s → NoCollision cfg.H h →
      (∀ e t r, e :: t <:+ h → h1 <:+ t → e.call = .quota r → allocateQuotaSig cfg.H r = k → sent cfg.H k e = []) →
      (∀ e t, e :: t <:+ h → h1 <:+ t → sent cfg.H k e = []) ∧
      ∃ s0 b, s = stateOf cfg b s0 ∧ RInv E cfg h s0 b ∧ s1.base.tick ≤ s0.t ∧ lastSent cfg.H k h = some ev0 ∧
        ∀ e ∈ s0.N, e.key = k → ∃ i, i < s1.base.tick ∧ e.lastUse = E.clk i := by
    intro h s l hnc hq
    induction l with
    | refl =>
      obtain ⟨s0, b, rfl, hi⟩ := r1.inv hm hf hpos
      refine ⟨fun e t he hs => ?_, s0, b, rfl, hi, Nat.le_refl _, hlast, fun e he _ => hi.inv.read e he⟩
      have := he.length_le
      have := hs.length_le
      simp only [List.length_cons] at *
      omega
    | @call h s d c s' out fl l' hs ih =>
      obtain ⟨hall, s0, b, rfl, hi, ht, hls, ho⟩ := ih hnc.tail (fun e t r he => hq e t r (he.trans (List.suffix_cons _ _)))
      have hqs := silent hi hnc.tail hls ht hs (fun r => hq _ _ r (List.suffix_refl _) l'.suffix)
      obtain ⟨s2, b2, o, rfl, h2, h3, h4, hr2, _⟩ := hi.step_ripe hm hf hpos hs
      refine ⟨fun e t he hs => ?_, s2, b2, rfl, hr2, by omega, by rw [lastSent_keep hqs]; exact hls, fun e he hk => ?_⟩
      · rcases List.suffix_cons_iff.mp he with he | he
        · cases he; exact hqs
        · exact hall e t he hs
      rcases step_age hm hf hpos hi.inv hi.out hs e he with ⟨e1, g1, g2, g3⟩ | ⟨r, _, g2, g3⟩ | g
      · obtain ⟨i, hi1, hi2⟩ := ho e1 g1 (g2.trans hk)
        exact ⟨i, hi1, g3.symm.trans hi2⟩
      · exfalso
        have : r ∈ sent cfg.H k (⟨c, out, fl, (stateOf cfg b s0).base.tick, (stateOf cfg b2 s2).base.tick,
            entriesOf (stateOf cfg b2 s2)⟩ : Event D) := by
          unfold sent
          exact List.mem_filter.mpr ⟨g2, by simp [g3, hk]⟩
        rw [hqs] at this
        cases this
      · rw [hk] at g
        exact absurd g (dead hi hnc.tail hls ht)
  cases l with
  | refl =>
    obtain ⟨t, ht⟩ := hsuf
    have := congrArg List.length ht
    simp at this
    omega
  | call l hs =>
    simp only at hcall
    subst hcall
    obtain ⟨hall, s0, b, rfl, hi, ht, hls, ho⟩ := key l hnc.tail hquiet
    have hqs := silent hi hnc.tail hls ht hs (fun r hc => by cases hc)
    refine ⟨?_, fun e t he hs => ?_⟩
    rotate_right
    · rcases List.suffix_cons_iff.mp he with he | he
      · cases he; exact hqs
      · exact hall e t he hs
    obtain ⟨s2, b2, o, rfl, h2, h3, h4, hr2, _, hy, _⟩ := hi.step_ripe hm hf hpos hs
    rw [hr2.id k]
    suffices view s2.N k = none by rw [this]; rfl
    refine view_none.mpr fun e he hk => ?_
    rcases step_age hm hf hpos hi.inv hi.out hs e he with ⟨e1, g1, g2, g3⟩ | ⟨r, g1, _⟩ | g
    · obtain ⟨i, hi1, hi2⟩ := ho e1 g1 (g2.trans hk)
      have h1 := hy rfl hl0 e he
      have h2 : E.clk i + cfg.cyc cfg.flushMs.toNat < E.clk s0.t := hold' i hi1
      rw [← g3, hi2, hlim] at h1
      omega
    · cases g1
    · rw [hk] at g
      exact dead hi hnc.tail hls ht g

/-- C127: the next `Quota` of the signature after that asks the server. -/
theorem C127_asks_again (r : Reach E cfg h s) (hn : ident k h = none) {q : QReq D} (hv : Valid cfg q)
    (hk : allocateQuotaSig cfg.H q = k) (hs : step E cfg (d + 1) (.quota q) s = .ok (s', out, fl)) :
    q ∈ fl ∧ out.response = some .default := by
  obtain ⟨s0, b, rfl, hi⟩ := r.inv hm hf hpos
  obtain ⟨s2, b2, o, rfl, rfl, _, h6, _⟩ := hi.step hm hf hpos hs
  have hx : view s0.N k = none := by
    have := hi.id k
    rw [hn] at this
    cases hx : view s0.N k with
    | none => rfl
    | some y => rw [hx] at this; cases this
  subst hk
  generalize view s2.N = M2 at h6
  cases h6 with
  | invalid hb => exact absurd hv hb
  | miss => exact ⟨by simp, rfl⟩
  | hit _ hb hm1 => rw [hb.sub _ hx] at hm1; cases hm1

end

/-- A clock that jumps by 10 ms at its eighth reading. -/
def exLate : Env := { exJump with clk := fun i => 2 * exJump.clk i }

/-- The hypotheses occur: an entry holds 7 tokens when the expiration interval has passed since its request was sent, which is
longer than the flush interval. -/
example : ∃ (ev ev0 : Event Int) (h : Hist Int) (s : State Int), Reach exLate exCfg (ev :: h) s ∧ NoCollision exCfg.H (ev :: h) ∧
    ev.call = .flush ∧ lastSent exCfg.H (exSig 1) h = some ev0 ∧ ident (exSig 1) h ≠ none ∧
    (∀ e ∈ h.head?, ∀ i, ev0.reads i → 1000 * exCfg.expirationMs ≤ exLate.clk e.last - exLate.clk i) ∧
    (∀ e ∈ h.head?, ∀ i, i < e.last → exLate.clk i + exCfg.cyc exCfg.flushMs.toNat < exLate.clk ev.first) := by
  obtain ⟨h, s, h1, hr, h2, h3⟩ := run_case (E := exLate) (cfg := exCfg) 2
    [.quota (exQ 1 5), .cacheResponse (exQ 1 5) (exYes 1), .quota (exQ 1 7), .flush]
    (fun h s => SeenApart exCfg.H h ∧ (match h with
      | ev :: h => decide ((match ev.call with | .flush => true | _ => false) = true ∧
          (lastSent exCfg.H (exSig 1) h).map (·.last) = some 4 ∧ ident (exSig 1) h ≠ none ∧
          (h.head?.map (·.last)) = some 7 ∧ ev.first = 7)
      | [] => false) = true) (by decide +kernel)
  clear h1
  cases h with
  | nil => cases h3
  | cons ev h =>
    simp only [decide_eq_true_eq] at h3
    obtain ⟨g1, g2, g3, g4, g5⟩ := h3
    cases hl : lastSent exCfg.H (exSig 1) h with
    | none => rw [hl] at g2; cases g2
    | some ev0 =>
      rw [hl] at g2
      simp only [Option.map_some, Option.some.injEq] at g2
      refine ⟨ev, ev0, h, s, hr, noCollision_of _ _ h2, ?_, hl, g3, ?_, ?_⟩
      · clear * - g1
        cases hc : ev.call with
        | flush => rfl
        | _ => simp [hc] at g1
      all_goals
        clear * - g2 g4 g5
        intro e he i hi
        simp only [Option.mem_def] at he
        rw [he] at g4
        simp only [Option.map_some, Option.some.injEq] at g4
        have e2 : exLate.clk 7 = 10000 := rfl
      · have e1 : exLate.clk i = 0 := by
          have := hi.2
          simp only [exLate, exJump]
          rw [if_pos (by omega)]
          rfl
        rw [g4, e1, e2]
        decide
      · have e1 : exLate.clk i = 0 := by
          simp only [exLate, exJump]
          rw [if_pos (by omega)]
          rfl
        have e3 : exCfg.cyc exCfg.flushMs.toNat = 3000 := rfl
        rw [g5, e1, e2, e3]
        decide

end Verif.Quota
