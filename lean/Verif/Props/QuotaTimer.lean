import Verif.Props.QuotaTokens
/-
C86: what `Flush` does to quota operations that have waited for longer than the flush interval.
-/
set_option linter.unusedSectionVars false

namespace Verif.Quota
open Lru

variable {D : Type} {E : Env} {cfg : AggConfig} {h h1 : Hist D} {s s1 s' : State D} {d : Nat} {out : Out}
  {fl : List (AllocateQuotaRequest D)} {k : Bytes} {ev : Event D}

theorem Later.reach (r : Reach E cfg h1 s1) (l : Later E cfg h1 s1 h s) : Reach E cfg h s := by
  induction l with
  | refl => exact r
  | call _ hs ih => exact ih.call hs

theorem Later.suffix (l : Later E cfg h1 s1 h s) : h1 <:+ h := by
  induction l with
  | refl => exact List.suffix_refl _
  | call _ hs ih => exact ih.trans (List.suffix_cons _ _)

theorem requests_suffix (hs : h1 <:+ h) : ∀ r ∈ requests h1, r ∈ requests h := by
  obtain ⟨t, rfl⟩ := hs
  induction t with
  | nil => exact fun _ h => h
  | cons ev t ih => exact fun r hr => requests_mono r (ih r hr)

theorem NoCollision.suffix (hn : NoCollision cfg.H h) (hs : h1 <:+ h) : NoCollision cfg.H h1 :=
  fun r hr r' hr' => hn r (requests_suffix hs r hr) r' (requests_suffix hs r' hr')

theorem Reach.split (r : Reach E cfg h s) (hs : h1 <:+ h) : ∃ s1, Reach E cfg h1 s1 ∧ Later E cfg h1 s1 h s := by
  induction r with
  | init h0 =>
    obtain ⟨t, ht⟩ := hs
    obtain ⟨_, rfl⟩ := List.append_eq_nil_iff.mp ht
    exact ⟨_, .init h0, .refl⟩
  | @call h s d c s' out fl r hst ih =>
    rcases List.suffix_cons_iff.mp hs with rfl | hs
    · exact ⟨_, r.call hst, .refl⟩
    · obtain ⟨s1, g1, g2⟩ := ih hs
      exact ⟨s1, g1, g2.call hst⟩

theorem Reach.tick (r : Reach E cfg (ev :: h) s) : s.base.tick = ev.last := by
  cases r; rfl

theorem absorbed_suffix (hs : h1 <:+ h) : absorbed cfg k h1 <+: absorbed cfg k h := by
  obtain ⟨t, rfl⟩ := hs
  induction t with
  | nil => exact List.prefix_refl _
  | cons ev t ih =>
    refine ih.trans ?_
    rw [List.cons_append]
    conv => rhs; unfold absorbed
    exact List.prefix_append _ _

/-- After something was sent or lost, only operations added since are pending. -/
theorem Settled.pending (hd : Settled cfg.H k h1 h) : ∃ mid, absorbed cfg k h = absorbed cfg k h1 ++ mid ++ pending cfg k h := by
  obtain ⟨ev, before, ⟨t, rfl⟩, hs, he⟩ := hd
  have base : ∃ mid, absorbed cfg k (ev :: before) = absorbed cfg k h1 ++ mid ++ pending cfg k (ev :: before) := by
    obtain ⟨m, hm⟩ := absorbed_suffix (cfg := cfg) (k := k) hs
    have : pending cfg k (ev :: before) = [] ∨ pending cfg k (ev :: before) = absorbedBy cfg k ev before := by
      unfold Quota.pending
      split
      · exact .inl rfl
      · rename_i hn
        rw [if_pos]
        · exact .inr rfl
        rcases he with he | ⟨r, resp, h1, h2, h3⟩ | ⟨h2, h3⟩
        · exact he
        · exfalso
          refine hn (.inr (.inr ?_))
          unfold refuses
          rw [h1]
          simp [h2, h3]
        · exfalso
          by_cases hx : ident k (ev :: before) = none
          · exact hn (.inl hx)
          · exact hn (.inr (.inl ⟨hx, h3⟩))
    rcases this with h1 | h1
    · refine ⟨m ++ absorbedBy cfg k ev before, ?_⟩
      rw [h1, List.append_nil, ← List.append_assoc, hm]
      rfl
    · refine ⟨m, ?_⟩
      rw [h1, hm]
      rfl
  induction t with
  | nil => exact base
  | cons e t ih =>
    obtain ⟨mid, hmid⟩ := ih
    have hab : absorbed cfg k (e :: (t ++ ev :: before)) = absorbed cfg k (t ++ ev :: before) ++ absorbedBy cfg k e (t ++ ev :: before) := rfl
    rw [List.cons_append, hab, hmid]
    conv in Quota.pending cfg k (e :: _) => unfold Quota.pending
    split
    · exact ⟨mid ++ Quota.pending cfg k (t ++ ev :: before) ++ absorbedBy cfg k e (t ++ ev :: before), by simp⟩
    · split
      · exact ⟨mid ++ Quota.pending cfg k (t ++ ev :: before), by simp⟩
      · exact ⟨mid, by simp⟩

theorem held_eq (cfg : AggConfig) (b : Bool) (s0 : S D) (k : Bytes) :
    heldOf cfg k (stateOf cfg b s0) = (aggAt (view s0.N k)).map (fun a => a.toProto cfg.U) := by
  simp only [heldOf, stateOf, cacheOf, view, findKey]
  cases List.find? (fun e => e.key == k) s0.N with
  | none => rfl
  | some e => rfl

section
variable (hm : Mono E.clk) (hf : 0 < E.extraFuel) (hpos : 0 < cfg.numEntries)
include hm hf hpos

/-- An entry that holds something keeps it until it is sent or lost. -/
theorem ripe_step {s0 : S D} {b : Bool} {c : Call D} (hi : RInv E cfg h s0 b)
    (hs : Quota.step E cfg (d + 1) c (stateOf cfg b s0) = .ok (s', out, fl)) {e : QElem D} (he : e ∈ s0.N) (hr : Ripe e) :
    ∃ s2 b2, s' = stateOf cfg b2 s2 ∧
      let ev : Event D := ⟨c, out, fl, (stateOf cfg b s0).base.tick, s'.base.tick, entriesOf s'⟩
      RInv E cfg (ev :: h) s2 b2 ∧
      (c = .flush → 0 ≤ limitOf cfg → ∀ e ∈ s2.N, E.clk s0.t - limitOf cfg ≤ e.lastUse) ∧
      (NoCollision cfg.H (ev :: h) →
        (∃ e' ∈ s2.N, e'.key = e.key ∧ e'.lastUse = e.lastUse ∧ Ripe e') ∨ sent cfg.H e.key ev ≠ [] ∨ Loses cfg.H e.key ev h) := by
  obtain ⟨s2, b2, o, rfl, h3, _, h6, hr2, hk, hy, _⟩ := hi.step_ripe hm hf hpos hs
  refine ⟨s2, b2, rfl, hr2, hy, fun hnc => ?_⟩
  have ho : ∀ k, ∀ q ∈ outAt k o, allocateQuotaSig cfg.H q = k := fun k => (h6.at k).outSig hnc.tail (hi.base k)
  have hse := sent_outAt (ev := evOf c (stateOf cfg b s0) (stateOf cfg b2 s2, out, fl)) h3 ho e.key
  rcases hk e he hr with (⟨e', h1, h2, _, h4, h5⟩ | ⟨q, hq⟩ | hx) | ⟨r, resp, rfl, h2, h3⟩
  · exact .inl ⟨e', h1, h2, h4, h5⟩
  · right; left
    have : q ∈ sent cfg.H e.key (evOf c (stateOf cfg b s0) (stateOf cfg b2 s2, out, fl)) := by
      rw [hse]
      unfold outAt
      exact List.mem_map.mpr ⟨_, List.mem_filter.mpr ⟨hq, by simp⟩, rfl⟩
    exact List.ne_nil_of_mem this
  · right; right; right
    have hid : ident e.key h = some e.ptr := by
      rw [hi.id]
      have : view s0.N e.key = some (e.ptr, e.val) := (view_some hi.inv.keys).mpr ⟨e, he, rfl, rfl, rfl⟩
      rw [this]; rfl
    refine ⟨by rw [hid]; simp, ?_⟩
    rw [hid, hr2.id]
    intro hv
    cases hv' : view s2.N e.key with
    | none => rw [hv'] at hv; cases hv
    | some y =>
      obtain ⟨p, v⟩ := y
      obtain ⟨e', h1, h2, h3, _⟩ := (view_some hr2.inv.keys).mp hv'
      rw [hv'] at hv
      simp only [Option.map_some, Option.some.injEq] at hv
      exact hx e' h1 h2 (h3.trans hv)
  · exact .inr (.inr (.inl ⟨r, resp, rfl, h2, h3⟩))

theorem settled_by_flush (r : Reach E cfg h1 s1) (l : Later E cfg h1 s1 h s) (hfl : 0 ≤ cfg.flushMs)
    (hheld : heldOf cfg k s1 ≠ none) (hwait : waiting cfg.H k h1 = 0)
    (hold : ∀ i, i < s1.base.tick → E.clk i + cfg.cyc cfg.flushMs.toNat < E.clk s.base.tick)
    (hs : step E cfg (d + 1) .flush s = .ok (s', out, fl))
    (hnc : NoCollision cfg.H h) :
    Settled cfg.H k h1 (⟨.flush, out, fl, s.base.tick, s'.base.tick, entriesOf s'⟩ :: h) := by
  have hlim : limitOf cfg = cfg.cyc cfg.flushMs.toNat := by
    have : ¬ cfg.flushMs < 0 := by omega
    simp [limitOf, AggConfig.timeout, this]
  have hl0 : 0 ≤ limitOf cfg := by rw [hlim]; omega
  have hnc' : NoCollision cfg.H (⟨.flush, out, fl, s.base.tick, s'.base.tick, entriesOf s'⟩ :: h : Hist D) := hnc
  -- every later moment
  have key : ∀ {h : Hist D} {s : State D}, Later E cfg h1 s1 h s → NoCollision cfg.H h →
      ∃ s0 b, s = stateOf cfg b s0 ∧ RInv E cfg h s0 b ∧
        (Settled cfg.H k h1 h ∨ ∃ e ∈ s0.N, e.key = k ∧ Ripe e ∧ ∃ i, i < s1.base.tick ∧ e.lastUse = E.clk i) := by
    intro h s l hnc
    induction l with
    | refl =>
      obtain ⟨s0, b, rfl, hi⟩ := r.inv hm hf hpos
      refine ⟨s0, b, rfl, hi, .inr ?_⟩
      rw [held_eq] at hheld
      cases hv : view s0.N k with
      | none => rw [hv] at hheld; exact absurd rfl hheld
      | some y =>
        obtain ⟨p, v⟩ := y
        have hw := (hi.full hnc k).wait p v hv
        rw [hwait] at hw
        obtain ⟨e, he, h2, h3, rfl⟩ := (view_some hi.inv.keys).mp hv
        refine ⟨e, he, h2, ⟨?_, ?_⟩, hi.inv.read e he⟩
        · cases hfl : e.val.inFlight with
          | false => rfl
          | true => rw [hfl] at hw; cases hw
        · rw [hv] at hheld
          cases ha : e.val.agg with
          | none => simp [aggAt, ha] at hheld
          | some a => rfl
    | @call h s d c s' out fl l' hs ih =>
      obtain ⟨s0, b, rfl, hi, hd⟩ := ih hnc.tail
      rcases hd with ⟨ev, bf, g1, g2⟩ | ⟨e, he, rfl, hr, i, hi1, hi2⟩
      · obtain ⟨s2, b2, o, rfl, _, _, _, hr2⟩ := hi.step hm hf hpos hs
        exact ⟨s2, b2, rfl, hr2, .inl ⟨ev, bf, g1.trans (List.suffix_cons _ _), g2⟩⟩
      · obtain ⟨s2, b2, rfl, hr2, _, hk⟩ := ripe_step hm hf hpos hi hs he hr
        refine ⟨s2, b2, rfl, hr2, ?_⟩
        rcases hk hnc with ⟨e', g1, g2, g3, g4⟩ | hk
        · exact .inr ⟨e', g1, g2, g4, i, hi1, g3.trans hi2⟩
        · exact .inl ⟨_, _, List.suffix_refl _, Later.suffix l', hk⟩
  obtain ⟨s0, b, rfl, hi, hd⟩ := key l hnc
  rcases hd with ⟨ev, bf, g1, g2⟩ | ⟨e, he, rfl, hr, i, hi1, hi2⟩
  · exact ⟨ev, bf, g1.trans (List.suffix_cons _ _), g2⟩
  · obtain ⟨s2, b2, rfl, hr2, hy, hk⟩ := ripe_step hm hf hpos hi hs he hr
    rcases hk hnc' with ⟨e', g1, g2, g3, g4⟩ | hk
    · exfalso
      have h1 := hy rfl hl0 e' g1
      have h2 := hold i hi1
      rw [g3, hi2, hlim] at h1
      have h2' : E.clk i + cfg.cyc cfg.flushMs.toNat < E.clk s0.t := h2
      omega
    · exact ⟨_, _, List.suffix_refl _, l.suffix, hk⟩

/-- C86: operations held for a signature that is waiting for no response are sent or lost at the latest by the first
`Flush` after the flush interval.  What is held after it was added later.  `h1` are the calls made so far at some moment,
`ev` the later `Flush` and `h'` all calls up to the present. -/
theorem C86_flush_sends {h' : Hist D} (r : Reach E cfg h' s') (hev : ev :: h <:+ h') (hcall : ev.call = .flush) (hsuf : h1 <:+ h)
    (hfl : 0 ≤ cfg.flushMs) (hpend : pending cfg k h1 ≠ []) (hwait : waiting cfg.H k h1 = 0)
    (hold : ∀ e ∈ h1.head?, ∀ i, i < e.last → E.clk i + cfg.cyc cfg.flushMs.toNat < E.clk ev.first)
    (hnc : NoCollision cfg.H h') :
    Settled cfg.H k h1 h' ∧
    ∃ mid pend, absorbed cfg k h' = absorbed cfg k h1 ++ mid ++ pend ∧
      match heldOf cfg k s' with
      | none => pend = []
      | some o => Sum E cfg pend o := by
  have hset : Settled cfg.H k h1 h' := by
    obtain ⟨s2, r2, _⟩ := r.split hev
    have hnc2 := hnc.suffix hev
    obtain ⟨s1, r1, l⟩ := r2.split (hsuf.trans (List.suffix_cons _ _))
    have hheld : heldOf cfg k s1 ≠ none := by
      obtain ⟨s0, b, rfl, _, ht⟩ := r1.tok hm hf hpos
      have hh := (ht (hnc2.suffix (hsuf.trans (List.suffix_cons _ _))) k).holds
      rw [held_eq]
      cases hx : aggAt (view s0.N k) with
      | none => rw [hx] at hh; exact absurd hh hpend
      | some a => simp
    have htick : ∀ i, i < s1.base.tick → E.clk i + cfg.cyc cfg.flushMs.toNat < E.clk ev.first := by
      cases h1 with
      | nil => exact absurd rfl hpend
      | cons e t => rw [r1.tick]; exact hold e rfl
    have : Settled cfg.H k h1 (ev :: h) := by
      cases l with
      | refl =>
        obtain ⟨t, ht⟩ := hsuf
        have := congrArg List.length ht
        simp at this
        omega
      | call l hs =>
        simp only at hcall
        subst hcall
        exact settled_by_flush hm hf hpos r1 l hfl hheld hwait htick hs hnc2
    obtain ⟨e, bf, g1, g2⟩ := this
    exact ⟨e, bf, g1.trans hev, g2⟩
  refine ⟨hset, ?_⟩
  obtain ⟨mid, hmid⟩ := hset.pending
  refine ⟨mid, _, hmid, ?_⟩
  obtain ⟨s0, b, rfl, _, ht⟩ := r.tok hm hf hpos
  have hh := (ht hnc k).holds
  rw [held_eq]
  cases hx : aggAt (view s0.N k) with
  | none => rw [hx] at hh; exact hh
  | some a => rw [hx] at hh; exact sum_of_aggOf hh

end

/-- A clock that jumps by 5 ms at its eighth reading. -/
def exJump : Env := ⟨fun i => if i < 7 then 0 else 5000, true, 1, .insertion⟩

theorem exJump_mono : Mono exJump.clk := by
  constructor
  · simp [exJump]
  · intro i; simp only [exJump]; split <;> split <;> omega

/-- The hypotheses occur: 7 tokens are held, no response is awaited, and a `Flush` comes later than the interval; it sends
them. -/
example : ∃ (ev : Event Int) (h : Hist Int) (s : State Int), Reach exJump exCfg (ev :: h) s ∧ NoCollision exCfg.H (ev :: h) ∧
    ev.call = .flush ∧ pending exCfg (exSig 1) h = [(exQ 1 7).op] ∧ waiting exCfg.H (exSig 1) h = 0 ∧
    (∀ e ∈ h.head?, ∀ i, i < e.last → exJump.clk i + exCfg.cyc exCfg.flushMs.toNat < exJump.clk ev.first) ∧
    (sent exCfg.H (exSig 1) ev).map tokens = [7] ∧ heldOf exCfg (exSig 1) s = none := by
  obtain ⟨h, s, h1, hr, h2, h3⟩ := run_case (E := exJump) (cfg := exCfg) 2
    [.quota (exQ 1 5), .cacheResponse (exQ 1 5) (exYes 1), .quota (exQ 1 7), .flush]
    (fun h s => SeenApart exCfg.H h ∧ (match h with
      | ev :: h => decide ((match ev.call with | .flush => true | _ => false) = true ∧ pending exCfg (exSig 1) h = [(exQ 1 7).op] ∧
          waiting exCfg.H (exSig 1) h = 0 ∧ (h.head?.map (·.last)) = some 7 ∧ ev.first = 7 ∧
          (sent exCfg.H (exSig 1) ev).map tokens = [7] ∧ heldOf exCfg (exSig 1) s = none)
      | [] => false) = true) (by decide +kernel)
  clear h1
  cases h with
  | nil => cases h3
  | cons ev h =>
    simp only [decide_eq_true_eq] at h3
    obtain ⟨g1, g2, g3, g4, g5, g6, g7⟩ := h3
    refine ⟨ev, h, s, hr, noCollision_of _ _ h2, ?_, g2, g3, ?_, g6, g7⟩
    · clear * - g1
      cases hc : ev.call with
      | flush => rfl
      | _ => simp [hc] at g1
    · clear * - g4 g5
      intro e he i hi
      simp only [Option.mem_def] at he
      rw [he] at g4
      simp only [Option.map_some, Option.some.injEq] at g4
      rw [g5]
      have e1 : exJump.clk i = 0 := if_pos (by omega)
      have e2 : exJump.clk 7 = 5000 := rfl
      have e3 : exCfg.cyc exCfg.flushMs.toNat = 3000 := rfl
      rw [e1, e2, e3]
      decide

/-- "Or lost" cannot be left out of C86: when the `Flush` comes after the expiration interval too, the tokens that were granted
are discarded. -/
theorem C46_false_late_flush : ∃ (h : Hist Int) (s : State Int),
    Reach { exJump with clk := fun i => 2 * exJump.clk i } exCfg h s ∧ absorbed exCfg (exSig 1) h = [(exQ 1 7).op] ∧
    (sentAll exCfg.H (exSig 1) h).map tokens = [5] ∧ entriesOf s = [] ∧ h.length = 4 := by
  obtain ⟨h, s, _, hr, h2⟩ := run_case (E := { exJump with clk := fun i => 2 * exJump.clk i }) (cfg := exCfg) 2
    [.quota (exQ 1 5), .cacheResponse (exQ 1 5) (exYes 1), .quota (exQ 1 7), .flush]
    (fun h s => absorbed exCfg (exSig 1) h = [(exQ 1 7).op] ∧ (sentAll exCfg.H (exSig 1) h).map tokens = [5] ∧ entriesOf s = [] ∧
      h.length = 4) (by decide +kernel)
  exact ⟨h, s, hr, h2⟩

end Verif.Quota
