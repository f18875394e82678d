import Verif.Props.ThreadQuotaTimer
import Verif.Props.ThreadServed
/-
How many allocation requests of one signature are with the server, for a client used by many threads.
-/
set_option linter.unusedSectionVars false
namespace Verif.Quota
open Lru
variable {D : Type} {E : Env} {cfg : AggConfig} {h h1 : Hist D} {s s' : State D} {k : Bytes} {d : Nat} {out : Out} {fl : List (AllocateQuotaRequest D)}

theorem step_flag {c : Call D} (h : step E cfg d c s = .ok (s', out, fl)) (hc : c ≠ .flushAll) : s'.inFlushAll = s.inFlushAll := by
  cases c <;> simp only [step, quota, cacheResponse, flush, flushAll, bind, Except.bind] at h
  · split at h
    · cases h; rfl
    · split at h
      · cases h; rfl
      · split at h
        · cases h
        · cases h; rfl
  · split at h
    · cases h
    · cases h; rfl
  · split at h
    · cases h
    · cases h; rfl
  · exact absurd rfl hc

section
variable (hm : Mono E.clk) (hf : 0 < E.extraFuel) (hpos : 0 < cfg.numEntries)
include hm hf hpos

theorem Reach.cleared (r : Reach E cfg h s) (hb : s.inFlushAll = false) : ¬ Cleared h := by
  obtain ⟨s0, inAll, rfl, hi⟩ := r.inv hm hf hpos
  intro hc
  have := hi.all.mpr hc
  have hb : inAll = false := hb
  rw [this] at hb; cases hb

/-- How an entry disappears: the last request sent for it is one of an earlier call, and nothing is sent for it, or else it was sent by this
call. -/
theorem destroyed_how (r : Reach E cfg h s) {c : Call D} (hs : step E cfg (d + 1) c s = .ok (s', out, fl))
    (hnc : NoCollision cfg.H (evOf c s (s', out, fl) :: h)) (k : Bytes) (hd : Destroyed k (evOf c s (s', out, fl)) h) :
    Cleared (evOf c s (s', out, fl) :: h) ∨
    ∃ i j, (evOf c s (s', out, fl)).reads j ∧ 1000 * cfg.expirationMs ≤ E.clk j - E.clk i ∧
      ((evOf c s (s', out, fl)).reads i ∨
        (∃ ev0, lastSent cfg.H k h = some ev0 ∧ ev0.reads i) ∧ (sent cfg.H k (evOf c s (s', out, fl)) = [] ∨ Created k (evOf c s (s', out, fl)) h)) := by
  obtain ⟨inAll, nid, x, x', hcl, f, f', hx, hx', hn, hk, _, hh⟩ := at_key hm hf hpos r hs hnc k
  have hcl' : inAll = true → Cleared (evOf c s (s', out, fl) :: h) := by
    intro hi
    obtain ⟨e, he, hc⟩ := hcl.mp hi
    exact ⟨e, List.mem_cons_of_mem _ he, hc⟩
  have hdrop : ∀ {v : Elem D} {i}, v.lastRefresh = E.clk i → DropOk E cfg inAll s.base.tick s'.base.tick v →
      Cleared (evOf c s (s', out, fl) :: h) ∨ ∃ j, (evOf c s (s', out, fl)).reads j ∧ 1000 * cfg.expirationMs ≤ E.clk j - E.clk i := by
    intro v i hv hd
    rcases hd with hd | ⟨j, h1, h2, h3⟩
    · exact .inl (hcl' hd)
    · refine .inr ⟨j, ⟨h1, h2⟩, ?_⟩
      unfold shouldDrop at h3
      rw [expiration_eq, hv] at h3
      simpa using h3
  have hbg : ∀ {o}, BgAt E cfg inAll s.base.tick s'.base.tick x o none →
      (o = [] → sent cfg.H k (evOf c s (s', out, fl)) = [] ∨ Created k (evOf c s (s', out, fl)) h) →
      Cleared (evOf c s (s', out, fl) :: h) ∨
      ∃ i j, (evOf c s (s', out, fl)).reads j ∧ 1000 * cfg.expirationMs ≤ E.clk j - E.clk i ∧
        ((evOf c s (s', out, fl)).reads i ∨
          (∃ ev0, lastSent cfg.H k h = some ev0 ∧ ev0.reads i) ∧ (sent cfg.H k (evOf c s (s', out, fl)) = [] ∨ Created k (evOf c s (s', out, fl)) h)) := by
    intro o hb ho
    cases hb with
    | same => exact absurd (by rw [hx]; rfl) hd.1
    | @drop p v hdr =>
      obtain ⟨ev0, i, h1, h2, h3⟩ := f.last p v rfl
      rcases hdrop h3 hdr with h4 | ⟨j, h4, h5⟩
      · exact .inl h4
      · exact .inr ⟨i, j, h4, h5, .inr ⟨⟨ev0, h1, h2⟩, ho rfl⟩⟩
    | @sendDrop p v a i h1 h2 h3 h4 h5 h6 =>
      rcases hdrop (v := v.sentAt E i) rfl h6 with h7 | ⟨j, h7, h8⟩
      · exact .inl h7
      · exact .inr ⟨i, j, h7, h8, .inl ⟨h2, h3⟩⟩
  generalize hse : sent cfg.H k (evOf c s (s', out, fl)) = o at hk
  rw [hse] at hbg
  cases hk with
  | bg hb =>
    cases x' with
    | none => exact hbg hb .inl
    | some y =>
      obtain ⟨p, v⟩ := y
      obtain ⟨v0, rfl, _⟩ := hb.some_cases
      exact absurd (hx'.trans hx.symm) hd.2
  | create hv hk hb =>
    refine hbg hb (fun _ => .inr ⟨?_, fun e => hd.2 e⟩)
    rw [hx']; exact Option.some_ne_none _
  | hit hv hk hb =>
    obtain ⟨v0, rfl, _⟩ := hb.some_cases
    exact absurd (hx'.trans hx.symm) hd.2
  | respond hk hb =>
    obtain ⟨v0, rfl, _⟩ := hb.some_cases
    exact absurd (hx'.trans hx.symm) hd.2
  | clear => exact .inl ⟨_, List.mem_cons_self, rfl⟩

/-- Within the expiration interval of a moment at which every request has its response, at most one has none. -/
theorem in_flight (h0 : (sentAll cfg.H k h1).length ≤ stored cfg.H k h1) : ∀ {new : Hist D} {s}, Reach E cfg (new ++ h1) s → NoCollision cfg.H (new ++ h1) →
    ¬ Cleared (new ++ h1) → (∀ ev ∈ new, ∀ ev' ∈ new, ∀ i j, ev.reads i → ev'.reads j → E.clk j - E.clk i < 1000 * cfg.expirationMs) →
    (sentAll cfg.H k (new ++ h1)).length ≤ stored cfg.H k (new ++ h1) + waiting cfg.H k (new ++ h1) ∧
      (stored cfg.H k (new ++ h1) < (sentAll cfg.H k (new ++ h1)).length → ∃ ev ∈ new, lastSent cfg.H k (new ++ h1) = some ev) := by
  intro new
  induction new with
  | nil => intro s r _ _ _; exact ⟨by simp only [List.nil_append]; omega, fun h => absurd h (by simp only [List.nil_append]; omega)⟩
  | cons ev t ih =>
    intro s r hnc hcl hwin
    cases r with
    | @call _ s2 d c _ out fl r hs =>
      replace r : Reach E cfg (t ++ h1) s2 := r
      obtain ⟨ih1, ih2⟩ := ih r hnc.tail (fun ⟨e, he, hc⟩ => hcl ⟨e, List.mem_cons_of_mem _ he, hc⟩)
        (fun e he e' he' => hwin e (List.mem_cons_of_mem _ he) e' (List.mem_cons_of_mem _ he'))
      change NoCollision cfg.H (evOf c s2 (s, out, fl) :: (t ++ h1)) at hnc
      change ¬ Cleared (evOf c s2 (s, out, fl) :: (t ++ h1)) at hcl
      obtain ⟨g1, g2, g3, g4⟩ := C45_one_in_flight hm hf hpos r hs hnc k
      have hw : ∀ i j, ((evOf c s2 (s, out, fl)).reads i ∨ ∃ e ∈ t, e.reads i) → (evOf c s2 (s, out, fl)).reads j → E.clk j - E.clk i < 1000 * cfg.expirationMs := by
        rintro i j (hi | ⟨e, he, hi⟩) hj
        · exact hwin _ List.mem_cons_self _ List.mem_cons_self i j hi hj
        · exact hwin _ (List.mem_cons_of_mem _ he) _ List.mem_cons_self i j hi hj
      have hdes := destroyed_how hm hf hpos r hs hnc k
      show (sentAll cfg.H k (evOf c s2 (s, out, fl) :: (t ++ h1))).length ≤ stored cfg.H k (evOf c s2 (s, out, fl) :: (t ++ h1)) + waiting cfg.H k (evOf c s2 (s, out, fl) :: (t ++ h1)) ∧
        (stored cfg.H k (evOf c s2 (s, out, fl) :: (t ++ h1)) < (sentAll cfg.H k (evOf c s2 (s, out, fl) :: (t ++ h1))).length →
          ∃ e ∈ evOf c s2 (s, out, fl) :: t, lastSent cfg.H k (evOf c s2 (s, out, fl) :: (t ++ h1)) = some e)
      generalize evOf c s2 (s, out, fl) = ev at *
      generalize t ++ h1 = hh at *
      have hsent : (sentAll cfg.H k (ev :: hh)).length = (sentAll cfg.H k hh).length + (sent cfg.H k ev).length := List.length_append
      have hst : stored cfg.H k (ev :: hh) = stored cfg.H k hh + if stores cfg.H k ev = true then 1 else 0 := List.countP_cons
      have hlast : sent cfg.H k ev ≠ [] → ∃ e ∈ ev :: t, lastSent cfg.H k (ev :: hh) = some e := fun hne =>
        ⟨ev, List.mem_cons_self, by
          unfold lastSent
          rw [List.find?_cons_of_pos]
          simpa using hne⟩
      have hkeep : sent cfg.H k ev = [] → lastSent cfg.H k (ev :: hh) = lastSent cfg.H k hh := fun hne => by
        unfold lastSent
        rw [List.find?_cons_of_neg]
        simp [hne]
      -- when the entry disappears nothing is without a response
      have hgone : Destroyed k ev hh → (sentAll cfg.H k hh).length ≤ stored cfg.H k hh ∧ (sent cfg.H k ev = [] ∨ Created k ev hh) := by
        intro hd
        rcases hdes hd with hx | ⟨i, j, hj, he, hx | ⟨⟨ev0, hx, hi⟩, hy⟩⟩
        · exact absurd hx hcl
        · have := hw i j (.inl hx) hj
          omega
        · refine ⟨?_, hy⟩
          by_contra hlt
          obtain ⟨e, he', hl⟩ := ih2 (by omega)
          rw [hx] at hl
          cases hl
          have := hw i j (.inr ⟨_, he', hi⟩) hj
          omega
      have hnone : ident k hh = none → waiting cfg.H k hh = 0 := by
        intro e
        cases hh with
        | nil => rfl
        | cons e' t' => exact waiting_gone cfg.H e
      by_cases hcr : Created k ev hh
      · have hn := g1 hcr
        have hle : (sentAll cfg.H k hh).length ≤ stored cfg.H k hh := by
          by_cases hid : ident k hh = none
          · have := hnone hid; omega
          · exact (hgone ⟨hid, hcr.2⟩).1
        have hwt : waiting cfg.H k (ev :: hh) = (sent cfg.H k ev).length := by
          simp only [waiting]
          rw [if_neg hcr.1, if_pos hcr]
        exact ⟨by omega, fun _ => hlast (by intro e; rw [e] at hn; cases hn)⟩
      · by_cases hid' : ident k (ev :: hh) = none
        · have hle : (sentAll cfg.H k hh).length ≤ stored cfg.H k hh ∧ sent cfg.H k ev = [] := by
            by_cases hid : ident k hh = none
            · have := hnone hid
              exact ⟨by omega, g2 hcr hid⟩
            · obtain ⟨h2, h3⟩ := hgone ⟨hid, by rw [hid']; exact fun e => hid e.symm⟩
              exact ⟨h2, h3.resolve_right hcr⟩
          rw [hle.2] at hsent
          simp only [List.length_nil] at hsent
          exact ⟨by omega, fun h => by omega⟩
        · have hn := g3 hcr
          have hcase : (stores cfg.H k ev = true ∧ waiting cfg.H k (ev :: hh) = 0) ∨
              (stores cfg.H k ev = false ∧ waiting cfg.H k (ev :: hh) = waiting cfg.H k hh + (sent cfg.H k ev).length) := by
            simp only [waiting]
            rw [if_neg hid', if_neg hcr]
            unfold stores
            cases ev.call with
            | cacheResponse r p =>
              by_cases hk : allocateQuotaSig cfg.H r = k
              · exact .inl ⟨by simpa using hk, by simp [hk]⟩
              · exact .inr ⟨by simpa using hk, by simp [hk]⟩
            | _ => exact .inr ⟨rfl, rfl⟩
          rcases hcase with ⟨h2, h3⟩ | ⟨h2, h3⟩
          · rw [h2, if_pos rfl] at hst
            exact ⟨by omega, fun h => by omega⟩
          · rw [h2] at hst
            simp only [Bool.false_eq_true, if_false, Nat.add_zero] at hst
            refine ⟨by omega, fun h => ?_⟩
            by_cases hne : sent cfg.H k ev = []
            · rw [hne] at hsent
              simp only [List.length_nil] at hsent
              obtain ⟨e, he, hl⟩ := ih2 (by omega)
              exact ⟨e, List.mem_cons_of_mem _ he, (hkeep hne).trans hl⟩
            · exact hlast hne

theorem waiting_one (r : Reach E cfg h s) (hnc : NoCollision cfg.H h) (k : Bytes) : waiting cfg.H k h ≤ 1 := by
  cases r with
  | init => exact Nat.zero_le _
  | call r hs => exact (C45_one_in_flight hm hf hpos r hs hnc k).2.2.2

/-- The clock readings of later calls are later. -/
theorem first_le (r1 : Reach E cfg h1 s) : ∀ {new : Hist D} {s'}, Reach E cfg (new ++ h1) s' → ∀ ev ∈ new, s.base.tick ≤ ev.first := by
  intro new
  induction new with
  | nil => intro s' _ ev h; cases h
  | cons e t ih =>
    intro s' r ev hev
    cases r with
    | @call _ s2 d c _ out fl r hs =>
      rcases List.mem_cons.mp hev with rfl | hev
      · exact tick_mono hm hf hpos r1 r
      · exact ih r ev hev

end
end Verif.Quota

namespace Verif.Threads
open Client Lru
variable {D : Type} [DoubleOps D] {K : Setup} {stops : Bool} {s s1 s2 s3 s' : Sys D} {k : Bytes}

/-- Only the destructor calls `FlushAll`. -/
theorem exec_flag {a : Act D} {new : List (Act D)} (h : exec K stops a s = some (.ok (s', new))) :
    s'.c.quota.inFlushAll = s.c.quota.inFlushAll ∨ a = .destroy 1 := by
  have hC : ∀ {x s' out fl}, aggC K x s = .ok (s', out, fl) → s'.c.quota.inFlushAll = s.c.quota.inFlushAll := by
    intro x s' out fl h
    obtain ⟨_, _, rfl, _⟩ := aggC_ok h; rfl
  have hQ : ∀ {x s' out fl}, aggQ K x s = .ok (s', out, fl) → x ≠ .flushAll → s'.c.quota.inFlushAll = s.c.quota.inFlushAll := by
    intro x s' out fl h hx
    obtain ⟨_, _, rfl, _, h1⟩ := aggQ_ok h; exact Quota.step_flag h1 hx
  have hR : ∀ {x s' out fl}, aggR K x s = .ok (s', out, fl) → s'.c.quota.inFlushAll = s.c.quota.inFlushAll := by
    intro x s' out fl h
    obtain ⟨_, _, rfl, _⟩ := aggR_ok h; rfl
  have hfree : ∀ (own : List Nat) (c c' : Client D), c.freeAll own = .ok c' → c'.quota = c.quota := by
    intro own
    induction own with
    | nil => intro c c' h; cases h; rfl
    | cons p own ih =>
      intro c c' h
      simp only [Client.freeAll, List.foldlM_cons, bind, Except.bind] at h
      cases h1 : c.free p with
      | error e => rw [h1] at h; cases h
      | ok c1 =>
        rw [h1] at h
        have h2 := ih c1 c' h
        rw [h2]
        unfold Client.free at h1
        split at h1
        · cases h1; rfl
        · cases h1
  cases a with
  | user => simp only [exec] at h; cases h; exact .inl rfl
  | start i c t =>
    simp only [exec, this, Option.some.injEq] at h
    split at h
    · cases h
    · cases h; exact .inl rfl
  | agg i c =>
    simp only [exec, this, Option.some.injEq] at h
    split at h
    · cases h
    · cases c <;> simp only [runCall, bind, Except.bind] at h <;> split at h <;> first | (cases h; done) | skip
      all_goals
        rename_i hv
        cases h
        first | exact .inl (hC hv) | exact .inl (hQ hv (by simp)) | exact .inl (hR hv)
  | result i c st reply =>
    simp only [exec, this, Option.some.injEq] at h
    split at h
    · cases h
    · split at h
      · simp only [Except.ok.injEq, Prod.mk.injEq] at h
        obtain ⟨rfl, rfl⟩ := h
        left
        show (allocCall c s.c).2.quota.inFlushAll = _
        rw [(allocCall_ok c s.c).eq]
      · cases h; exact .inl rfl
  | count i' c' xs =>
    cases xs with
    | nil => simp only [exec] at h; cases h; exact .inl rfl
    | cons x xs =>
      simp only [exec, this, Option.some.injEq] at h
      split at h
      · cases h
      · cases h; exact .inl rfl
  | finish i c st reply via =>
    simp only [exec] at h
    split at h
    · split at h <;> cases h
      exact .inl rfl
    · cases h; exact .inl rfl
  | setValue i st => simp only [exec] at h; cases h; exact .inl rfl
  | wait i =>
    simp only [exec] at h
    split at h
    · cases h
    · cases h; exact .inl rfl
  | fin p a =>
    simp only [exec, Option.some.injEq] at h
    unfold runFin at h
    simp only [bind, Except.bind] at h
    repeat' split at h
    all_goals first | (cases h; done) | (cases h; exact .inl rfl) | skip
    all_goals
      rename_i hv
      cases h
      first | exact .inl (hC hv) | exact .inl (hQ hv (by simp))
  | free own th =>
    simp only [exec, bind, Except.bind, Option.some.injEq] at h
    split at h
    · cases h
    · split at h
      · cases h
      · rename_i c' hc'
        cases h
        left
        show c'.quota.inFlushAll = _
        rw [hfree _ _ _ hc']
  | timer n =>
    simp only [exec, Option.some.injEq] at h
    unfold runTimer at h
    simp only [bind, Except.bind] at h
    repeat' split at h
    all_goals first | (cases h; done) | (cases h; exact .inl rfl) | skip
    all_goals
      rename_i hv
      cases h
      first | exact .inl (hC hv) | exact .inl (hQ hv (by simp)) | exact .inl (hR hv)
  | destroy n =>
    simp only [exec] at h
    unfold runDestroy at h
    simp only [bind, Except.bind, unset] at h
    repeat' split at h
    all_goals first | (cases h; done) | (cases h; exact .inl rfl) | (exact .inr rfl) | skip
    all_goals
      rename_i hv
      simp only [Option.some.injEq] at h
      cases h
      first | exact .inl (hC hv) | exact .inl (hR hv)
  | flush c =>
    simp only [exec] at h
    split at h <;> cases h
    exact .inl rfl
  | calling c =>
    simp only [exec, this] at h
    repeat' split at h
    all_goals first | (cases h; done) | skip
    all_goals
      simp only [Option.some.injEq, Except.ok.injEq, Prod.mk.injEq] at h
      obtain ⟨rfl, _⟩ := h
      left
    · rfl
    · show (allocFlush c s.c).2.quota.inFlushAll = _
      rw [(allocFlush_ok c s.c).eq]
  | after k xs =>
    cases xs <;> simp only [exec, this, Option.some.injEq] at h
    · cases h; exact .inl rfl
    · split at h <;> cases h
      exact .inl rfl

theorem not_cleared (r : Reach K stops s) : s.dying = false → s.c.quota.inFlushAll = false := by
  induction r with
  | new h =>
    intro _
    unfold Client.new at h
    simp only [bind, Except.bind] at h
    split at h
    · cases h
    · split at h
      · cases h
      · rename_i hq
        split at h
        · cases h
        · cases h
          unfold Quota.new at hq
          simp only [bind, Except.bind] at hq
          split at hq
          · split at hq
            · cases hq
            · cases hq; rfl
          · cases hq; rfl
  | step r hs ih =>
    rename_i sa sb
    intro hdy
    cases hs with
    | work hth hex =>
      rename_i l1 a t l2 s' nw
      have hperm : (a :: (t ++ (l1 ++ l2).flatten)).Perm sa.acts := by
        unfold Sys.acts; rw [hth]
        exact (acts_at (t := a :: t)).symm
      have hda : sa.dying = false := by
        rw [← (exec_check (r.inv.perm hperm) hex).1]; exact hdy
      rcases exec_flag hex with h | rfl
      · exact h.trans (ih hda)
      · have := destroy_dying r.inv (hperm.mem_iff.mp List.mem_cons_self)
        rw [hda] at this; cases this
    | call => exact ih hdy
    | sync => exact ih hdy
    | complete hth hfree htake =>
      unfold Client.take at htake
      split at htake
      · cases htake
      · cases htake; exact ih hdy
    | fire => exact ih hdy
    | destroy => cases hdy
    | spawn => exact ih hdy

/-- C125: under every schedule, within the expiration interval of a moment at which no allocation request of a signature was on its way or
unanswered, and before the destruction begins, at most one is: of all the requests of the signature given to transports only one has not been
completed, and then no thread has another in its hands. -/
theorem C125_one_in_flight (r : Reach K stops s1) (l : Later K stops s1 s3) (sane : SaneQ K) (hpos : 0 < K.cfgQ.numEntries)
    (hnc : NoQuotaCollision K.cfgQ.H s3.c.trace) (hdy : s3.dying = false)
    (hwin : K.envQ.clk s3.c.quota.base.tick - K.envQ.clk s1.c.quota.base.tick < 1000 * K.cfgQ.expirationMs)
    (hco : QuotasCompleted K.cfgQ.H k s1.c.trace) (hca : carriedQuotas K.cfgQ.H k s1 = []) (hlo : lostQuotas K.cfgQ.H k s1 = [])
    (hfin : ∀ p a q, Act.fin p a ∈ s1.acts → p.req = .quota q → allocateQuotaSig K.cfgQ.H q ≠ k)
    {ids : List Nat} (hnd : ids.Nodup)
    (hids : ∀ id ∈ ids, ∃ b q, Ev.sent id b (.quota q) ∈ s3.c.trace ∧ allocateQuotaSig K.cfgQ.H q = k ∧ ∀ b c a, Ev.completed id b c a ∉ s3.c.trace) :
    ids.length + (carriedQuotas K.cfgQ.H k s3).length ≤ 1 := by
  obtain ⟨hc1, hq1, hr1, k1, hcs⟩ := r.caused hpos
  have r3 := Later.reach r l
  obtain ⟨hc3, n3, hr3, k3, _⟩ := later_flushedQ r k1 l sane hpos
  have hnc3 : Quota.NoCollision K.cfgQ.H (n3 ++ hq1) := by
    intro q hq' q' hq'' he
    obtain ⟨i, h1⟩ := k3.asks q hq'
    obtain ⟨j, h2⟩ := k3.asks q' hq''
    exact hnc i q j q' h1 h2 he
  have hcl := Quota.Reach.cleared (s := s3.c.quota.setCallback true) sane.1 sane.2 hpos k3.q.reach (not_cleared r3 hdy)
  have h0 : (Quota.sentAll K.cfgQ.H k hq1).length ≤ Quota.stored K.cfgQ.H k hq1 := by
    have h1 := stored_comps k k1
    have h2 := sent_le K.cfgQ.H r hco
    have h3 := countP_sent K.cfgQ.H k s1.c.trace (quotas_flushed r hpos)
    have h4 := (quotas_perm k k1).length_eq
    have h5 : (s1.acts.flatMap Act.comps).countP (fun x => decide (allocateQuotaSig K.cfgQ.H x.1 = k)) = 0 := by
      rw [List.countP_eq_zero]
      intro x hx
      obtain ⟨a, ha, hx⟩ := List.mem_flatMap.mp hx
      cases a with
      | fin p a =>
        cases hp : p.req with
        | quota q =>
          simp only [Act.comps, hp, List.mem_singleton] at hx
          subst hx
          simpa using hfin p a q ha hp
        | _ => simp [Act.comps, hp] at hx
      | _ => cases hx
    rw [hca, hlo, List.append_nil, List.append_nil] at h4
    omega
  obtain ⟨g1, _⟩ := Quota.in_flight sane.1 sane.2 hpos h0 k3.q.reach hnc3 hcl (fun ev hev ev' hev' i j hi hj => by
    have e1 := Quota.first_le (s := s1.c.quota.setCallback true) sane.1 sane.2 hpos k1.q.reach k3.q.reach ev hev
    have e2 := (Quota.ticks (s := s3.c.quota.setCallback true) sane.1 sane.2 hpos k3.q.reach ev' (List.mem_append_left _ hev')).2
    have e3 : K.envQ.clk s1.c.quota.base.tick ≤ K.envQ.clk i := sane.1.le (Nat.le_trans e1 hi.1)
    have e4 : K.envQ.clk j ≤ K.envQ.clk s3.c.quota.base.tick := sane.1.le (Nat.le_trans (Nat.le_of_lt hj.2) e2)
    omega)
  have hw := Quota.waiting_one sane.1 sane.2 hpos k3.q.reach hnc3 k
  have h1 := stored_comps k k3
  have h3 := countP_sent K.cfgQ.H k s3.c.trace (quotas_flushed r3 hpos)
  have h4 := (quotas_perm k k3).length_eq
  simp only [List.length_append] at h4
  have h5 : ids.length + s3.c.trace.countP (isCompleted K.cfgQ.H k) ≤ s3.c.trace.countP (isSent K.cfgQ.H k) := by
    have b := r3.inv.books
    rw [← length_ids (f := Ev.completedId) s3.c.trace (by intro e he; obtain ⟨_, _, _, _, rfl, _⟩ := isCompleted_cases he; rfl),
      ← length_ids (f := Ev.sentId) s3.c.trace (by intro e he; obtain ⟨_, _, _, rfl, _⟩ := isSent_cases he; rfl), ← List.length_append]
    refine (List.Nodup.subperm (List.nodup_append.mpr ⟨hnd, b.compl.sublist (List.filter_sublist.filterMap _), ?_⟩) ?_).length_le
    · intro id hid id' hid' e
      subst e
      obtain ⟨_, _, _, _, hno⟩ := hids id hid
      obtain ⟨e, he, hx⟩ := List.mem_filterMap.mp hid'
      obtain ⟨he, hp⟩ := List.mem_filter.mp he
      obtain ⟨id', bb, q, a, rfl, hk⟩ := isCompleted_cases hp
      simp only [Ev.completedId, Option.some.injEq] at hx
      subst hx
      exact hno _ _ _ he
    · intro id hid
      rcases List.mem_append.mp hid with hid | hid
      · obtain ⟨bb, q, he, hk, _⟩ := hids id hid
        exact List.mem_filterMap.mpr ⟨_, List.mem_filter.mpr ⟨he, by simpa [isSent] using hk⟩, rfl⟩
      · obtain ⟨e, he, hx⟩ := List.mem_filterMap.mp hid
        obtain ⟨he, hp⟩ := List.mem_filter.mp he
        obtain ⟨id', bb, q, a, rfl, hk⟩ := isCompleted_cases hp
        simp only [Ev.completedId, Option.some.injEq] at hx
        subst hx
        exact List.mem_filterMap.mpr ⟨_, List.mem_filter.mpr ⟨b.complOk _ _ _ _ he, by simpa [isSent] using hk⟩, rfl⟩
  omega

/-! ### Examples -/

/-- C125: all its hypotheses hold: two threads ask for quota of one signature and the timer's function runs, while the server has not answered. -/
example : ∃ s1 s3 : Sys Int, Reach exKJ true s1 ∧ Later exKJ true s1 s3 ∧ SaneQ exKJ ∧ 0 < exKJ.cfgQ.numEntries ∧ NoQuotaCollision exKJ.cfgQ.H s3.c.trace ∧
    s3.dying = false ∧ exKJ.envQ.clk s3.c.quota.base.tick - exKJ.envQ.clk s1.c.quota.base.tick < 1000 * exKJ.cfgQ.expirationMs ∧
    QuotasCompleted exKJ.cfgQ.H exSigQ s1.c.trace ∧ carriedQuotas exKJ.cfgQ.H exSigQ s1 = [] ∧ lostQuotas exKJ.cfgQ.H exSigQ s1 = [] ∧
    (∀ p a q, Act.fin p a ∈ s1.acts → p.req = .quota q → allocateQuotaSig exKJ.cfgQ.H q ≠ exSigQ) ∧
    Ev.sent 0 none (exQuota 1 5) ∈ s3.c.trace ∧ (∀ b c a, Ev.completed 0 b c a ∉ s3.c.trace) ∧ dones 1 s3.c.trace = 1 ∧ fires s3.c.trace = 1 := by
  obtain ⟨s, r, h⟩ := schedule_case (K := exKJ) (stops := true) [.spawn, .spawn]
    (fun s => s.c.trace = [] ∧ s.threads = [[], []] ∧ s.dropped = [] ∧
      (match ([.call 0 (exQuota 1 5) .default] ++ steps 0 10 ++ [.call 1 (exQuota 1 6) .default] ++ steps 1 5 ++ [.fire 0] ++ steps 0 4 : List (Move Int)).foldlM
          (fun s m => m.run exKJ true s) s with
      | some s3 => decide (askedQuotas s3.c.trace = [Quota.exQ 1 5, Quota.exQ 1 6] ∧ s3.dying = false ∧
          exKJ.envQ.clk s3.c.quota.base.tick - exKJ.envQ.clk s.c.quota.base.tick < 1000 * exKJ.cfgQ.expirationMs ∧
          Ev.sent 0 none (exQuota 1 5) ∈ s3.c.trace ∧ (s3.c.trace.all fun e => (Ev.completedId e).isNone) = true ∧ dones 1 s3.c.trace = 1 ∧ fires s3.c.trace = 1)
      | none => false) = true) (by decide +kernel)
  obtain ⟨h1, h2, h3, h4⟩ := h
  split at h4
  · rename_i s3 hs3
    obtain ⟨g1, g2, g3, g4, g5, g6, g7⟩ := of_decide_eq_true h4
    have hacts : s.acts = [] := by unfold Sys.acts; rw [h2]; rfl
    refine ⟨s, s3, r, moves_later hs3, ⟨Client.exJump_mono 7 (by decide), by decide⟩, by decide, ?_, g2, g3, ?_, ?_, ?_, ?_, g4, ?_, g6, g7⟩
    · refine noCollision_of fun r hr r' hr' _ => ?_
      rw [g1] at hr hr'
      simp only [List.mem_cons, List.not_mem_nil, or_false] at hr hr'
      rcases hr with rfl | rfl <;> rcases hr' with rfl | rfl <;> exact ⟨rfl, rfl, fun _ => Iff.rfl⟩
    · intro id b r hm; rw [h1] at hm; cases hm
    · unfold carriedQuotas; rw [h2]; rfl
    · unfold lostQuotas; rw [h3]; rfl
    · intro p a q hm; rw [hacts] at hm; cases hm
    · intro b c a hm
      have := List.all_eq_true.mp g5 _ hm
      cases this
  · cases h4

/-- More than the expiration interval passes before the fifth reading of the clock. -/
def exKQ : Setup := { exK with envQ := exJump 5 20000 }

/-- Without the limit of time C125 is false: if the server takes longer than the expiration interval to answer, the entry disappears, and the
next call sends another request of the same signature. -/
theorem C125_false_slow : ∃ s : Sys Int, Reach exKQ true s ∧ SaneQ exKQ ∧ NoQuotaCollision exKQ.cfgQ.H s.c.trace ∧ s.dying = false ∧
    Ev.sent 0 none (exQuota 1 5) ∈ s.c.trace ∧ Ev.sent 1 none (exQuota 1 6) ∈ s.c.trace ∧ (∀ id b c a, Ev.completed id b c a ∉ s.c.trace) ∧
    allocateQuotaSig exKQ.cfgQ.H (Quota.exQ 1 6) = allocateQuotaSig exKQ.cfgQ.H (Quota.exQ 1 5) := by
  obtain ⟨s, r, h⟩ := schedule_case (K := exKQ) (stops := true)
    ([.spawn, .spawn, .call 0 (exQuota 1 5) .default] ++ steps 0 10 ++ [.fire 0] ++ steps 0 4 ++ [.call 1 (exQuota 1 6) .default] ++ steps 1 10)
    (fun s => askedQuotas s.c.trace = [Quota.exQ 1 5, Quota.exQ 1 6] ∧ s.dying = false ∧ Ev.sent 0 none (exQuota 1 5) ∈ s.c.trace ∧
      Ev.sent 1 none (exQuota 1 6) ∈ s.c.trace ∧ (s.c.trace.all fun e => (Ev.completedId e).isNone) = true) (by decide +kernel)
  obtain ⟨g1, g2, g3, g4, g5⟩ := h
  refine ⟨s, r, ⟨Client.exJump_mono 5 (by decide), by decide⟩, ?_, g2, g3, g4, ?_, by decide +kernel⟩
  · refine noCollision_of fun r hr r' hr' _ => ?_
    rw [g1] at hr hr'
    simp only [List.mem_cons, List.not_mem_nil, or_false] at hr hr'
    rcases hr with rfl | rfl <;> rcases hr' with rfl | rfl <;> exact ⟨rfl, rfl, fun _ => Iff.rfl⟩
  · intro id b c a hm
    have := List.all_eq_true.mp g5 _ hm
    cases this

end Verif.Threads
