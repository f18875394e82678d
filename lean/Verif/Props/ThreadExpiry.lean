import Verif.Props.ThreadTimer
import Verif.Props.ThreadChecks
/-
The checks the timer removes from the cache while other threads use the client.
-/
set_option linter.unusedSectionVars false
namespace Verif.Check
open Lru
variable {D : Type} [DoubleOps D] {E : Env} {cfg : AggConfig} {h h1 : Hist D} {s s1 s' : AggState (Elem D)} {c : Call D} {out : Out}
  {fl : List (CheckRequest D)} {k : Bytes}

/-- A call adds no signature to the cache but its own. -/
theorem step_sigs (r : Reach E cfg h s) (hs : step E cfg c s = .ok (s', out, fl)) (hk : k ∈ cachedSigs s') : k ∈ cachedSigs s ∨ Uses cfg k c := by
  cases hc : s.cache with
  | none =>
    obtain ⟨out', h1, h2⟩ := step_none E cfg hc c
    rw [hs] at h1
    cases h1
    exact .inl hk
  | some x =>
    obtain ⟨c', L, L', G, G', hq, ha, hso, hst, _, hc', hq', _⟩ := r.step hs hc
    rw [cachedSigs_eq hc hq]
    rw [cachedSigs_eq hc' hq'] at hk
    generalize s'.tick = t' at hst
    obtain ⟨y, hy, rfl⟩ := List.mem_map.mp hk
    have hkeep : ∀ {y}, y ∈ keepOf (params cfg) (E.clk s.tick) L → y.key ∈ L.map (·.key) :=
      fun h => List.mem_map.mpr ⟨_, (keep_sublist _ _ _).subset h, rfl⟩
    cases c with
    | check q =>
      simp only [aStep] at hst
      split at hst
      · cases hst; exact .inl (List.mem_map.mpr ⟨_, hy, rfl⟩)
      · split at hst
        · cases hst; exact .inl (List.mem_map.mpr ⟨_, hy, rfl⟩)
        · split at hst
          · cases hst; exact .inl (List.mem_map.mpr ⟨_, hy, rfl⟩)
          · split at hst
            · cases hst; exact .inl (hkeep hy)
            · rename_i hn _ o ho hi _ z hz
              simp only [bind, Except.bind] at hst
              split at hst
              · cases hst
              · cases hst
                rcases mem_putL hy with ⟨h1, _⟩ | ⟨h1, _⟩
                · right
                  exact ⟨⟨by simpa using hn, o, ho, by simpa using hi⟩, h1.symm⟩
                · exact .inl (hkeep h1)
    | cacheResponse q p =>
      simp only [aStep] at hst
      split at hst
      · cases hst
        rcases mem_putL hy with ⟨h1, _⟩ | ⟨h1, _⟩
        · exact .inr h1.symm
        · exact .inl (hkeep h1)
      · cases hst
        rcases List.mem_cons.mp hy with rfl | hy
        · exact .inr rfl
        · left
          refine hkeep ?_
          split at hy
          · exact hy
          · exact List.mem_of_mem_dropLast hy
    | flush =>
      simp only [aStep] at hst
      cases hst
      exact .inl (hkeep hy)
    | flushAll =>
      simp only [aStep] at hst
      cases hst
      cases hy

theorem step_tick (r : Reach E cfg h s) (hs : step E cfg c s = .ok (s', out, fl)) : s.tick ≤ s'.tick := by
  cases hc : s.cache with
  | none =>
    obtain ⟨out', h1, h2⟩ := step_none E cfg hc c
    rw [hs] at h1
    cases h1
    exact Nat.le_refl _
  | some x =>
    obtain ⟨_, _, _, _, _, _, _, _, _, _, _, _, _, h⟩ := r.step hs hc
    exact h

theorem Reach.tick_le (r : Reach E cfg h s) : ∀ ev ∈ h, ev.last ≤ s.tick := by
  induction r with
  | init h0 => intro ev h; cases h
  | call r hs ih =>
    have hle := step_tick r hs
    intro ev hev
    rcases List.mem_cons.mp hev with rfl | hev
    · exact Nat.le_refl _
    · exact Nat.le_trans (ih ev hev) hle

/-- A signature that no call concerned since `h1` is not cached after a `Flush` that came later than the expiration time. -/
theorem gone_after (m : Mono E.clk) (hexp : 0 ≤ cfg.expirationMs) (r1 : Reach E cfg h1 s1) : ∀ {new : Hist D} {s}, Reach E cfg (new ++ h1) s →
    (∀ ev ∈ new, ¬ Uses cfg k ev.call) →
    (∃ ev ∈ new, ev.call = .flush ∧ ∀ i, i < s1.tick → E.clk i + cfg.cyc cfg.expirationMs.toNat < E.clk ev.first) → k ∉ cachedSigs s := by
  intro new
  induction new with
  | nil => intro s _ _ h; obtain ⟨_, h, _⟩ := h; cases h
  | cons ev t ih =>
    intro s r hno hfl hk
    rw [List.cons_append] at r
    generalize he : (ev :: (t ++ h1) : Hist D) = hh at r
    cases r with
    | init h0 => cases he
    | call r2 hs =>
      rename_i h2 s2 c2 out2 fl2
      simp only [List.cons.injEq] at he
      obtain ⟨rfl, rfl⟩ := he
      obtain ⟨ev, hev, hcall, hold⟩ := hfl
      rcases List.mem_cons.mp hev with rfl | hev
      · simp only at hcall hold
        subst hcall
        obtain ⟨_, e, i, h3, h4, h5⟩ := (C85_flush_expires m r2 hexp hs).1 k hk
        have h6 := List.mem_of_find?_eq_some h3
        have h7 := List.find?_some h3
        simp only [decide_eq_true_eq] at h7
        rcases List.mem_append.mp h6 with h6 | h6
        · exact hno e (List.mem_cons_of_mem _ h6) h7
        · have h8 := r1.tick_le e h6
          have := hold i (Nat.lt_of_lt_of_le h4.2 h8)
          omega
      · rcases step_sigs r2 hs hk with h3 | h3
        · exact ih r2 (fun e he => hno e (List.mem_cons_of_mem _ he)) ⟨ev, hev, hcall, hold⟩ h3
        · exact hno _ List.mem_cons_self h3

end Verif.Check

namespace Verif.Threads
open Client Lru
variable {D : Type} [DoubleOps D] {K : Setup} {stops : Bool} {s s1 s2 s3 s' : Sys D} {k : Bytes}

/-- What a piece of code may add to the trace: a call of a transport for a call, if the cache has told so, a done callback, if it is about to call it,
and no call and no completion. -/
def Logged (a : Act D) : Ev D → Prop
  | .sent _ (some i) c => ∃ reply, a = .result i c .notFound reply
  | .completed _ _ _ _ => False
  | .called _ _ _ => False
  | .done i c st reply via => a = .finish i c st reply via
  | _ => True

/-- A piece of code adds to the trace. -/
theorem exec_trace {a : Act D} {new : List (Act D)} (h : exec K stops a s = some (.ok (s', new))) :
    ∃ evs, s'.c.trace = s.c.trace ++ evs ∧ ∀ e ∈ evs, Logged a e := by
  have nil : ∀ {tr : List (Ev D)}, tr = s.c.trace → ∃ evs, tr = s.c.trace ++ evs ∧ ∀ e ∈ evs, Logged a e :=
    fun h => ⟨[], by rw [h, List.append_nil], by simp⟩
  have one : ∀ {tr : List (Ev D)} (e : Ev D), Logged a e → tr = s.c.trace ++ [e] → ∃ evs, tr = s.c.trace ++ evs ∧ ∀ e ∈ evs, Logged a e :=
    fun e he h => ⟨[e], h, by intro x hx; rw [List.mem_singleton] at hx; subst hx; exact he⟩
  have hC : ∀ {x s' out fl}, aggC K x s = .ok (s', out, fl) → s'.c.trace = s.c.trace := by
    intro x s' out fl h
    obtain ⟨_, _, rfl, _⟩ := aggC_ok h; rfl
  have hQ : ∀ {x s' out fl}, aggQ K x s = .ok (s', out, fl) → s'.c.trace = s.c.trace := by
    intro x s' out fl h
    obtain ⟨_, _, rfl, _⟩ := aggQ_ok h; rfl
  have hR : ∀ {x s' out fl}, aggR K x s = .ok (s', out, fl) → s'.c.trace = s.c.trace := by
    intro x s' out fl h
    obtain ⟨_, _, rfl, _⟩ := aggR_ok h; rfl
  have hfree : ∀ (own : List Nat) (c c' : Client D), c.freeAll own = .ok c' → c'.trace = c.trace := by
    intro own
    induction own with
    | nil => intro c c' h; cases h; rfl
    | cons p own ih =>
      intro c c' h
      simp only [Client.freeAll, List.foldlM_cons, bind, Except.bind] at h
      cases h1 : c.free p with
      | error e => rw [h1] at h; cases h
      | ok c1 =>
        rw [h1] at h
        have h2 := ih c1 c' h
        rw [h2]
        unfold Client.free at h1
        split at h1
        · cases h1; rfl
        · cases h1
  cases a with
  | user => simp only [exec] at h; cases h; exact nil rfl
  | start i c t =>
    simp only [exec, this, Option.some.injEq] at h
    split at h
    · cases h
    · cases h; exact nil rfl
  | agg i c =>
    simp only [exec, this, Option.some.injEq] at h
    split at h
    · cases h
    · cases c <;> simp only [runCall, bind, Except.bind] at h <;> split at h <;> first | (cases h; done) | skip
      all_goals
        rename_i hv
        cases h
        first | exact nil (hC hv) | exact nil (hQ hv) | exact nil (hR hv)
  | result i c st reply =>
    simp only [exec, this, Option.some.injEq] at h
    split at h
    · cases h
    · split at h
      · rename_i hst
        simp only [Except.ok.injEq, Prod.mk.injEq] at h
        obtain ⟨rfl, rfl⟩ := h
        have he := (allocCall_ok c s.c).eq
        refine one (.sent s.c.sends (some i) c) ⟨reply, by rw [hst]⟩ ?_
        show (allocCall c s.c).2.trace ++ [_] = _
        rw [he]
      · cases h; exact nil rfl
  | count i' c' xs =>
    cases xs with
    | nil => simp only [exec] at h; cases h; exact nil rfl
    | cons x xs =>
      simp only [exec, this, Option.some.injEq] at h
      split at h
      · cases h
      · cases h; exact nil rfl
  | finish i c st reply via =>
    simp only [exec] at h
    split at h
    · split at h <;> cases h
      exact one _ (by trivial) rfl
    · cases h; exact one _ (by trivial) rfl
  | setValue i st => simp only [exec] at h; cases h; exact nil rfl
  | wait i =>
    simp only [exec] at h
    split at h
    · cases h
    · cases h; exact nil rfl
  | fin p a =>
    simp only [exec, Option.some.injEq] at h
    unfold runFin at h
    simp only [bind, Except.bind] at h
    repeat' split at h
    all_goals first | (cases h; done) | (cases h; exact nil rfl) | skip
    all_goals
      rename_i hv
      cases h
      first | exact nil (hC hv) | exact nil (hQ hv)
  | free own th =>
    simp only [exec, bind, Except.bind, Option.some.injEq] at h
    split at h
    · cases h
    · split at h
      · cases h
      · rename_i c' hc'
        cases h
        exact nil (hfree _ _ _ hc')
  | timer n =>
    simp only [exec, Option.some.injEq] at h
    unfold runTimer at h
    simp only [bind, Except.bind] at h
    repeat' split at h
    all_goals first | (cases h; done) | (cases h; exact nil rfl) | skip
    all_goals
      rename_i hv
      cases h
      first | exact nil (hC hv) | exact nil (hQ hv) | exact nil (hR hv)
  | destroy n =>
    simp only [exec] at h
    unfold runDestroy at h
    simp only [bind, Except.bind, unset] at h
    repeat' split at h
    all_goals first | (cases h; done) | (cases h; exact nil rfl) | skip
    all_goals first
      | (rename_i hv
         simp only [Option.some.injEq] at h
         cases h
         first | exact nil (hC hv) | exact nil (hQ hv) | exact nil (hR hv))
      | (cases h
         exact one _ (by trivial) rfl)
  | flush c =>
    simp only [exec] at h
    split at h <;> cases h
    exact nil rfl
  | calling c =>
    simp only [exec] at h
    split at h
    · cases h; exact nil rfl
    · simp only [this, Option.some.injEq] at h
      split at h
      · cases h
      · split at h
        · cases h
        · simp only [Except.ok.injEq, Prod.mk.injEq] at h
          obtain ⟨rfl, rfl⟩ := h
          have he := (allocFlush_ok c s.c).eq
          refine one (.sent s.c.sends none c) trivial ?_
          show (allocFlush c s.c).2.trace ++ [_] = _
          rw [he]
  | after k xs =>
    cases xs with
    | nil => simp only [exec] at h; cases h; exact nil rfl
    | cons x xs =>
      simp only [exec, this, Option.some.injEq] at h
      split at h
      · cases h
      · cases h; exact nil rfl

theorem not_concerns_flush {H : Bytes → Bytes} {fl : List (Act D)} {R : Type} {rs : List R} {f : R → Client.Call D} (h : fl = rs.map (fun r => .flush (f r))) :
    ∀ b ∈ fl, ¬ b.concerns H k := by
  intro b hb
  rw [h] at hb
  obtain ⟨r, _, rfl⟩ := List.mem_map.mp hb
  exact id

/-- Code of a check of signature `k` comes from code of one. -/
theorem exec_concerns {H : Bytes → Bytes} {a : Act D} {new : List (Act D)} (h : exec K stops a s = some (.ok (s', new))) :
    ∀ b ∈ new, b.concerns H k → a.concerns H k := by
  have hC : ∀ {x s' out fl}, aggC K x s = .ok (s', out, fl) → ∀ b ∈ fl, ¬ b.concerns H k := by
    intro x s' out fl h
    obtain ⟨_, _, _, h1, _⟩ := aggC_ok h; exact not_concerns_flush h1
  have hQ : ∀ {x s' out fl}, aggQ K x s = .ok (s', out, fl) → ∀ b ∈ fl, ¬ b.concerns H k := by
    intro x s' out fl h
    obtain ⟨_, _, _, h1, _⟩ := aggQ_ok h; exact not_concerns_flush h1
  have hR : ∀ {x s' out fl}, aggR K x s = .ok (s', out, fl) → ∀ b ∈ fl, ¬ b.concerns H k := by
    intro x s' out fl h
    obtain ⟨_, _, _, h1, _⟩ := aggR_ok h; exact not_concerns_flush h1
  have app : ∀ {fl l : List (Act D)}, (∀ b ∈ fl, ¬ b.concerns H k) → (∀ b ∈ l, ¬ b.concerns H k) → ∀ b ∈ fl ++ l, b.concerns H k → a.concerns H k := by
    intro fl l h1 h2 b hb hc
    rcases List.mem_append.mp hb with hb | hb
    · exact absurd hc (h1 b hb)
    · exact absurd hc (h2 b hb)
  have none_ : ∀ {l : List (Act D)}, (∀ b ∈ l, ¬ b.concerns H k) → ∀ b ∈ l, b.concerns H k → a.concerns H k := fun h b hb hc => absurd hc (h b hb)
  cases a with
  | start i c t =>
    simp only [exec, this, Option.some.injEq] at h
    split at h
    · cases h
    · cases h
      intro b hb
      cases t
      · simp only [Bool.false_eq_true, if_false, List.mem_singleton] at hb
        subst hb
        exact fun h => h.elim
      · simp only [if_true, List.mem_singleton] at hb
        subst hb
        cases c <;> exact id
  | agg i c =>
    simp only [exec, this, Option.some.injEq] at h
    split at h
    · cases h
    · cases c <;> simp only [runCall, bind, Except.bind] at h <;> split at h <;> first | (cases h; done) | skip
      all_goals
        rename_i hv
        cases h
        refine app ?_ (by simp [Act.concerns])
        first | exact hC hv | exact hQ hv | exact hR hv
  | fin p a =>
    simp only [exec, Option.some.injEq] at h
    unfold runFin at h
    simp only [bind, Except.bind] at h
    repeat' split at h
    all_goals first | (cases h; done) | (cases h; refine none_ ?_; simp [Act.concerns]; done) | skip
    all_goals
      rename_i hv
      cases h
      refine app ?_ (by simp [Act.concerns])
      first | exact hC hv | exact hQ hv
  | timer n =>
    simp only [exec, Option.some.injEq] at h
    unfold runTimer at h
    simp only [bind, Except.bind] at h
    repeat' split at h
    all_goals first | (cases h; done) | (cases h; refine none_ ?_; simp [Act.concerns]; done) | skip
    all_goals
      rename_i hv
      cases h
      refine app ?_ (by simp [Act.concerns])
      first | exact hC hv | exact hQ hv | exact hR hv
  | destroy n =>
    simp only [exec] at h
    unfold runDestroy at h
    simp only [bind, Except.bind, unset] at h
    repeat' split at h
    all_goals first | (cases h; done) | (cases h; refine none_ ?_; simp [Act.concerns]; done) | skip
    all_goals
      rename_i hv
      simp only [Option.some.injEq] at h
      cases h
      refine app ?_ (by simp [Act.concerns])
      first | exact hC hv | exact hQ hv | exact hR hv
  | count i' c' xs =>
    cases xs <;> simp only [exec, this] at h
    · cases h; simp
    · simp only [Option.some.injEq] at h
      split at h
      · cases h
      · cases h; exact none_ (by simp [Act.concerns])
  | after j xs =>
    cases xs <;> simp only [exec, this] at h
    · cases h; simp
    · simp only [Option.some.injEq] at h
      split at h
      · cases h
      · cases h; exact none_ (by simp [Act.concerns])
  | _ =>
    simp only [exec, this, bind, Except.bind, Option.some.injEq] at h
    repeat' split at h
    all_goals first | (cases h; done) | skip
    all_goals
      simp only [Option.some.injEq, Except.ok.injEq, Prod.mk.injEq] at h
      obtain ⟨_, rfl⟩ := h
      exact none_ (by simp [Act.concerns])

theorem links_check {hc : Check.Hist D} {hq : Quota.Hist D} {hr : Report.Hist D} {A : List (Act D)} (l : Links K hc hq hr A s) :
    Check.Reach K.envC K.cfgC hc s.c.check := by
  have h1 := l.c.reach
  have h2 : s.c.check.setFlushCallback true = s.c.check := by
    have := l.c.callback
    cases hs : s.c.check with
    | mk a b c => rw [hs] at this; cases this; rfl
  rwa [h2] at h1

theorem not_uses_of {a : Act D} {x : Check.Call D} (h : Asks D a x) (ha : ¬ a.concerns K.cfgC.H k) : ¬ Check.Uses K.cfgC k x := by
  cases h with
  | call => exact fun h => ha h.2
  | fin h1 h2 => exact fun h => ha ⟨_, _, h2, h1, h⟩
  | timer => exact id
  | destroy => exact id

/-- What the check aggregator was asked since `s1`: `Flush`, if the timer has called its function and that has got so far, and nothing about
a signature that no call and no completion concerned. -/
theorem later_check {h1 : Check.Hist D} (i1 : Reach K stops s1) (r1 : Check.Reach K.envC K.cfgC h1 s1.c.check) (l : Later K stops s1 s) :
    ∃ new post, s.c.trace = s1.c.trace ++ post ∧ Check.Reach K.envC K.cfgC (new ++ h1) s.c.check ∧ s1.c.check.tick ≤ s.c.check.tick ∧
      (fires s1.c.trace < fires s.c.trace → Act.timer 0 ∈ s.acts ∨ ∃ ev ∈ new, ev.call = .flush ∧ s1.c.check.tick ≤ ev.first) ∧
      ∀ k, (∀ a ∈ s1.acts, ¬ a.concerns K.cfgC.H k) → (∀ e ∈ post, ¬ Concerns K.cfgC.H k e) →
        (∀ a ∈ s.acts, ¬ a.concerns K.cfgC.H k) ∧ ∀ ev ∈ new, ¬ Check.Uses K.cfgC k ev.call := by
  induction l with
  | refl => exact ⟨[], [], by simp, r1, Nat.le_refl _, fun h => absurd h (Nat.lt_irrefl _), fun k ha _ => ⟨ha, by simp⟩⟩
  | step l hs ih =>
    rename_i sa sb
    obtain ⟨new, post, ht, rc, htick, hf, hk⟩ := ih
    have ra := Later.reach i1 l
    have hpush : ∀ {l1 l2 : List (List (Act D))} {t : List (Act D)} (nw : List (Act D)), sa.threads = l1 ++ t :: l2 → sb.threads = l1 ++ (nw ++ t) :: l2 →
        ∀ x, x ∈ sb.acts ↔ x ∈ nw ∨ x ∈ sa.acts := by
      intro l1 l2 t nw h1 h2 x
      unfold Sys.acts
      rw [h1, h2, ← List.mem_append]
      exact acts_push.mem_iff
    -- a step from outside: `e` is logged and `nw` begins
    have out : ∀ {l1 l2 : List (List (Act D))} {t : List (Act D)} (nw : List (Act D)) (e : Ev D), sa.threads = l1 ++ t :: l2 → sb.threads = l1 ++ (nw ++ t) :: l2 →
        sb.c.check = sa.c.check → sb.c.trace = sa.c.trace ++ [e] → (fires [e] = 0 ∨ Act.timer 0 ∈ nw) →
        (∀ k, ∀ a ∈ nw, a.concerns K.cfgC.H k → Concerns K.cfgC.H k e) →
        ∃ new post, sb.c.trace = s1.c.trace ++ post ∧ Check.Reach K.envC K.cfgC (new ++ h1) sb.c.check ∧ s1.c.check.tick ≤ sb.c.check.tick ∧
          (fires s1.c.trace < fires sb.c.trace → Act.timer 0 ∈ sb.acts ∨ ∃ ev ∈ new, ev.call = .flush ∧ s1.c.check.tick ≤ ev.first) ∧
          ∀ k, (∀ a ∈ s1.acts, ¬ a.concerns K.cfgC.H k) → (∀ e ∈ post, ¬ Concerns K.cfgC.H k e) →
            (∀ a ∈ sb.acts, ¬ a.concerns K.cfgC.H k) ∧ ∀ ev ∈ new, ¬ Check.Uses K.cfgC k ev.call := by
      intro l1 l2 t nw e h1 h2 h3 h4 h5 h6
      have hm := hpush nw h1 h2
      refine ⟨new, post ++ [e], by rw [h4, ht, List.append_assoc], by rw [h3]; exact rc, by rw [h3]; exact htick, fun hfi => ?_, fun k ha he => ?_⟩
      · rcases h5 with h5 | h5
        · rw [h4, fires_append, h5] at hfi
          rcases hf hfi with h | h
          · exact .inl ((hm _).mpr (.inr h))
          · exact .inr h
        · exact .inl ((hm _).mpr (.inl h5))
      · obtain ⟨g1, g2⟩ := hk k ha (fun e' he' => he e' (List.mem_append_left _ he'))
        refine ⟨fun a hma hc => ?_, g2⟩
        rcases (hm a).mp hma with h | h
        · exact he e (by simp) (h6 k a h hc)
        · exact g1 a h hc
    cases hs with
    | work hth hex =>
      rename_i l1 a t l2 s' nw
      have hperm : (a :: (t ++ (l1 ++ l2).flatten)).Perm sa.acts := by
        unfold Sys.acts; rw [hth]
        exact (acts_at (t := a :: t)).symm
      have hperm' : (nw ++ (t ++ (l1 ++ l2).flatten)).Perm (l1 ++ (nw ++ t) :: l2).flatten := by
        refine List.Perm.symm (acts_at.trans ?_)
        rw [List.append_assoc]
      have hinv : Inv (a :: (t ++ (l1 ++ l2).flatten)) sa := ra.inv.perm hperm
      obtain ⟨evs, hevs, _⟩ := exec_trace hex
      have hfi : fires s'.c.trace = fires sa.c.trace := exec_fires hex
      have hamem : a ∈ sa.acts := hperm.mem_iff.mp List.mem_cons_self
      have hact : ∀ k, (∀ a ∈ s1.acts, ¬ a.concerns K.cfgC.H k) → (∀ e ∈ post ++ evs, ¬ Concerns K.cfgC.H k e) →
          (∀ x ∈ (l1 ++ (nw ++ t) :: l2).flatten, ¬ x.concerns K.cfgC.H k) ∧ (¬ a.concerns K.cfgC.H k) ∧ ∀ ev ∈ new, ¬ Check.Uses K.cfgC k ev.call := by
        intro k ha he
        obtain ⟨g1, g2⟩ := hk k ha (fun e he' => he e (List.mem_append_left _ he'))
        refine ⟨fun x hx hc => ?_, g1 a hamem, g2⟩
        rcases List.mem_append.mp (hperm'.mem_iff.mpr hx) with hx | hx
        · exact g1 a hamem (exec_concerns hex x hx hc)
        · exact g1 x (hperm.mem_iff.mp (List.mem_cons_of_mem _ hx)) hc
      have htr : s'.c.trace = s1.c.trace ++ (post ++ evs) := by rw [hevs, ht, List.append_assoc]
      by_cases hat : a = .timer 0
      · subst hat
        have hrun : runTimer K 0 sa = .ok (s', nw) := by simpa only [exec, Option.some.injEq] using hex
        simp only [runTimer, bind, Except.bind] at hrun
        split at hrun
        · cases hrun
        · rename_i v hv
          cases hrun
          obtain ⟨ca, rs, h2, _, h3⟩ := aggC_ok (out := v.2.1) (fl := v.2.2) (s' := v.1) hv
          have h4 : v.1.c.check = ca := by rw [h2]
          rw [← h4] at h3
          refine ⟨_ :: new, post ++ evs, htr, rc.call h3, Nat.le_trans htick (Check.step_tick rc h3), fun _ => .inr ⟨_, List.mem_cons_self, rfl, htick⟩, fun k ha he => ?_⟩
          obtain ⟨g1, _, g3⟩ := hact k ha he
          refine ⟨g1, fun ev hev => ?_⟩
          rcases List.mem_cons.mp hev with rfl | hev
          · exact id
          · exact g3 ev hev
      · have htim : ∀ x : Act D, x = .timer 0 → x ∈ sa.acts → x ∈ (l1 ++ (nw ++ t) :: l2).flatten := by
          intro x hx hm
          rcases List.mem_cons.mp (hperm.mem_iff.mpr hm) with h | h
          · exact absurd (h.symm.trans hx) hat
          · exact hperm'.mem_iff.mp (List.mem_append_right _ h)
        obtain ⟨_, hch | ⟨x, o, fl, h2, h3⟩⟩ := exec_check hinv hex
        · refine ⟨new, post ++ evs, htr, ?_, ?_, fun hfl => ?_, fun k ha he => ?_⟩
          · show Check.Reach _ _ _ s'.c.check
            rw [hch]; exact rc
          · show _ ≤ s'.c.check.tick
            rw [hch]; exact htick
          · rcases hf (by rw [← hfi]; exact hfl) with h | h
            · exact .inl (htim _ rfl h)
            · exact .inr h
          · obtain ⟨g1, _, g3⟩ := hact k ha he
            exact ⟨g1, g3⟩
        · refine ⟨_ :: new, post ++ evs, htr, rc.call h3, Nat.le_trans htick (Check.step_tick rc h3), fun hfl => ?_, fun k ha he => ?_⟩
          · rcases hf (by rw [← hfi]; exact hfl) with h | ⟨ev, h, h'⟩
            · exact .inl (htim _ rfl h)
            · exact .inr ⟨ev, List.mem_cons_of_mem _ h, h'⟩
          · obtain ⟨g1, g2, g3⟩ := hact k ha he
            refine ⟨g1, fun ev hev => ?_⟩
            rcases List.mem_cons.mp hev with rfl | hev
            · exact not_uses_of h2 g2
            · exact g3 ev hev
    | @call l1 t l2 c tr hth hfree hdy =>
      refine out [.start sa.c.calls c (present K c tr)] _ hth rfl rfl rfl (.inl rfl) (fun k a ha hc => ?_)
      rw [List.mem_singleton] at ha; subst ha
      cases c <;> exact hc
    | @sync l1 t l2 c hth hfree hdy =>
      refine out [.start sa.c.calls c (present K c .default), .wait sa.c.calls] _ hth rfl rfl rfl (.inl rfl) (fun k a ha hc => ?_)
      simp only [List.mem_cons, List.not_mem_nil, or_false] at ha
      rcases ha with rfl | rfl
      · cases c <;> exact hc
      · exact hc.elim
    | @complete l1 t l2 id a p c' hth hfree htake =>
      unfold Client.take at htake
      split at htake
      · cases htake
      · rename_i q hq
        cases htake
        refine out [.fin p a] _ hth rfl rfl rfl (.inl rfl) (fun k b hb hc => ?_)
        rw [List.mem_singleton] at hb; subst hb
        obtain ⟨i, r, h2, h3, h4⟩ := hc
        rw [h2, h3]
        exact h4
    | @fire l1 t l2 hth hfree htm =>
      refine out [.timer 0] _ hth rfl rfl rfl (.inr (by simp)) (fun k b hb hc => ?_)
      rw [List.mem_singleton] at hb; subst hb
      exact hc.elim
    | @destroy l1 t l2 hth hfree hdy hapi =>
      have hm := hpush [.destroy 0] hth rfl
      refine ⟨new, post, ht, rc, htick, fun hfl => ?_, fun k ha he => ?_⟩
      · rcases hf hfl with h | h
        · exact .inl ((hm _).mpr (.inr h))
        · exact .inr h
      · obtain ⟨g1, g2⟩ := hk k ha he
        refine ⟨fun x hx hc => ?_, g2⟩
        rcases (hm x).mp hx with h | h
        · rw [List.mem_singleton] at h; subst h; exact hc.elim
        · exact g1 x h hc
    | spawn =>
      have hm : ({ sa with threads := sa.threads ++ [[]] } : Sys D).acts = sa.acts := by simp [Sys.acts]
      refine ⟨new, post, ht, rc, htick, fun hfl => ?_, fun k ha he => ?_⟩
      · rw [hm]; exact hf hfl
      · rw [hm]; exact hk k ha he

/-- C108: under every schedule, a signature that no call and no completion of a transport call has concerned for longer than the
expiration time is not cached once the timer has called its function since and that has returned.  `s1` is any moment, all of whose clock readings are
older than the expiration time at a later moment `s2`. -/
theorem C108_expired (r : Reach K stops s1) (l12 : Later K stops s1 s2) (l23 : Later K stops s2 s3)
    (hf : fires s2.c.trace < fires s3.c.trace) (hidle : s3.timers = 0) (m : Mono K.envC.clk) (hexp : 0 ≤ K.cfgC.expirationMs)
    (hold : ∀ i, i < s1.c.check.tick → K.envC.clk i + K.cfgC.cyc K.cfgC.expirationMs.toNat < K.envC.clk s2.c.check.tick)
    (hacts : ∀ t ∈ s1.threads, ∀ a ∈ t, ¬ a.concerns K.cfgC.H k) (post : List (Ev D)) (hpost : s3.c.trace = s1.c.trace ++ post)
    (hno : ∀ e ∈ post, ¬ Concerns K.cfgC.H k e) : k ∉ Check.cachedSigs s3.c.check := by
  obtain ⟨hc1, hq1, hr1, k1⟩ := r.links
  have r2 := Later.reach r l12
  have r3 := Later.reach r2 l23
  have hacts' : ∀ a ∈ s1.acts, ¬ a.concerns K.cfgC.H k := by
    intro a ha
    obtain ⟨t, ht, hat⟩ := List.mem_flatten.mp ha
    exact hacts t ht a hat
  obtain ⟨n12, p12, t12, c12, _, _, u12⟩ := later_check r (links_check k1) l12
  obtain ⟨n23, p23, t23, c23, _, f23, u23⟩ := later_check r2 c12 l23
  have hp : post = p12 ++ p23 := by
    rw [t23, t12, List.append_assoc] at hpost
    exact (List.append_cancel_left hpost).symm
  subst hp
  obtain ⟨a2, un12⟩ := u12 k hacts' (fun e he => hno e (List.mem_append_left _ he))
  obtain ⟨_, un23⟩ := u23 k a2 (fun e he => hno e (List.mem_append_right _ he))
  rcases f23 hf with hm | ⟨ev, hev, hcall, hfirst⟩
  · have := r3.shut.timers
    rw [hidle] at this
    exact absurd rfl (List.countP_eq_zero.mp this.symm _ hm)
  · rw [← List.append_assoc] at c23
    refine Check.gone_after m hexp (links_check k1) c23 ?_ ⟨ev, List.mem_append_left _ hev, hcall, fun i hi => ?_⟩
    · intro e he
      rcases List.mem_append.mp he with he | he
      · exact un23 e he
      · exact un12 e he
    · have h1 := hold i hi
      have h2 : K.envC.clk s2.c.check.tick ≤ K.envC.clk ev.first := m.le hfirst
      omega

/-- The tagged operation of an answer from the cache. -/
def heldSigOf (H : Bytes → Bytes) (x : Client.Call D × Status × Reply) : List (Bytes × Operation D) := heldSig H x.1 x.2.1 x.2.2

omit [DoubleOps D] in
theorem answer_heldSig (H : Bytes → Bytes) (c : Client.Call D) (st : Status) (reply : Reply) :
    (answer c st reply).flatMap (heldSigOf H) = heldSig H c st reply := by
  cases c <;> cases st <;> simp [answer, heldSigOf, heldSig]

omit [DoubleOps D] in
theorem answers_heldSigs (H : Bytes → Bytes) (tr : List (Ev D)) : (answers tr).flatMap (heldSigOf H) = heldSigs H tr := by
  unfold answers heldSigs
  rw [List.flatMap_assoc]
  refine List.flatMap_congr fun e _ => ?_
  cases e with
  | done i c st reply via =>
    cases via with
    | none => simp only [answer_heldSig]
    | some id => rfl
  | sent id by_ c => cases by_ <;> cases c <;> rfl
  | _ => rfl

omit [DoubleOps D] in
theorem acts_heldSigs (H : Bytes → Bytes) (A : List (Act D)) : (A.flatMap Act.answers).flatMap (heldSigOf H) = A.flatMap (fun a => match a with
    | .result _ c st reply => heldSig H c st reply
    | .finish _ c st reply none => heldSig H c st reply
    | _ => []) := by
  rw [List.flatMap_assoc]
  refine List.flatMap_congr fun a _ => ?_
  cases a with
  | result i c st reply => simp only [Act.answers, answer_heldSig]
  | finish i c st reply via =>
    cases via with
    | none => simp only [Act.answers, answer_heldSig]
    | some id => rfl
  | _ => rfl

/-- The operations of checks answered positively from the cache are absorbed under their signatures. -/
theorem held_absorbed {E : Lru.Env} {cfg : AggConfig} {st : AggState (Check.Elem D)} {hc : Check.Hist D} (r : Check.Reach E cfg hc st) :
    ((answersC hc).flatMap (heldSigOf cfg.H)).Sublist (Check.absorbed cfg hc) := by
  induction r with
  | init h0 => simp [answersC]
  | call r hs ih =>
    rename_i h s c s1 out fl
    simp only [Check.absorbed]
    rw [answersC_cons, List.flatMap_append]
    refine ih.append ?_
    cases c with
    | check q =>
      rcases Check.check_status hs with hst | hst | hst
      · obtain ⟨p, g1, g2⟩ := Check.C31_served_latest r q hs hst
        simp only [ansC, answer_heldSig, hst, g1, heldSig, Check.absorbedBy, g2]
        cases q.operation with
        | none => simp
        | some o => by_cases hp : p.checkErrors = [] <;> simp [hp]
      · simp only [ansC, answer_heldSig, hst, heldSig]
        exact List.nil_sublist _
      · simp only [ansC, answer_heldSig, hst, heldSig]
        exact List.nil_sublist _
    | cacheResponse q p => exact List.nil_sublist _
    | flush => exact List.nil_sublist _
    | flushAll => exact List.nil_sublist _

theorem held_from {hc : Check.Hist D} {hq : Quota.Hist D} {hr : Report.Hist D} (l : Links K hc hq hr s.acts s) :
    (heldSigs K.cfgC.H s.c.trace ++ heldSigsSoon K.cfgC.H s).Subperm (Check.absorbed K.cfgC hc) := by
  have hQh : (answersQ hq).flatMap (heldSigOf K.cfgC.H) = [] := by
    rw [List.flatMap_eq_nil_iff]
    intro x hx
    unfold answersQ at hx
    obtain ⟨ev, _, hx⟩ := List.mem_flatMap.mp hx
    cases hcall : ev.call <;> rw [hcall] at hx <;> simp only [ansQ, answer, List.not_mem_nil] at hx
    split at hx
    · cases hx
    · rw [List.mem_singleton] at hx; subst hx; simp [heldSigOf, heldSig]
  have hRh : (answersR hr).flatMap (heldSigOf K.cfgC.H) = [] := by
    rw [List.flatMap_eq_nil_iff]
    intro x hx
    unfold answersR at hx
    obtain ⟨ev, _, hx⟩ := List.mem_flatMap.mp hx
    cases hcall : ev.call <;> rw [hcall] at hx <;> simp only [ansR, answer, List.not_mem_nil] at hx
    split at hx
    · cases hx
    · rw [List.mem_singleton] at hx; subst hx; simp [heldSigOf, heldSig]
  have hh := l.ans.flatMap_right (heldSigOf K.cfgC.H)
  rw [List.flatMap_append, List.flatMap_append, List.flatMap_append, hQh, hRh, answers_heldSigs, acts_heldSigs, List.append_nil, List.append_nil] at hh
  exact hh.subperm.trans (held_absorbed l.c.reach).subperm

theorem sublist_flatMap {α β : Type} (f : α → List β) {l l' : List α} (h : l.Sublist l') : (l.flatMap f).Sublist (l'.flatMap f) := by
  induction h with
  | slnil => exact .slnil
  | cons a _ ih => rw [List.flatMap_cons]; exact ih.trans (List.sublist_append_right _ _)
  | cons_cons a _ ih => rw [List.flatMap_cons, List.flatMap_cons]; exact (List.Sublist.refl _).append ih

theorem subperm_flatMap {α β : Type} (f : α → List β) {l l' : List α} (h : l.Subperm l') : (l.flatMap f).Subperm (l'.flatMap f) := by
  obtain ⟨m, hm, hs⟩ := h
  exact (hm.symm.flatMap_right f).subperm.trans (sublist_flatMap f hs).subperm

theorem subperm_map {α β : Type} (f : α → β) {l l' : List α} (h : l.Subperm l') : (l.map f).Subperm (l'.map f) := by
  obtain ⟨m, hm, hs⟩ := h
  exact (hm.symm.map f).subperm.trans (hs.map f).subperm

/-- What was held for a signature that is no longer cached has been sent, is on its way to the flush callback, or was passed on after
that was unset. -/
theorem sent_unless_cached (r : Reach K stops s) (hk : k ∉ Check.cachedSigs s.c.check) :
    ∃ out ops, ops.Perm ((flushedChecks s.c.trace ++ carriedChecks s ++ lostChecks s).filterMap (·.operation)) ∧
      List.Forall₂ (Check.Group.Sum K.cfgC) out ops ∧
      (((heldSigs K.cfgC.H s.c.trace ++ heldSigsSoon K.cfgC.H s).filter (·.1 == k)).map (·.2)).Subperm
        ((out.filter (·.sig == k)).flatMap (·.ops)) := by
  obtain ⟨hc, hq, hr, l⟩ := r.links
  obtain ⟨out, pend, hp, hsig⟩ := Check.C36_groups l.c.reach
  refine ⟨out, _, (sentC_perm l).symm, hp.out_sum, ?_⟩
  have h1 := subperm_map (fun a : Bytes × Operation D => a.2) ((held_from l).filter (fun a => a.1 == k))
  rw [hp.split k] at h1
  have h2 : pend.filter (·.sig == k) = [] := by
    rw [List.filter_eq_nil_iff]
    intro g hg he
    have h3 := hsig g hg
    simp only [beq_iff_eq] at he
    rw [he] at h3
    exact hk h3
  rw [h2] at h1
  simpa using h1

/-- C108: what was held for such a signature has been sent by a flush, is on its way to the flush callback, or was passed on after
that was unset: the operations there aggregate groups, and the operations held are among those of the groups of the signature. -/
theorem C108_sent (r : Reach K stops s1) (l12 : Later K stops s1 s2) (l23 : Later K stops s2 s3)
    (hf : fires s2.c.trace < fires s3.c.trace) (hidle : s3.timers = 0) (m : Mono K.envC.clk) (hexp : 0 ≤ K.cfgC.expirationMs)
    (hold : ∀ i, i < s1.c.check.tick → K.envC.clk i + K.cfgC.cyc K.cfgC.expirationMs.toNat < K.envC.clk s2.c.check.tick)
    (hacts : ∀ t ∈ s1.threads, ∀ a ∈ t, ¬ a.concerns K.cfgC.H k) (post : List (Ev D)) (hpost : s3.c.trace = s1.c.trace ++ post)
    (hno : ∀ e ∈ post, ¬ Concerns K.cfgC.H k e) :
    ∃ out ops, ops.Perm ((flushedChecks s3.c.trace ++ carriedChecks s3 ++ lostChecks s3).filterMap (·.operation)) ∧
      List.Forall₂ (Check.Group.Sum K.cfgC) out ops ∧
      (((heldSigs K.cfgC.H s3.c.trace ++ heldSigsSoon K.cfgC.H s3).filter (·.1 == k)).map (·.2)).Subperm
        ((out.filter (·.sig == k)).flatMap (·.ops)) :=
  sent_unless_cached (Later.reach (Later.reach r l12) l23) (C108_expired r l12 l23 hf hidle m hexp hold hacts post hpost hno)

/-- C108: in particular the log entries of the operations held for such a signature are among those sent, on their way, or passed on after the
callback was unset. -/
theorem C108_log_entries (r : Reach K stops s1) (l12 : Later K stops s1 s2) (l23 : Later K stops s2 s3)
    (hf : fires s2.c.trace < fires s3.c.trace) (hidle : s3.timers = 0) (m : Mono K.envC.clk) (hexp : 0 ≤ K.cfgC.expirationMs)
    (hold : ∀ i, i < s1.c.check.tick → K.envC.clk i + K.cfgC.cyc K.cfgC.expirationMs.toNat < K.envC.clk s2.c.check.tick)
    (hacts : ∀ t ∈ s1.threads, ∀ a ∈ t, ¬ a.concerns K.cfgC.H k) (post : List (Ev D)) (hpost : s3.c.trace = s1.c.trace ++ post)
    (hno : ∀ e ∈ post, ¬ Concerns K.cfgC.H k e) :
    ((((heldSigs K.cfgC.H s3.c.trace ++ heldSigsSoon K.cfgC.H s3).filter (·.1 == k)).map (·.2)).flatMap (·.logEntries)).Subperm
      (((flushedChecks s3.c.trace ++ carriedChecks s3 ++ lostChecks s3).filterMap (·.operation)).flatMap (·.logEntries)) := by
  obtain ⟨out, ops, h1, h2, h3⟩ := C108_sent r l12 l23 hf hidle m hexp hold hacts post hpost hno
  have hlogs : ops.flatMap (·.logEntries) = (out.flatMap (·.ops)).flatMap (·.logEntries) := by
    clear h1 h3
    induction h2 with
    | nil => rfl
    | cons h1 _ ih =>
      obtain ⟨x, xs, a, hops, hagg, rfl⟩ := h1
      simp only [List.flatMap_cons, List.flatMap_append, ih, hops]
      rw [(C19_log_entries K.cfgC.H K.cfgC.U K.cfgC.kinds x xs a hagg).1]
      simp
  have h4 := subperm_flatMap (fun o : Operation D => o.logEntries) h3
  have h5 : ((out.filter (·.sig == k)).flatMap (·.ops)).Sublist (out.flatMap (·.ops)) := sublist_flatMap _ List.filter_sublist
  refine (h4.trans (sublist_flatMap _ h5).subperm).trans ?_
  rw [← hlogs]
  exact (h1.flatMap_right _).subperm

/-! ### Example -/

instance (H : Bytes → Bytes) (k : Bytes) (e : Ev D) : Decidable (Concerns H k e) := by
  unfold Concerns
  split <;> infer_instance

/-- A check is held for longer than the expiration time; while the function called by the timer runs, another thread calls `Check` for another
signature. -/
example : ∃ s1 s3 post, Reach exKJ true s1 ∧ Later exKJ true s1 s3 ∧ fires s1.c.trace < fires s3.c.trace ∧ s3.timers = 0 ∧
    Mono exKJ.envC.clk ∧ 0 ≤ exKJ.cfgC.expirationMs ∧
    (∀ i, i < s1.c.check.tick → exKJ.envC.clk i + exKJ.cfgC.cyc exKJ.cfgC.expirationMs.toNat < exKJ.envC.clk s1.c.check.tick) ∧
    (∀ t ∈ s1.threads, ∀ a ∈ t, ¬ a.concerns exKJ.cfgC.H (checkRequestSig exKJ.cfgC.H (Check.exReq 1 6))) ∧
    s3.c.trace = s1.c.trace ++ post ∧ (∀ e ∈ post, ¬ Concerns exKJ.cfgC.H (checkRequestSig exKJ.cfgC.H (Check.exReq 1 6)) e) ∧
    Check.cachedSigs s1.c.check = [checkRequestSig exKJ.cfgC.H (Check.exReq 1 6)] ∧ flushedChecks s1.c.trace = [] ∧
    (heldSigs exKJ.cfgC.H s1.c.trace).map (·.2) = (Check.exReq 1 6).operation.toList ∧ (flushedChecks s3.c.trace).length = 1 ∧
    s3.threads.map (·.length) = [1, 0] := by
  obtain ⟨s, r, h⟩ := schedule_case (K := exKJ) (stops := true) exHeldOne
    (fun s => s.c.check.tick = 9 ∧ s.threads = [[], []] ∧ Check.cachedSigs s.c.check = [checkRequestSig exKJ.cfgC.H (Check.exReq 1 6)] ∧
      flushedChecks s.c.trace = [] ∧ (heldSigs exKJ.cfgC.H s.c.trace).map (·.2) = (Check.exReq 1 6).operation.toList ∧
      (match ([.fire 1, .work 1, .call 0 (exCheck 2 6) .default] ++ steps 1 2 ++ steps 0 2 ++ steps 1 6 : List (Move Int)).foldlM (fun s m => m.run exKJ true s) s with
      | some s3 => decide (fires s.c.trace < fires s3.c.trace ∧ s3.timers = 0 ∧ (flushedChecks s3.c.trace).length = 1 ∧
          s3.threads.map (·.length) = [1, 0] ∧ s3.c.trace = s.c.trace ++ s3.c.trace.drop s.c.trace.length ∧
          ∀ e ∈ s3.c.trace.drop s.c.trace.length, ¬ Concerns exKJ.cfgC.H (checkRequestSig exKJ.cfgC.H (Check.exReq 1 6)) e)
      | none => false) = true) (by decide +kernel)
  obtain ⟨h1, h2, h3, h4, h5, h6⟩ := h
  split at h6
  · rename_i s3 hs3
    obtain ⟨g1, g2, g3, g4, g5, g6⟩ := of_decide_eq_true h6
    refine ⟨s, s3, _, r, moves_later hs3, g1, g2, exJump_mono 9 (by decide), by decide, ?_, ?_, g5, g6, h3, h4, h5, g3, g4⟩
    · clear * - h1
      intro i hi
      rw [h1] at hi ⊢
      have e1 : exKJ.envC.clk i = 0 := if_pos hi
      rw [e1]
      decide
    · rw [h2]; simp
  · cases h6

end Verif.Threads
