/- Freshness under every schedule: what the cache answers is not older than the flush interval. -/
import Verif.Props.ThreadServed

namespace Verif.Threads
open Client Lru
variable {D : Type} [DoubleOps D] {K : Setup} {stops : Bool} {s s1 s2 s3 s' : Sys D} {k : Bytes}

/-- Completion callbacks are begun by transports only. -/
theorem exec_no_fin {a : Act D} {new : List (Act D)} {p : Pend D} {x : Answer} (h : exec K stops a s = some (.ok (s', new))) : .fin p x ∉ new := by
  intro hm
  have fC : ∀ {y s s' out fl}, aggC K y s = .ok (s', out, fl) → .fin p x ∉ fl := by
    intro y s s' out fl h hm
    obtain ⟨_, rs, _, rfl, _⟩ := aggC_ok h
    obtain ⟨_, _, g⟩ := List.mem_map.mp hm; cases g
  have fQ : ∀ {y s s' out fl}, aggQ K y s = .ok (s', out, fl) → .fin p x ∉ fl := by
    intro y s s' out fl h hm
    obtain ⟨_, rs, _, rfl, _⟩ := aggQ_ok h
    obtain ⟨_, _, g⟩ := List.mem_map.mp hm; cases g
  have fR : ∀ {y s s' out fl}, aggR K y s = .ok (s', out, fl) → .fin p x ∉ fl := by
    intro y s s' out fl h hm
    obtain ⟨_, rs, _, rfl, _⟩ := aggR_ok h
    obtain ⟨_, _, g⟩ := List.mem_map.mp hm; cases g
  cases a with
  | agg i x =>
    simp only [exec, this, Option.some.injEq] at h
    split at h
    · cases h
    · cases x <;> simp only [runCall, bind, Except.bind] at h <;> split at h <;> first | (cases h; done) | skip
      all_goals
        rename_i hv
        cases h
        rcases List.mem_append.mp hm with hm | hm
        · first | exact absurd hm (fC hv) | exact absurd hm (fQ hv) | exact absurd hm (fR hv)
        · simp at hm
  | fin p a =>
    simp only [exec, Option.some.injEq] at h
    unfold runFin at h
    simp only [bind, Except.bind] at h
    repeat' split at h
    all_goals first | (cases h; done) | (cases h; simp at hm; done) | skip
    all_goals
      rename_i hv
      cases h
      rcases List.mem_append.mp hm with hm | hm
      · first | exact absurd hm (fC hv) | exact absurd hm (fQ hv)
      · simp at hm
  | timer n =>
    simp only [exec, Option.some.injEq] at h
    unfold runTimer at h
    simp only [bind, Except.bind] at h
    repeat' split at h
    all_goals first | (cases h; done) | (cases h; simp at hm; done) | skip
    all_goals
      rename_i hv
      cases h
      rcases List.mem_append.mp hm with hm | hm
      · first | exact absurd hm (fC hv) | exact absurd hm (fQ hv) | exact absurd hm (fR hv)
      · simp at hm
  | destroy n =>
    simp only [exec] at h
    unfold runDestroy at h
    simp only [bind, Except.bind, unset] at h
    repeat' split at h
    all_goals first | (cases h; done) | (cases h; simp at hm; done) | skip
    all_goals
      rename_i hv
      simp only [Option.some.injEq] at h
      cases h
      rcases List.mem_append.mp hm with hm | hm
      · first | exact absurd hm (fC hv) | exact absurd hm (fQ hv) | exact absurd hm (fR hv)
      · simp at hm
  | free own th =>
    simp only [exec, bind, Except.bind, Option.some.injEq] at h
    split at h
    · cases h
    · split at h <;> cases h
      simp at hm
  | calling c =>
    simp only [exec, this] at h
    repeat' split at h
    all_goals first | (cases h; done) | skip
    all_goals
      simp only [Option.some.injEq, Except.ok.injEq, Prod.mk.injEq] at h
      obtain ⟨_, rfl⟩ := h
      simp at hm
  | result i c st' reply =>
    simp only [exec, this, Option.some.injEq] at h
    repeat' split at h
    all_goals first | (cases h; done) | skip
    all_goals
      simp only [Except.ok.injEq, Prod.mk.injEq] at h
      obtain ⟨_, rfl⟩ := h
      simp at hm
  | start i c t =>
    simp only [exec, this, Option.some.injEq] at h
    split at h
    · cases h
    · simp only [Except.ok.injEq, Prod.mk.injEq] at h
      obtain ⟨_, rfl⟩ := h
      split at hm <;> simp at hm
  | count i' c' xs =>
    cases xs <;> simp only [exec, this, Option.some.injEq] at h
    · cases h; simp at hm
    · split at h <;> cases h
      simp at hm
  | after k xs =>
    cases xs <;> simp only [exec, this, Option.some.injEq] at h
    · cases h; simp at hm
    · split at h <;> cases h
      simp at hm
  | finish i c st reply via =>
    simp only [exec] at h
    repeat' split at h
    all_goals first | (cases h; done) | (cases h; simp at hm)
  | wait i =>
    simp only [exec] at h
    split at h <;> cases h
    simp at hm
  | user => simp only [exec] at h; cases h; simp at hm
  | setValue i st => simp only [exec] at h; cases h; simp at hm
  | flush c =>
    simp only [exec] at h
    split at h <;> cases h
    simp at hm

/-- A call is answered OK without a transport as the cache has answered. -/
theorem exec_finish {a : Act D} {new : List (Act D)} {j : Nat} {c : Client.Call D} {reply : Reply} (h : exec K stops a s = some (.ok (s', new)))
    (hm : .finish j c .ok reply none ∈ new) : a = .result j c .ok reply := by
  have fC : ∀ {x s s' out fl}, aggC K x s = .ok (s', out, fl) → .finish j c .ok reply none ∉ fl := by
    intro x s s' out fl h hm
    obtain ⟨_, rs, _, rfl, _⟩ := aggC_ok h
    obtain ⟨_, _, g⟩ := List.mem_map.mp hm; cases g
  have fQ : ∀ {x s s' out fl}, aggQ K x s = .ok (s', out, fl) → .finish j c .ok reply none ∉ fl := by
    intro x s s' out fl h hm
    obtain ⟨_, rs, _, rfl, _⟩ := aggQ_ok h
    obtain ⟨_, _, g⟩ := List.mem_map.mp hm; cases g
  have fR : ∀ {x s s' out fl}, aggR K x s = .ok (s', out, fl) → .finish j c .ok reply none ∉ fl := by
    intro x s s' out fl h hm
    obtain ⟨_, rs, _, rfl, _⟩ := aggR_ok h
    obtain ⟨_, _, g⟩ := List.mem_map.mp hm; cases g
  cases a with
  | agg i x =>
    simp only [exec, this, Option.some.injEq] at h
    split at h
    · cases h
    · cases x <;> simp only [runCall, bind, Except.bind] at h <;> split at h <;> first | (cases h; done) | skip
      all_goals
        rename_i hv
        cases h
        rcases List.mem_append.mp hm with hm | hm
        · first | exact absurd hm (fC hv) | exact absurd hm (fQ hv) | exact absurd hm (fR hv)
        · simp at hm
  | fin p a =>
    simp only [exec, Option.some.injEq] at h
    unfold runFin at h
    simp only [bind, Except.bind] at h
    repeat' split at h
    all_goals first | (cases h; done) | (cases h; simp at hm; done) | skip
    all_goals
      rename_i hv
      cases h
      rcases List.mem_append.mp hm with hm | hm
      · first | exact absurd hm (fC hv) | exact absurd hm (fQ hv)
      · simp at hm
  | timer n =>
    simp only [exec, Option.some.injEq] at h
    unfold runTimer at h
    simp only [bind, Except.bind] at h
    repeat' split at h
    all_goals first | (cases h; done) | (cases h; simp at hm; done) | skip
    all_goals
      rename_i hv
      cases h
      rcases List.mem_append.mp hm with hm | hm
      · first | exact absurd hm (fC hv) | exact absurd hm (fQ hv) | exact absurd hm (fR hv)
      · simp at hm
  | destroy n =>
    simp only [exec] at h
    unfold runDestroy at h
    simp only [bind, Except.bind, unset] at h
    repeat' split at h
    all_goals first | (cases h; done) | (cases h; simp at hm; done) | skip
    all_goals
      rename_i hv
      simp only [Option.some.injEq] at h
      cases h
      rcases List.mem_append.mp hm with hm | hm
      · first | exact absurd hm (fC hv) | exact absurd hm (fQ hv) | exact absurd hm (fR hv)
      · simp at hm
  | free own th =>
    simp only [exec, bind, Except.bind, Option.some.injEq] at h
    split at h
    · cases h
    · split at h <;> cases h
      simp at hm
  | calling c =>
    simp only [exec, this] at h
    repeat' split at h
    all_goals first | (cases h; done) | skip
    all_goals
      simp only [Option.some.injEq, Except.ok.injEq, Prod.mk.injEq] at h
      obtain ⟨_, rfl⟩ := h
      simp at hm
  | result i c st' reply =>
    simp only [exec, this, Option.some.injEq] at h
    repeat' split at h
    all_goals first | (cases h; done) | skip
    all_goals
      simp only [Except.ok.injEq, Prod.mk.injEq] at h
      obtain ⟨_, rfl⟩ := h
      simp at hm
    obtain ⟨rfl, rfl, rfl, rfl⟩ := hm
    rfl
  | start i c t =>
    simp only [exec, this, Option.some.injEq] at h
    split at h
    · cases h
    · simp only [Except.ok.injEq, Prod.mk.injEq] at h
      obtain ⟨_, rfl⟩ := h
      split at hm <;> simp at hm
  | count i' c' xs =>
    cases xs <;> simp only [exec, this, Option.some.injEq] at h
    · cases h; simp at hm
    · split at h <;> cases h
      simp at hm
  | after k xs =>
    cases xs <;> simp only [exec, this, Option.some.injEq] at h
    · cases h; simp at hm
    · split at h <;> cases h
      simp at hm
  | finish i c st reply via =>
    simp only [exec] at h
    repeat' split at h
    all_goals first | (cases h; done) | (cases h; simp at hm)
  | wait i =>
    simp only [exec] at h
    split at h <;> cases h
    simp at hm
  | user => simp only [exec] at h; cases h; simp at hm
  | setValue i st => simp only [exec] at h; cases h; simp at hm
  | flush c =>
    simp only [exec] at h
    split at h <;> cases h
    simp at hm

/-- A transport was given a check of signature `k` for a call, or has completed one. -/
def Asked (H : Bytes → Bytes) (k : Bytes) : Ev D → Prop
  | .sent _ (some _) (.check r) => checkRequestSig H r = k
  | .completed _ (some _) (.check r) _ => checkRequestSig H r = k
  | _ => False

/-- A thread has been told by the cache to give a check of signature `k` to a transport, and is about to do it. -/
def Act.asking (H : Bytes → Bytes) (k : Bytes) : Act D → Prop
  | .result _ (.check r) .notFound _ => checkRequestSig H r = k
  | _ => False

/-- A completion callback of a check of signature `k` for a call. -/
def Act.finishing (H : Bytes → Bytes) (k : Bytes) (a : Act D) : Prop :=
  ∃ p b i r, a = .fin p b ∧ p.by_ = some i ∧ p.req = .check r ∧ checkRequestSig H r = k

/-- A thread told so gives the check to a transport next. -/
theorem exec_asking {H : Bytes → Bytes} {a : Act D} {new : List (Act D)} {evs : List (Ev D)} (h : exec K stops a s = some (.ok (s', new))) (ha : a.asking H k)
    (he : s'.c.trace = s.c.trace ++ evs) : ∃ e ∈ evs, Asked H k e := by
  unfold Act.asking at ha
  split at ha
  · rename_i i r reply
    simp only [exec, this, Option.some.injEq] at h
    split at h
    · cases h
    · simp only [if_true, Except.ok.injEq, Prod.mk.injEq] at h
      obtain ⟨rfl, rfl⟩ := h
      have h1 := (allocCall_ok (.check r) s.c).eq
      have h2 : (allocCall (.check r) s.c).2.trace = s.c.trace := by rw [h1]
      refine ⟨.sent s.c.sends (some i) (.check r), ?_, ha⟩
      have h3 : s.c.trace ++ evs = s.c.trace ++ [.sent s.c.sends (some i) (.check r)] := by
        rw [← he, ← h2]
        show _ ++ [_] = _
        rw [h1]
      rw [List.append_cancel_left h3]
      exact List.mem_singleton_self _
  · exact ha.elim

/-- A thread whose check the cache cannot answer is about to give it to a transport. -/
theorem exec_told {j : Nat} {r : CheckRequest D} {new : List (Act D)} {x out fl}
    (h : exec K stops (.agg j (.check r)) s = some (.ok (s', new))) (hs : Check.step K.envC K.cfgC (.check r) s.c.check = .ok (x, out, fl)) :
    ∃ reply, .result j (.check r) out.status reply ∈ new := by
  simp only [exec, this, Option.some.injEq] at h
  split at h
  · cases h
  · simp only [runCall, bind, Except.bind] at h
    split at h
    · cases h
    · rename_i hg
      cases h
      obtain ⟨b, rs, e, _, g⟩ := aggC_ok hg
      rw [g] at hs
      cases hs
      exact ⟨_, List.mem_append_right _ (List.mem_singleton_self _)⟩

/-- What the check aggregator was asked since `s1` that makes its answer for a signature fresh: there was a transport, or there will be one. -/
theorem later_refresh {h1 : Check.Hist D} (i1 : Reach K stops s1) (r1 : Check.Reach K.envC K.cfgC h1 s1.c.check) (l : Later K stops s1 s) :
    ∃ new post, s.c.trace = s1.c.trace ++ post ∧ Check.Reach K.envC K.cfgC (new ++ h1) s.c.check ∧ s1.c.check.tick ≤ s.c.check.tick ∧
      ∀ k, (∀ a ∈ s1.acts, ¬ a.finishing K.cfgC.H k) →
        (∀ ev ∈ new, Check.Refreshes K.cfgC k ev → (∃ e ∈ post, Asked K.cfgC.H k e) ∨ ∃ a ∈ s.acts, a.asking K.cfgC.H k) ∧
        ((∃ a ∈ s1.acts, a.asking K.cfgC.H k) → (∃ e ∈ post, Asked K.cfgC.H k e) ∨ ∃ a ∈ s.acts, a.asking K.cfgC.H k) ∧
        ((∃ a ∈ s.acts, a.finishing K.cfgC.H k) → ∃ e ∈ post, Asked K.cfgC.H k e) := by
  induction l with
  | refl => exact ⟨[], [], by simp, r1, Nat.le_refl _, fun k hk => ⟨by simp, .inr, fun ⟨a, h, h'⟩ => absurd h' (hk a h)⟩⟩
  | step l hs ih =>
    rename_i sa sb
    obtain ⟨new, post, ht, rc, htick, hk⟩ := ih
    have ra := Later.reach i1 l
    have out : ∀ {l1 l2 : List (List (Act D))} {t : List (Act D)} (nw : List (Act D)) (evs : List (Ev D)), sa.threads = l1 ++ t :: l2 → sb.threads = l1 ++ (nw ++ t) :: l2 →
        sb.c.check = sa.c.check → sb.c.trace = sa.c.trace ++ evs → (∀ k, ∀ a ∈ nw, a.finishing K.cfgC.H k → ∃ e ∈ evs, Asked K.cfgC.H k e) →
        ∃ new post, sb.c.trace = s1.c.trace ++ post ∧ Check.Reach K.envC K.cfgC (new ++ h1) sb.c.check ∧ s1.c.check.tick ≤ sb.c.check.tick ∧
          ∀ k, (∀ a ∈ s1.acts, ¬ a.finishing K.cfgC.H k) →
            (∀ ev ∈ new, Check.Refreshes K.cfgC k ev → (∃ e ∈ post, Asked K.cfgC.H k e) ∨ ∃ a ∈ sb.acts, a.asking K.cfgC.H k) ∧
            ((∃ a ∈ s1.acts, a.asking K.cfgC.H k) → (∃ e ∈ post, Asked K.cfgC.H k e) ∨ ∃ a ∈ sb.acts, a.asking K.cfgC.H k) ∧
            ((∃ a ∈ sb.acts, a.finishing K.cfgC.H k) → ∃ e ∈ post, Asked K.cfgC.H k e) := by
      intro l1 l2 t nw evs h1 h2 h3 h4 h5
      have hm : ∀ x, x ∈ sb.acts ↔ x ∈ nw ∨ x ∈ sa.acts := by
        intro x
        unfold Sys.acts
        rw [h1, h2, ← List.mem_append]
        exact acts_push.mem_iff
      have hmono : ∀ k, ((∃ e ∈ post, Asked K.cfgC.H k e) ∨ ∃ a ∈ sa.acts, a.asking K.cfgC.H k) →
          (∃ e ∈ post ++ evs, Asked K.cfgC.H k e) ∨ ∃ a ∈ sb.acts, a.asking K.cfgC.H k := by
        rintro k (⟨e, g1, g2⟩ | ⟨a, g1, g2⟩)
        · exact .inl ⟨e, List.mem_append_left _ g1, g2⟩
        · exact .inr ⟨a, (hm _).mpr (.inr g1), g2⟩
      refine ⟨new, post ++ evs, by rw [h4, ht, List.append_assoc], by rw [h3]; exact rc, by rw [h3]; exact htick, fun k h0 => ?_⟩
      obtain ⟨g1, g2, g3⟩ := hk k h0
      refine ⟨fun ev hev hr => hmono k (g1 ev hev hr), fun h => hmono k (g2 h), fun ⟨a, ha, hf⟩ => ?_⟩
      rcases (hm a).mp ha with ha | ha
      · obtain ⟨e, he, he'⟩ := h5 k a ha hf
        exact ⟨e, List.mem_append_right _ he, he'⟩
      · obtain ⟨e, he, he'⟩ := g3 ⟨a, ha, hf⟩
        exact ⟨e, List.mem_append_left _ he, he'⟩
    have nofin : ∀ {nw : List (Act D)} {evs : List (Ev D)}, (∀ p b, Act.fin p b ∉ nw) → ∀ k, ∀ a ∈ nw, a.finishing K.cfgC.H k → ∃ e ∈ evs, Asked K.cfgC.H k e := by
      intro nw evs h k a ha ⟨p, b, _, _, e, _⟩
      subst e
      exact absurd ha (h p b)
    cases hs with
    | work hth hex =>
      rename_i l1 a t l2 s' nw
      have hperm : (a :: (t ++ (l1 ++ l2).flatten)).Perm sa.acts := by
        unfold Sys.acts; rw [hth]
        exact (acts_at (t := a :: t)).symm
      have hperm' : (nw ++ (t ++ (l1 ++ l2).flatten)).Perm (l1 ++ (nw ++ t) :: l2).flatten := by
        refine List.Perm.symm (acts_at.trans ?_)
        rw [List.append_assoc]
      have hinv : Inv (a :: (t ++ (l1 ++ l2).flatten)) sa := ra.inv.perm hperm
      have hamem : a ∈ sa.acts := hperm.mem_iff.mp List.mem_cons_self
      obtain ⟨evs, hevs, hlog⟩ := exec_trace hex
      have htr : s'.c.trace = s1.c.trace ++ (post ++ evs) := by rw [hevs, ht, List.append_assoc]
      have hmono : ∀ k, ((∃ e ∈ post, Asked K.cfgC.H k e) ∨ ∃ a ∈ sa.acts, a.asking K.cfgC.H k) →
          (∃ e ∈ post ++ evs, Asked K.cfgC.H k e) ∨ ∃ a ∈ (l1 ++ (nw ++ t) :: l2).flatten, a.asking K.cfgC.H k := by
        rintro k (⟨e, g1, g2⟩ | ⟨x, g1, g2⟩)
        · exact .inl ⟨e, List.mem_append_left _ g1, g2⟩
        · rcases List.mem_cons.mp (hperm.mem_iff.mpr g1) with g3 | g3
          · subst g3
            obtain ⟨e, he, he'⟩ := exec_asking hex g2 hevs
            exact .inl ⟨e, List.mem_append_right _ he, he'⟩
          · exact .inr ⟨x, hperm'.mem_iff.mp (List.mem_append_right _ g3), g2⟩
      have hfin : ∀ k, ((∃ a ∈ sa.acts, a.finishing K.cfgC.H k) → ∃ e ∈ post, Asked K.cfgC.H k e) →
          (∃ a ∈ (l1 ++ (nw ++ t) :: l2).flatten, a.finishing K.cfgC.H k) → ∃ e ∈ post ++ evs, Asked K.cfgC.H k e := by
        intro k h ⟨x, hx, hf⟩
        rcases List.mem_append.mp (hperm'.mem_iff.mpr hx) with hx | hx
        · obtain ⟨p, b, _, _, rfl, _⟩ := hf
          exact absurd hx (exec_no_fin hex)
        · obtain ⟨e, he, he'⟩ := h ⟨x, hperm.mem_iff.mp (List.mem_cons_of_mem _ hx), hf⟩
          exact ⟨e, List.mem_append_left _ he, he'⟩
      obtain ⟨_, hch | ⟨x, o, fl, h2, h3⟩⟩ := exec_check hinv hex
      · refine ⟨new, post ++ evs, htr, ?_, ?_, fun k h0 => ?_⟩
        · show Check.Reach _ _ _ s'.c.check
          rw [hch]; exact rc
        · show _ ≤ s'.c.check.tick
          rw [hch]; exact htick
        · obtain ⟨g1, g2, g3⟩ := hk k h0
          exact ⟨fun ev hev hr => hmono k (g1 ev hev hr), fun h => hmono k (g2 h), hfin k g3⟩
      · refine ⟨_ :: new, post ++ evs, htr, rc.call h3, Nat.le_trans htick (Check.step_tick rc h3), fun k h0 => ?_⟩
        obtain ⟨g1, g2, g3⟩ := hk k h0
        refine ⟨fun ev hev hr => ?_, fun h => hmono k (g2 h), hfin k g3⟩
        rcases List.mem_cons.mp hev with rfl | hev
        · cases h2 with
          | @call j r =>
            obtain ⟨reply, hm⟩ := exec_told hex h3
            have hst : o.status = .notFound := hr.2 ⟨r, rfl⟩
            rw [hst] at hm
            exact .inr ⟨_, hperm'.mem_iff.mp (List.mem_append_left _ hm), hr.1.2⟩
          | @fin p b r i hreq hby hok =>
            obtain ⟨e, he, he'⟩ := g3 ⟨_, hamem, p, b, i, r, rfl, hby, hreq, hr.1⟩
            exact .inl ⟨e, List.mem_append_left _ he, he'⟩
          | timer => exact hr.1.elim
          | destroy => exact hr.1.elim
        · exact hmono k (g1 ev hev hr)
    | @call l1 t l2 c tr hth hfree hdy => exact out [.start sa.c.calls c (present K c tr)] [_] hth rfl rfl rfl (nofin (by simp))
    | @sync l1 t l2 c hth hfree hdy =>
      exact out [.start sa.c.calls c (present K c .default), .wait sa.c.calls] [_] hth rfl rfl rfl (nofin (by simp))
    | @complete l1 t l2 id a p c' hth hfree htake =>
      unfold Client.take at htake
      split at htake
      · cases htake
      · cases htake
        refine out [.fin p a] [_] hth rfl rfl rfl ?_
        intro k b hb ⟨p', b', i, r, e, e1, e2, e3⟩
        rw [List.mem_singleton] at hb
        rw [hb] at e
        cases e
        refine ⟨_, List.mem_singleton_self _, ?_⟩
        simp only [e1, e2]
        exact e3
    | @fire l1 t l2 hth hfree htm => exact out [.timer 0] [_] hth rfl rfl rfl (nofin (by simp))
    | @destroy l1 t l2 hth hfree hdy hapi => exact out [.destroy 0] [] hth rfl rfl (by simp) (nofin (by simp))
    | spawn =>
      have hm : ({ sa with threads := sa.threads ++ [[]] } : Sys D).acts = sa.acts := by simp [Sys.acts]
      refine ⟨new, post, ht, rc, htick, ?_⟩
      rw [hm]; exact hk

/-- A check answered OK without a transport was answered so by the cache, after the call was made. -/
theorem answered_by {j : Nat} {q : CheckRequest D} {b : Bool} {reply : Reply} {post : List (Ev D)} (r1 : Reach K stops s1) (l : Later K stops s1 s2)
    (hpost : s2.c.trace = s1.c.trace ++ post) (hcall : Ev.called j (.check q) b ∈ post) (hdone : Ev.done j (.check q) .ok reply none ∈ s2.c.trace) :
    ∃ sa x out fl, Later K stops s1 sa ∧ Later K stops sa s2 ∧ Check.step K.envC K.cfgC (.check q) sa.c.check = .ok (x, out, fl) ∧ out.status = .ok := by
  have r2 := Later.reach r1 l
  have hfresh : ∀ c b, Ev.called j c b ∉ s1.c.trace := by
    intro c b h
    have h1 := (C87_exactly_once r2 j).1
    have h2 := calls_pos h
    have h3 := calls_pos hcall
    rw [hpost] at h1
    unfold calls at h1 h2 h3
    rw [List.countP_append] at h1
    omega
  have hopen : ∀ {sb : Sys D}, Reach K stops sb → ∀ c u, (∃ a ∈ sb.acts, (j, c, u) ∈ a.opens) → ∃ b, Ev.called j c b ∈ sb.c.trace := by
    intro sb rb c u ⟨a, ha, ho⟩
    exact rb.inv.books.openOk j c u (List.mem_flatMap.mpr ⟨a, ha, ho⟩)
  by_contra H
  suffices key : ∀ sb, Later K stops s1 sb → Later K stops sb s2 → Ev.done j (.check q) .ok reply none ∉ sb.c.trace ∧
      Act.finish j (.check q) .ok reply none ∉ sb.acts ∧ Act.result j (.check q) .ok reply ∉ sb.acts from (key s2 l .refl).1 hdone
  intro sb l1
  induction l1 with
  | refl =>
    intro _
    refine ⟨fun h => ?_, fun h => ?_, fun h => ?_⟩
    · obtain ⟨⟨t, h1⟩, _⟩ := C87_done_reports r1 h
      exact hfresh _ _ h1
    · obtain ⟨t, h2⟩ := hopen r1 _ _ ⟨_, h, List.mem_singleton_self _⟩
      exact hfresh _ _ h2
    · obtain ⟨t, h2⟩ := hopen r1 _ _ ⟨_, h, List.mem_singleton_self _⟩
      exact hfresh _ _ h2
  | step la hs ih =>
    rename_i sa sb
    intro lb
    obtain ⟨ih1, ih2, ih3⟩ := ih (Later.trans (Later.refl.step hs) lb)
    have out : ∀ {l1 l2 : List (List (Act D))} {t : List (Act D)} (nw : List (Act D)) (evs : List (Ev D)), sa.threads = l1 ++ t :: l2 → sb.threads = l1 ++ (nw ++ t) :: l2 →
        sb.c.trace = sa.c.trace ++ evs → Ev.done j (.check q) .ok reply none ∉ evs → Act.finish j (.check q) .ok reply none ∉ nw → Act.result j (.check q) .ok reply ∉ nw →
        Ev.done j (.check q) .ok reply none ∉ sb.c.trace ∧ Act.finish j (.check q) .ok reply none ∉ sb.acts ∧ Act.result j (.check q) .ok reply ∉ sb.acts := by
      intro l1 l2 t nw evs h1 h2 h3 h4 h5 h6
      have hm : ∀ x, x ∈ sb.acts ↔ x ∈ nw ∨ x ∈ sa.acts := by
        intro x
        unfold Sys.acts
        rw [h1, h2, ← List.mem_append]
        exact acts_push.mem_iff
      refine ⟨fun h => ?_, fun h => ?_, fun h => ?_⟩
      · rw [h3] at h
        exact (List.mem_append.mp h).elim ih1 h4
      · exact ((hm _).mp h).elim h5 ih2
      · exact ((hm _).mp h).elim h6 ih3
    cases hs with
    | work hth hex =>
      rename_i l1 a t l2 s' nw
      have hperm : (a :: (t ++ (l1 ++ l2).flatten)).Perm sa.acts := by
        unfold Sys.acts; rw [hth]
        exact (acts_at (t := a :: t)).symm
      have hperm' : (nw ++ (t ++ (l1 ++ l2).flatten)).Perm (l1 ++ (nw ++ t) :: l2).flatten := by
        refine List.Perm.symm (acts_at.trans ?_)
        rw [List.append_assoc]
      have hamem : a ∈ sa.acts := hperm.mem_iff.mp List.mem_cons_self
      have old : ∀ x, x ∈ t ++ (l1 ++ l2).flatten → x ∈ sa.acts := fun x hx => hperm.mem_iff.mp (List.mem_cons_of_mem _ hx)
      obtain ⟨evs, hevs, hlog⟩ := exec_trace hex
      refine ⟨fun h => ?_, fun h => ?_, fun h => ?_⟩
      · replace h : Ev.done j (.check q) .ok reply none ∈ s'.c.trace := h
        rw [hevs] at h
        rcases List.mem_append.mp h with h | h
        · exact ih1 h
        · have := hlog _ h
          simp only [Logged] at this
          rw [this] at hamem
          exact ih2 hamem
      · rcases List.mem_append.mp (hperm'.mem_iff.mpr h) with h | h
        · rw [exec_finish hex h] at hamem
          exact ih3 hamem
        · exact ih2 (old _ h)
      · rcases List.mem_append.mp (hperm'.mem_iff.mpr h) with h | h
        · obtain ⟨_, g⟩ := exec_result hex h
          obtain ⟨o, fl, g1, g2⟩ := g q rfl
          exact H ⟨sa, _, o, fl, la, Later.trans (Later.refl.step (.work hth hex)) lb, g1, g2⟩
        · exact ih3 (old _ h)
    | @call l1 t l2 c tr hth hfree hdy => exact out [.start sa.c.calls c (present K c tr)] [_] hth rfl rfl (by simp) (by simp) (by simp)
    | @sync l1 t l2 c hth hfree hdy =>
      exact out [.start sa.c.calls c (present K c .default), .wait sa.c.calls] [_] hth rfl rfl (by simp) (by simp) (by simp)
    | @complete l1 t l2 id a p c' hth hfree htake =>
      unfold Client.take at htake
      split at htake
      · cases htake
      · cases htake
        exact out [.fin p a] [_] hth rfl rfl (by simp) (by simp) (by simp)
    | @fire l1 t l2 hth hfree htm => exact out [.timer 0] [_] hth rfl rfl (by simp) (by simp) (by simp)
    | @destroy l1 t l2 hth hfree hdy hapi => exact out [.destroy 0] [] hth rfl (by simp) (by simp) (by simp) (by simp)
    | spawn =>
      have hm : ({ sa with threads := sa.threads ++ [[]] } : Sys D).acts = sa.acts := by simp [Sys.acts]
      rw [hm]
      exact ⟨ih1, ih2, ih3⟩

/-- C124: what the cache answers is not older than the flush interval, whatever other threads do: if a check is answered OK without a transport, then
since any moment at least the flush interval before the call was made, a transport was given or has completed a check of the same signature, or some
thread has been told to give it one and is about to do it. -/
theorem C124_fresh (r1 : Reach K stops s1) (l12 : Later K stops s1 s2) (l23 : Later K stops s2 s3) (m : Mono K.envC.clk)
    {post13 post23 : List (Ev D)} (h13 : s3.c.trace = s1.c.trace ++ post13) (h23 : s3.c.trace = s2.c.trace ++ post23)
    {j : Nat} {q : CheckRequest D} {b : Bool} {reply : Reply}
    (hold : ∀ t, t < s1.c.check.tick → K.envC.clk t + 1000 * K.cfgC.flushMs ≤ K.envC.clk s2.c.check.tick)
    (hdones : ∀ id i r a, Ev.completed id (some i) (.check r) a ∈ s1.c.trace → checkRequestSig K.cfgC.H r = checkRequestSig K.cfgC.H q →
      ∃ c st reply via, Ev.done i c st reply via ∈ s1.c.trace)
    (hcall : Ev.called j (.check q) b ∈ post23) (hdone : Ev.done j (.check q) .ok reply none ∈ s3.c.trace) :
    (∃ e ∈ post13, Asked K.cfgC.H (checkRequestSig K.cfgC.H q) e) ∨ ∃ a ∈ s3.acts, a.asking K.cfgC.H (checkRequestSig K.cfgC.H q) := by
  have r2 := Later.reach r1 l12
  obtain ⟨hc, _, _, k1⟩ := r1.links
  obtain ⟨sa, x, out, fl, la, lb, hstep, hok⟩ := answered_by r2 l23 h23 hcall hdone
  have l1a := Later.trans l12 la
  have ra := Later.reach r2 la
  obtain ⟨new, post, ht, rc, _, hk⟩ := later_refresh r1 (links_check k1) l1a
  have hnofin : ∀ {sx : Sys D}, Reach K stops sx → ∀ {a : Act D}, a ∈ sx.acts → a.finishing K.cfgC.H (checkRequestSig K.cfgC.H q) →
      ∃ id i r b, Ev.completed id (some i) (.check r) b ∈ sx.c.trace ∧ checkRequestSig K.cfgC.H r = checkRequestSig K.cfgC.H q ∧ dones i sx.c.trace = 0 := by
    intro sx rx a ha ⟨p, b, i, r, e, e1, e2, e3⟩
    subst e
    have g := rx.inv.acts _ ha
    simp only [Act.Ok, e1, e2] at g
    refine ⟨p.id, i, r, b, g, e3, ?_⟩
    have b' := rx.inv.books.account i
    have h2 : 0 < openN i (opensOf sx.acts) :=
      List.countP_pos_iff.mpr ⟨(i, p.req, false), List.mem_flatMap.mpr ⟨_, ha, by simp [Act.opens, openOf, e1]⟩, by simp⟩
    have h3 : issued i sx.c.calls ≤ 1 := by unfold issued; split <;> omega
    omega
  have h0 : ∀ a ∈ s1.acts, ¬ a.finishing K.cfgC.H (checkRequestSig K.cfgC.H q) := by
    intro a ha hf
    obtain ⟨id, i, r, b, g1, g2, g3⟩ := hnofin r1 ha hf
    obtain ⟨c, st, reply, via, g4⟩ := hdones id i r b g1 g2
    have : 0 < dones i s1.c.trace := List.countP_pos_iff.mpr ⟨_, g4, by simp [Ev.doneNo]⟩
    omega
  obtain ⟨g1, _, _⟩ := hk _ h0
  obtain ⟨ev, i, t, hlast, hreads, ht1, _, hlt⟩ := Check.C33_served_fresh rc q hstep hok
  have hev : ev ∈ new ++ hc := List.mem_of_find?_eq_some hlast
  have href : Check.Refreshes K.cfgC (checkRequestSig K.cfgC.H q) ev := by
    have := List.find?_some hlast
    exact of_decide_eq_true this
  have hnew : ev ∈ new := by
    rcases List.mem_append.mp hev with h | h
    · exact h
    · exfalso
      have h1 := (links_check k1).tick_le ev h
      have h2 := hold i (Nat.lt_of_lt_of_le hreads.2 h1)
      obtain ⟨_, _, _, _, h3, _⟩ := later_refresh r2 (links_check r2.links.choose_spec.choose_spec.choose_spec) la
      have h4 := m.le (Nat.le_trans h3 ht1)
      omega
  -- from the answer to the end
  obtain ⟨pb, hpb⟩ := Later.trace lb
  have hpost : post13 = post ++ pb := by
    rw [ht, List.append_assoc, h13] at hpb
    exact List.append_cancel_left hpb
  rcases g1 ev hnew href with ⟨e, g2, g3⟩ | g2
  · exact .inl ⟨e, by rw [hpost]; exact List.mem_append_left _ g2, g3⟩
  · obtain ⟨_, _, _, ka⟩ := ra.links
    obtain ⟨n2, p2, t2, _, _, hk2⟩ := later_refresh ra (links_check ka) lb
    have hp2 : pb = p2 := by rw [hpb] at t2; exact List.append_cancel_left t2
    by_cases hf : ∃ a ∈ sa.acts, a.finishing K.cfgC.H (checkRequestSig K.cfgC.H q)
    · obtain ⟨e, g4, g5⟩ := (hk _ h0).2.2 hf
      exact .inl ⟨e, by rw [hpost]; exact List.mem_append_left _ g4, g5⟩
    · rcases (hk2 _ (fun a ha hfa => hf ⟨a, ha, hfa⟩)).2.1 g2 with ⟨e, g4, g5⟩ | g4
      · exact .inl ⟨e, by rw [hpost, hp2]; exact List.mem_append_right _ g4, g5⟩
      · exact .inr g4

/-! ### Example -/

/-- A clock by which more than the flush interval passes after the sixth reading. -/
def exKJump : Setup := { exK with envC := { Quota.exEnv with clk := fun t => if t < 6 then (t : Int) else 6000 + t } }

theorem exKJump_mono : Mono exKJump.envC.clk := by
  constructor
  · simp [exKJump]
  · intro i
    simp only [exKJump]
    split <;> split <;> omega

/-- Every completed check of the user has its done callback. -/
def DoneIn (tr : List (Ev D)) : Ev D → Prop
  | .completed _ (some i) (.check _) _ => 0 < dones i tr
  | _ => True

instance (tr : List (Ev D)) (e : Ev D) : Decidable (DoneIn tr e) := by
  unfold DoneIn
  split <;> infer_instance

/-- C124: all its hypotheses hold: a check is answered by a transport; after more than the flush interval a second one of the same signature is told by the
cache to ask again, and while its thread has not yet come to that, a third one is answered from the cache; when it has, it has been sent. -/
example : ∃ (s1 s2 s3 s4 : Sys Int) (post13 post23 : List (Ev Int)) (reply : Reply), Reach exKJump true s1 ∧ Later exKJump true s1 s2 ∧
    Later exKJump true s2 s3 ∧ Later exKJump true s3 s4 ∧ Mono exKJump.envC.clk ∧ s3.c.trace = s1.c.trace ++ post13 ∧ s3.c.trace = s2.c.trace ++ post23 ∧
    (∀ t, t < s1.c.check.tick → exKJump.envC.clk t + 1000 * exKJump.cfgC.flushMs ≤ exKJump.envC.clk s2.c.check.tick) ∧
    (∀ id i r a, Ev.completed id (some i) (.check r) a ∈ s1.c.trace → ∃ c st reply via, Ev.done i c st reply via ∈ s1.c.trace) ∧
    Ev.called 2 (exCheck 1 7) true ∈ post23 ∧ Ev.done 2 (exCheck 1 7) .ok reply none ∈ s3.c.trace ∧
    sends 1 s3.c.trace = 0 ∧ sends 1 s4.c.trace = 1 := by
  obtain ⟨s, r, h⟩ := schedule_case (K := exKJump) (stops := true)
    ([.spawn, .spawn, .call 0 (exCheck 1 5) .default] ++ steps 0 6 ++ [.complete 1 0 exOk] ++ steps 1 4)
    (fun s => (match ([.call 0 (exCheck 1 6) .default] : List (Move Int)).foldlM (fun s m => m.run exKJump true s) s with
      | some s2 =>
        (match ([.work 0, .work 0, .call 1 (exCheck 1 7) .default, .work 1, .work 1, .work 1, .work 1] :
            List (Move Int)).foldlM (fun s m => m.run exKJump true s) s2 with
        | some s3 =>
          (match ([.work 0] : List (Move Int)).foldlM (fun s m => m.run exKJump true s) s3 with
          | some s4 => decide (s3.c.trace = s.c.trace ++ s3.c.trace.drop s.c.trace.length ∧ s3.c.trace = s2.c.trace ++ s3.c.trace.drop s2.c.trace.length ∧
              (s.c.check.tick ≤ 6 ∧ 6 ≤ s2.c.check.tick) ∧ (∀ e ∈ s.c.trace, DoneIn s.c.trace e) ∧
              Ev.called 2 (exCheck 1 7) true ∈ s3.c.trace.drop s2.c.trace.length ∧
              Ev.done 2 (exCheck 1 7) .ok (.check exOk.check) none ∈ s3.c.trace ∧ sends 1 s3.c.trace = 0 ∧ sends 1 s4.c.trace = 1)
          | none => false)
        | none => false)
      | none => false) = true) (by decide +kernel)
  split at h
  · rename_i s2 hs2
    split at h
    · rename_i s3 hs3
      split at h
      · rename_i s4 hs4
        obtain ⟨g1, g2, ⟨g3, g3'⟩, g4, g5, g6, g7, g8⟩ := of_decide_eq_true h
        refine ⟨s, s2, s3, s4, _, _, _, r, moves_later hs2, moves_later hs3, moves_later hs4, exKJump_mono, g1, g2, fun t ht => ?_, fun id i r a hm => ?_, g5, g6, g7, g8⟩
        · have hf : exKJump.cfgC.flushMs = 5 := rfl
          rw [hf]
          simp only [exKJump]
          rw [if_pos (by omega), if_neg (by omega)]
          omega
        · have := g4 _ hm
          simp only [DoneIn] at this
          obtain ⟨e, he, hd⟩ := List.countP_pos_iff.mp this
          cases e <;> simp [Ev.doneNo] at hd
          subst hd
          exact ⟨_, _, _, _, he⟩
      · cases h
    · cases h
  · cases h

end Verif.Threads
