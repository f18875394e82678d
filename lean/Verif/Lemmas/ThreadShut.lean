import Verif.Lemmas.ThreadLinks
import Verif.Props.Client
/-
The links hold in every state; the shutdown of a client used by many threads.
-/
set_option linter.unusedSectionVars false
namespace Verif.Threads
open Client
variable {D : Type} [DoubleOps D] {K : Setup} {stops : Bool} {hc : Check.Hist D} {hq : Quota.Hist D} {hr : Report.Hist D}

theorem Links.pad {A : List (Act D)} {s : Sys D} (l : Links K hc hq hr A s) : Links K hc hq hr (.user :: A) s :=
  ⟨l.c, l.q, l.r, l.items, l.ans, l.cachedC, l.cachedQ, by
    intro a ha
    rcases List.mem_cons.mp ha with rfl | ha
    · trivial
    · exact l.backed a ha, l.ok, l.gone, l.dead, by
    intro n hn
    rcases List.mem_cons.mp hn with h | h
    · cases h
    · exact l.stopped n h, l.comps, l.asks⟩

theorem Links.threads {A : List (Act D)} {s : Sys D} (l : Links K hc hq hr A s) (t : List (List (Act D))) :
    Links K hc hq hr A { s with threads := t } :=
  ⟨l.c, l.q, l.r, l.items, l.ans, l.cachedC, l.cachedQ, l.backed, l.ok, l.gone, l.dead, l.stopped, l.comps, l.asks⟩

/-- Where a thread's new code goes. -/
theorem acts_push {l1 l2 : List (List (Act D))} {new t : List (Act D)} :
    ((l1 ++ (new ++ t) :: l2).flatten).Perm (new ++ (l1 ++ t :: l2).flatten) := by
  refine acts_at.trans ?_
  rw [List.append_assoc]
  exact List.Perm.append_left _ acts_at.symm

theorem step_links {s s' : Sys D} (i : Inv s.acts s) (l : Links K hc hq hr s.acts s) (h : Step K stops s s') :
    ∃ hc' hq' hr', Grow hc hq hr hc' hq' hr' ∧ Links K hc' hq' hr' s'.acts s' := by
  have halive : s.dying = false → s.c.alive = true := by
    intro hdy
    cases ha : s.c.alive with
    | true => rfl
    | false => have := (i.life.dead ha).1; rw [hdy] at this; cases this
  cases h with
  | work hth hex =>
    rename_i l1 a t l2 s1 new
    have hperm : (a :: (t ++ (l1 ++ l2).flatten)).Perm s.acts := by
      unfold Sys.acts; rw [hth]
      exact (acts_at (t := a :: t)).symm
    obtain ⟨hc', hq', hr', hg, l2⟩ := exec_links (i.perm hperm) (l.perm hperm) hex
    refine ⟨hc', hq', hr', hg, (l2.threads _).perm ?_⟩
    refine acts_at.trans ?_
    rw [List.append_assoc]
  | @call l1 t l2 c tr hth hfree hdy =>
    have hal := halive hdy
    have l2 := l.pad.next (new := [.start s.c.calls c (present K c tr)])
      (s' := { s with c := { s.c.log (.called s.c.calls c (present K c tr)) with calls := s.c.calls + 1 } })
      rfl rfl rfl (evs := [.called s.c.calls c (present K c tr)]) rfl (dr := []) (by simp) (List.Perm.refl _) (List.Perm.refl _) (by simp [Act.Backed, Client.Client.log])
      (.inr ⟨_, rfl, ⟨by simp, by simp, fun hd => absurd hd (l.gone.mp hal)⟩⟩) (.inl ⟨rfl, by simp⟩) (.inl rfl) (by simp) (fun h => .inl h)
    refine ⟨_, _, _, .same, (l2.threads _).perm ?_⟩
    refine (acts_push (new := [_])).trans ?_
    unfold Sys.acts; rw [hth]
  | @sync l1 t l2 c hth hfree hdy =>
    have hal := halive hdy
    have l2 := l.pad.next (new := [.start s.c.calls c (present K c .default), .wait s.c.calls])
      (s' := { s with
        c := { s.c.log (.called s.c.calls c (present K c .default)) with calls := s.c.calls + 1 }
        syncs := s.syncs ++ [s.c.calls]
        frames := s.frames ++ [(s.c.calls, true)] })
      rfl rfl rfl (evs := [.called s.c.calls c (present K c .default)]) rfl (dr := []) (by simp) (List.Perm.refl _) (List.Perm.refl _) (by simp [Act.Backed, Client.Client.log])
      (.inr ⟨_, rfl, ⟨by simp, by simp, fun hd => absurd hd (l.gone.mp hal)⟩⟩) (.inl ⟨rfl, by simp⟩) (.inl rfl) (by simp) (fun h => .inl h)
    refine ⟨_, _, _, .same, (l2.threads _).perm ?_⟩
    refine (acts_push (new := [_, _])).trans ?_
    unfold Sys.acts; rw [hth]
  | @complete l1 t l2 id a p c' hth hfree htake =>
    obtain ⟨he, hp, hb⟩ := i.books.take htake
    have l2 := l.pad.next (new := [.fin p a]) (s' := { s with c := c' }) (by rw [he]; rfl) (by rw [he]; rfl) (by rw [he]; rfl)
      (evs := [.completed p.id p.by_ p.req a]) (by rw [he]; rfl) (dr := []) (by simp) (List.Perm.refl _) (List.Perm.refl _) (by simp [Act.Backed])
      (.inr ⟨_, rfl, ⟨by simp, by simp, fun _ => rfl⟩⟩) (.inl ⟨by rw [he]; rfl, by simp⟩) (.inl (by rw [he]; rfl)) (by simp) (fun h => .inl (by rw [he] at h; exact h))
      (by cases hreq : p.req <;> simp [Act.comps, compsOf, hreq])
    refine ⟨_, _, _, .same, (l2.threads _).perm ?_⟩
    refine (acts_push (new := [_])).trans ?_
    unfold Sys.acts; rw [hth]
  | @fire l1 t l2 hth hfree htm =>
    have hal : s.c.alive = true := by
      cases ha : s.c.alive with
      | true => rfl
      | false => exact absurd (l.dead ha) htm
    have l2 := l.pad.next (new := [.timer 0]) (s' := { s with c := s.c.log .fired, timers := s.timers + 1 }) rfl rfl rfl
      (evs := [.fired]) rfl (dr := []) (by simp) (List.Perm.refl _) (List.Perm.refl _) (by simp [Act.Backed])
      (.inr ⟨_, rfl, ⟨by simp, by simp, fun hd => absurd hd (l.gone.mp hal)⟩⟩) (.inl ⟨rfl, by simp⟩) (.inl rfl) (by simp) (fun h => .inl h)
    refine ⟨_, _, _, .same, (l2.threads _).perm ?_⟩
    refine (acts_push (new := [_])).trans ?_
    unfold Sys.acts; rw [hth]
  | @destroy l1 t l2 hth hfree hdy hapi =>
    have l2 := l.pad.next (new := [.destroy 0]) (s' := { s with dying := true }) rfl rfl rfl
      (evs := []) (by simp) (dr := []) (by simp) (List.Perm.refl _) (List.Perm.refl _) (by simp [Act.Backed])
      (.inl rfl) (.inl ⟨rfl, by simp⟩) (.inl rfl) (by rintro n hn; simp at hn; omega) (fun h => .inl h)
    refine ⟨_, _, _, .same, (l2.threads _).perm ?_⟩
    refine (acts_push (new := [_])).trans ?_
    unfold Sys.acts; rw [hth]
  | spawn =>
    refine ⟨_, _, _, .same, (l.threads _).perm ?_⟩
    show (s.threads ++ [[]]).flatten.Perm s.threads.flatten
    simp

theorem Links.new {c : Client D} (h : Client.new K = .ok c) : Links K [] [] [] (Sys.new c).acts (Sys.new c) := by
  unfold Client.new at h
  cases h1 : Check.new (D := D) K.envC K.cfgC <;> simp only [h1, bind, Except.bind, reduceCtorEq] at h
  cases h2 : Quota.new (D := D) K.envQ K.cfgQ (K.depth + 1) <;> simp only [h2, reduceCtorEq] at h
  cases h3 : Report.new (D := D) K.envR K.cfgR <;> simp only [h3, reduceCtorEq] at h
  cases h
  have c1 := Check.Reach.init h1
  have c2 := Quota.Reach.init h2
  have c3 := Report.Reach.init h3
  refine ⟨⟨c1, rfl⟩, ⟨c2, rfl⟩, ⟨c3, rfl⟩, ?_, ?_, by simp, by simp, ?_, ?_, ?_, ?_, ?_, ?_, ?_⟩ <;>
    simp [Sys.acts, Sys.new, flushedCalls, asked, reqsC, reqsQ, reqsR, answers, answersC, answersQ, answersR, storesQ, compsOf, Quota.requests]

theorem Reach.links {s : Sys D} (r : Reach K stops s) : ∃ hc hq hr, Links K hc hq hr s.acts s := by
  induction r with
  | new h => exact ⟨_, _, _, .new h⟩
  | step r h ih =>
    obtain ⟨hc, hq, hr, l⟩ := ih
    obtain ⟨_, _, _, _, l'⟩ := step_links r.inv l h
    exact ⟨_, _, _, l'⟩

/-! ### Reports at the end -/

/-- `Flush` leaves an empty cache empty. -/
theorem flush_keeps_empty {E : Lru.Env} {cfg : AggConfig} {h : Report.Hist D} {s s' : AggState (OpAgg D)} (r : Report.Reach E cfg h s) {st : Status}
    {fl : List (ReportRequest D)} (he : Report.cachedOps cfg s = []) (hs : Report.step E cfg .flush s = .ok (s', st, fl)) :
    Report.cachedOps cfg s' = [] := by
  have hi := r.inv
  simp only [Report.step, Report.flush, withBuffer] at hs
  cases hc : s.cache with
  | none => rw [hc] at hs; cases hs; simp [Report.cachedOps, hc]
  | some cc =>
    obtain ⟨hn, arr, out, grp, L, ha, q, g, hsort⟩ := hi.some cc hc
    have hL : L = [] := by
      rw [Report.cachedOps_eq hc q] at he
      simpa using he
    subst hL
    obtain ⟨w', h1, q1, t1, e1, _⟩ := Lru.removeExpired_quiet E (Report.addDel cfg)
      { cache := cc, tick := s.tick, ext := some [] } q (fun _ => by simp [Lru.Sorted])
    rw [hc] at hs
    simp only [Report.onDelete_eq, h1, bind, Except.bind] at hs
    cases hs
    rw [Report.cachedOps_eq (s := { s with cache := some w'.cache, tick := w'.tick }) rfl q1]
    simp [Lru.keepOf]

/-- Code during which reports are flushed. -/
def Act.source : Act D → Bool
  | .timer _ => true
  | .destroy n => decide (n ≤ 3)
  | a => a.api

/-- The piece of code has a report for the flush callback. -/
def Act.brings (a : Act D) : Prop := ∃ r, a = .flush (.report r) ∨ a = .calling (.report r)

/-- Reports for the flush callback are brought by the code below. -/
def Par : List (Act D) → Prop
  | [] => True
  | a :: t => (a.brings → ∃ b ∈ t, b.source = true) ∧ Par t

theorem Par.skip {a : Act D} {t : List (Act D)} (h : Par t) (ha : ¬ a.brings) : Par (a :: t) := ⟨fun hb => absurd hb ha, h⟩

theorem Par.flushes {R : Type} (f : R → Call D) (rs : List R) {t : List (Act D)} (h : Par t) (ht : ∃ b ∈ t, b.source = true) :
    Par (rs.map (fun r => Act.flush (f r)) ++ t) := by
  induction rs with
  | nil => exact h
  | cons r rs ih =>
    refine ⟨fun _ => ?_, ih⟩
    obtain ⟨b, hb, hs⟩ := ht
    exact ⟨b, List.mem_append_right _ hb, hs⟩

theorem Par.others {R : Type} (f : R → Call D) (hf : ∀ r q, f r ≠ .report q) (rs : List R) {t : List (Act D)} (h : Par t) :
    Par (rs.map (fun r => Act.flush (f r)) ++ t) := by
  induction rs with
  | nil => exact h
  | cons r rs ih =>
    refine ⟨fun ⟨q, hq⟩ => ?_, ih⟩
    rcases hq with hq | hq
    · simp only [Act.flush.injEq] at hq; exact absurd hq (hf r q)
    · cases hq

theorem Par.one {a : Act D} {t : List (Act D)} (h : Par t) (ha : ∀ c, a ≠ .flush c ∧ a ≠ .calling c) : Par (a :: t) :=
  h.skip (by rintro ⟨r, h | h⟩; exacts [(ha _).1 h, (ha _).2 h])

theorem exec_par {a : Act D} {s s' : Sys D} {new t : List (Act D)} (h : exec K stops a s = some (.ok (s', new))) (hp : Par (a :: t)) :
    Par (new ++ t) := by
  have ht := hp.2
  have two : ∀ {a b : Act D} {t}, (∀ c, a ≠ .flush c ∧ a ≠ .calling c) → (∀ c, b ≠ .flush c ∧ b ≠ .calling c) → Par t → Par ([a, b] ++ t) :=
    fun h1 h2 ht => Par.one (Par.one ht h2) h1
  cases a with
  | user => simp only [exec] at h; cases h; exact ht
  | start j c t =>
    simp only [exec, this, Option.some.injEq] at h
    split at h
    · cases h
    · cases h
      split
      · exact ht.one (by simp)
      · exact ht.one (by simp)
  | agg j c =>
    simp only [exec, this, Option.some.injEq] at h
    split at h
    · cases h
    · cases c with
      | check r =>
        simp only [runCall, bind, Except.bind] at h
        cases hg : aggC K (.check r) s with
        | error e => rw [hg] at h; cases h
        | ok v =>
          rw [hg] at h; cases h
          obtain ⟨_, rs, _, hf, _⟩ := aggC_ok hg
          rw [List.append_assoc, hf]
          exact Par.others _ (by simp) rs (Par.one ht (by simp))
      | quota r =>
        simp only [runCall, bind, Except.bind] at h
        cases hg : aggQ K (.quota r) s with
        | error e => rw [hg] at h; cases h
        | ok v =>
          rw [hg] at h; cases h
          obtain ⟨_, rs, _, hf, _⟩ := aggQ_ok hg
          rw [List.append_assoc, hf]
          exact Par.others _ (by simp) rs (Par.one ht (by simp))
      | report r =>
        simp only [runCall, bind, Except.bind] at h
        cases hg : aggR K (.report r) s with
        | error e => rw [hg] at h; cases h
        | ok v =>
          rw [hg] at h; cases h
          obtain ⟨_, rs, _, hf, _⟩ := aggR_ok hg
          rw [List.append_assoc, hf]
          exact Par.flushes _ rs (Par.one ht (by simp)) ⟨_, List.mem_cons_self, rfl⟩
  | result j c st reply =>
    simp only [exec, this, Option.some.injEq] at h
    split at h
    · cases h
    · split at h
      · cases h; exact two (by simp) (by simp) ht
      · cases h; exact ht.one (by simp)
  | count i' c' xs =>
    cases xs with
    | nil => simp only [exec] at h; cases h; exact ht
    | cons x xs =>
      simp only [exec, this, Option.some.injEq] at h
      split at h
      · cases h
      · cases h; exact ht.one (by simp)
  | finish j c st reply via =>
    simp only [exec] at h
    split at h
    · split at h
      · cases h
      · cases h
      · cases h; exact ht.one (by simp)
    · cases h; exact ht.one (by simp)
  | setValue j st => simp only [exec] at h; cases h; exact ht
  | wait j =>
    simp only [exec] at h
    split at h
    · cases h
    · cases h; exact ht
  | fin p a =>
    simp only [exec, Option.some.injEq] at h
    unfold runFin at h
    split at h
    · split at h
      · simp only [bind, Except.bind] at h
        split at h
        · cases h
        · rename_i r _ _ _ _ _ _ _
          cases hg : aggC K (.cacheResponse r a.check) s with
          | error e => rw [hg] at h; cases h
          | ok v =>
            rw [hg] at h; cases h
            obtain ⟨_, rs, _, hf, _⟩ := aggC_ok hg
            rw [List.append_assoc, hf]
            exact Par.others _ (by simp) rs (two (by simp) (by simp) ht)
      · cases h; exact two (by simp) (by simp) ht
    · simp only [bind, Except.bind] at h
      split at h
      · cases h
      · split at h
        · cases h
        · rename_i hg
          cases h
          obtain ⟨_, rs, _, hf, _⟩ := aggQ_ok hg
          rw [List.append_assoc, hf]
          exact Par.others _ (by simp) rs (two (by simp) (by simp) ht)
    · cases h; exact two (by simp) (by simp) ht
    · split at h
      · cases h
      · simp only [bind, Except.bind] at h
        split at h
        · cases h
        · split at h
          · cases h
          · rename_i hg
            cases h
            obtain ⟨_, rs, _, hf, _⟩ := aggQ_ok hg
            rw [List.append_assoc, hf]
            exact Par.others _ (by simp) rs (Par.one ht (by simp))
    · cases h; exact ht.one (by simp)
  | free own th =>
    simp only [exec, bind, Except.bind, Option.some.injEq] at h
    split at h
    · cases h
    · split at h
      · cases h
      · cases h; exact ht
  | timer n =>
    simp only [exec, Option.some.injEq] at h
    unfold runTimer at h
    split at h
    · simp only [bind, Except.bind] at h
      split at h
      · cases h
      · rename_i hg
        cases h
        obtain ⟨_, rs, _, hf, _⟩ := aggC_ok hg
        rw [List.append_assoc, hf]
        exact Par.others _ (by simp) rs (Par.one ht (by simp))
    · simp only [bind, Except.bind] at h
      split at h
      · cases h
      · rename_i hg
        cases h
        obtain ⟨_, rs, _, hf, _⟩ := aggQ_ok hg
        rw [List.append_assoc, hf]
        exact Par.others _ (by simp) rs (Par.one ht (by simp))
    · simp only [bind, Except.bind] at h
      split at h
      · cases h
      · rename_i hg
        cases h
        obtain ⟨_, rs, _, hf, _⟩ := aggR_ok hg
        rw [List.append_assoc, hf]
        exact Par.flushes _ rs (Par.one ht (by simp)) ⟨_, List.mem_cons_self, rfl⟩
    · cases h; exact ht
  | destroy n =>
    simp only [exec] at h
    unfold runDestroy at h
    split at h
    · simp only [bind, Except.bind, Option.some.injEq] at h
      split at h
      · cases h
      · rename_i hg
        cases h
        obtain ⟨_, rs, _, hf, _⟩ := aggC_ok hg
        rw [List.append_assoc, hf]
        exact Par.others _ (by simp) rs (Par.one ht (by simp))
    · simp only [bind, Except.bind, Option.some.injEq] at h
      split at h
      · cases h
      · rename_i hg
        cases h
        obtain ⟨_, rs, _, hf, _⟩ := aggQ_ok hg
        rw [List.append_assoc, hf]
        exact Par.others _ (by simp) rs (Par.one ht (by simp))
    · simp only [bind, Except.bind, Option.some.injEq] at h
      split at h
      · cases h
      · rename_i hg
        cases h
        obtain ⟨_, rs, _, hf, _⟩ := aggR_ok hg
        rw [List.append_assoc, hf]
        exact Par.flushes _ rs (Par.one ht (by simp)) ⟨_, List.mem_cons_self, rfl⟩
    · split at h <;> cases h <;> exact ht.one (by simp)
    · split at h
      · cases h
      · cases h; exact ht.one (by simp)
    · unfold unset at h; split at h
      · cases h
      · cases h; exact ht.one (by simp)
    · unfold unset at h; split at h
      · cases h
      · cases h; exact ht.one (by simp)
    · unfold unset at h; split at h
      · cases h
      · cases h; exact ht.one (by simp)
    · cases h; exact ht
  | flush c =>
    simp only [exec] at h
    split at h
    · cases h
    · cases h
      refine ⟨?_, ht⟩
      rintro ⟨r, h | h⟩
      · cases h
      · simp only [Act.calling.injEq] at h
        exact hp.1 ⟨r, .inl (by rw [h])⟩
  | calling c =>
    simp only [exec] at h
    split at h
    · cases h; exact ht.one (by simp)
    · simp only [this, Option.some.injEq] at h
      split at h
      · cases h
      · split at h
        · cases h
        · cases h; exact two (by simp) (by simp) ht
  | after k xs =>
    cases xs with
    | nil => simp only [exec] at h; cases h; exact ht
    | cons x xs =>
      simp only [exec, this, Option.some.injEq] at h
      split at h
      · cases h
      · cases h; exact ht.one (by simp)

theorem step_par {s s' : Sys D} (h : Step K stops s s') (hp : ∀ t ∈ s.threads, Par t) : ∀ t ∈ s'.threads, Par t := by
  have put : ∀ {l1 l2 : List (List (Act D))} {t t' : List (Act D)}, s.threads = l1 ++ t :: l2 → Par t' → ∀ x ∈ l1 ++ t' :: l2, Par x := by
    intro l1 l2 t t' hth ht x hx
    rcases List.mem_append.mp hx with hx | hx
    · exact hp x (by rw [hth]; exact List.mem_append_left _ hx)
    · rcases List.mem_cons.mp hx with rfl | hx
      · exact ht
      · exact hp x (by rw [hth]; exact List.mem_append_right _ (List.mem_cons_of_mem _ hx))
  have old : ∀ {l1 l2 : List (List (Act D))} {t : List (Act D)}, s.threads = l1 ++ t :: l2 → Par t := fun hth => hp _ (by rw [hth]; simp)
  cases h with
  | work hth hex => exact put hth (exec_par hex (old hth))
  | call c tr hth _ _ => exact put hth ((old hth).one (by simp))
  | sync c hth _ _ => exact put hth (((old hth).one (by simp)).one (by simp))
  | complete hth _ _ => exact put hth ((old hth).one (by simp))
  | fire hth _ _ => exact put hth ((old hth).one (by simp))
  | destroy hth _ _ _ => exact put hth ((old hth).one (by simp))
  | spawn =>
    intro t ht
    rcases List.mem_append.mp ht with ht | ht
    · exact hp t ht
    · rw [List.mem_singleton] at ht; subst ht; trivial

theorem Reach.par {s : Sys D} (r : Reach K stops s) : ∀ t ∈ s.threads, Par t := by
  induction r with
  | new h => simp [Sys.new]
  | step _ h ih => exact step_par h ih

def Act.isTimer : Act D → Bool
  | .timer _ => true
  | _ => false

/-- What is true of reports while and after the client is destroyed. -/
structure Shut (K : Setup) (stops : Bool) (A : List (Act D)) (s : Sys D) : Prop where
  timers : s.timers = A.countP Act.isTimer
  idle : stops = true → (∃ n, 5 ≤ n ∧ .destroy n ∈ A) ∨ s.c.alive = false → s.timers = 0 ∧ s.c.timer = none
  unset : s.cb .report = false → (∃ n, 5 ≤ n ∧ .destroy n ∈ A) ∨ s.c.alive = false
  empty : (∃ n, 3 ≤ n ∧ .destroy n ∈ A) ∨ s.c.alive = false → Report.cachedOps K.cfgR s.c.report = []
  kept : stops = true → ∀ r, Call.report r ∉ s.dropped
  untimed : s.c.timer = none → s.c.alive = true → (∀ n, .destroy n ∈ A → n ≤ 3) → s.timers = 0

theorem Shut.perm {A A' : List (Act D)} {s : Sys D} (l : Shut K stops A s) (h : A'.Perm A) : Shut K stops A' s :=
  ⟨by rw [h.countP_eq]; exact l.timers,
   fun hs hx => l.idle hs (hx.imp (fun ⟨n, h1, h2⟩ => ⟨n, h1, h.mem_iff.mp h2⟩) id),
   fun hx => (l.unset hx).imp (fun ⟨n, h1, h2⟩ => ⟨n, h1, h.mem_iff.mpr h2⟩) id,
   fun hx => l.empty (hx.imp (fun ⟨n, h1, h2⟩ => ⟨n, h1, h.mem_iff.mp h2⟩) id), l.kept,
   fun h1 h2 h3 => l.untimed h1 h2 (fun n hn => h3 n (h.mem_iff.mpr hn))⟩

theorem Shut.threads {A : List (Act D)} {s : Sys D} (l : Shut K stops A s) (t : List (List (Act D))) : Shut K stops A { s with threads := t } :=
  ⟨l.timers, l.idle, l.unset, l.empty, l.kept, l.untimed⟩

/-- A step that has nothing to do with the end. -/
theorem Shut.next {a : Act D} {new R : List (Act D)} {s s' : Sys D} (l : Shut K stops (a :: R) s)
    (h1 : s'.timers = s.timers) (h2 : s'.c.timer = s.c.timer) (h3 : s'.c.alive = s.c.alive) (h4 : s'.cb = s.cb)
    (h5 : Report.cachedOps K.cfgR s.c.report = [] → (∃ n, 3 ≤ n ∧ .destroy n ∈ R) ∨ s.c.alive = false → Report.cachedOps K.cfgR s'.c.report = [])
    (h6 : stops = true → ∀ r, Call.report r ∈ s'.dropped → Call.report r ∈ s.dropped)
    (ha : a.isDestroy = false) (hn : ∀ b ∈ new, b.isDestroy = false) (ht : new.countP Act.isTimer = [a].countP Act.isTimer) :
    Shut K stops (new ++ R) s' := by
  have hd : ∀ n, .destroy n ∈ new ++ R ↔ .destroy n ∈ a :: R := by
    intro n
    rw [List.mem_append, List.mem_cons]
    constructor
    · rintro (h | h)
      · have := hn _ h; cases this
      · exact .inr h
    · rintro (h | h)
      · subst h; cases ha
      · exact .inr h
  have hd' : ∀ n, .destroy n ∈ new ++ R → .destroy n ∈ R := by
    intro n h
    rcases List.mem_append.mp h with h | h
    · have := hn _ h; cases this
    · exact h
  refine ⟨?_, ?_, ?_, ?_, ?_, fun g1 g2 g3 => h1.trans (l.untimed (h2 ▸ g1) (h3 ▸ g2) (fun n hn => g3 n ((hd n).mpr hn)))⟩
  · rw [h1, l.timers]; exact (countP_swap ht).symm
  · intro hs hx
    rw [h1, h2]
    refine l.idle hs ?_
    rw [h3] at hx
    exact hx.imp (fun ⟨n, g1, g2⟩ => ⟨n, g1, (hd n).mp g2⟩) id
  · intro hx
    rw [h4] at hx
    rw [h3]
    exact (l.unset hx).imp (fun ⟨n, g1, g2⟩ => ⟨n, g1, (hd n).mpr g2⟩) id
  · intro hx
    rw [h3] at hx
    exact h5 (l.empty (hx.imp (fun ⟨n, g1, g2⟩ => ⟨n, g1, (hd n).mp g2⟩) id)) (hx.imp (fun ⟨n, g1, g2⟩ => ⟨n, g1, hd' n g2⟩) id)
  · intro hs r hr
    exact l.kept hs r (h6 hs r hr)

theorem flushes_none {R : Type} (f : R → Call D) (rs : List R) (P : Act D → Bool) (hP : ∀ c, P (.flush c) = false) :
    ∀ b ∈ rs.map (fun r => Act.flush (f r)), P b = false := by
  intro b hb
  obtain ⟨_, _, rfl⟩ := List.mem_map.mp hb
  exact hP _

theorem Shut.tail {a : Act D} {R : List (Act D)} {s s' : Sys D} {fl new : List (Act D)} (l : Shut K stops (a :: R) s) (hfl : Flushes fl)
    (h : AggOnly s s')  (h5 : Report.cachedOps K.cfgR s.c.report = [] → (∃ n, 3 ≤ n ∧ .destroy n ∈ R) ∨ s.c.alive = false → Report.cachedOps K.cfgR s'.c.report = [])
    (ha : a.isDestroy = false) (hn : ∀ b ∈ new, b.isDestroy = false) (ht : new.countP Act.isTimer = [a].countP Act.isTimer) :
    Shut K stops ((fl ++ new) ++ R) s' := by
  have e := h.eq
  refine l.next (by rw [e]) (by rw [e]) (by rw [e]) (by rw [e]) h5 (fun _ _ h => by rw [e] at h; exact h) ha ?_ ?_
  · intro b hb
    rcases List.mem_append.mp hb with hb | hb
    · obtain ⟨c, rfl⟩ := hfl b hb; rfl
    · exact hn b hb
  · rw [hfl.countP _ (fun _ => rfl)]; exact ht

theorem aggC_only {x : Check.Call D} {s s' : Sys D} {out : Check.Out} {fl : List (Act D)} (h : aggC K x s = .ok (s', out, fl)) :
    AggOnly s s' ∧ Flushes fl ∧ s'.c.report = s.c.report := by
  obtain ⟨_, _, rfl, rfl, _⟩ := aggC_ok h
  exact ⟨⟨rfl⟩, Flushes.map _ _, rfl⟩

theorem aggQ_only {x : Quota.Call D} {s s' : Sys D} {out : Quota.Out} {fl : List (Act D)} (h : aggQ K x s = .ok (s', out, fl)) :
    AggOnly s s' ∧ Flushes fl ∧ s'.c.report = s.c.report := by
  obtain ⟨_, _, rfl, rfl, _⟩ := aggQ_ok h
  exact ⟨⟨rfl⟩, Flushes.map _ _, rfl⟩

theorem aggR_only {x : Report.Call D} {s s' : Sys D} {out : Status} {fl : List (Act D)} (h : aggR K x s = .ok (s', out, fl)) :
    AggOnly s s' ∧ Flushes fl := by
  obtain ⟨_, _, rfl, rfl, _⟩ := aggR_ok h
  exact ⟨⟨rfl⟩, Flushes.map _ _⟩

/-- There is no second destructor. -/
theorem Inv.only {n : Nat} {s : Sys D} {R : List (Act D)} (i : Inv (.destroy n :: R) s) : ∀ m, .destroy m ∉ R := by
  intro m hm
  have := i.life.destr
  rw [List.countP_cons, if_pos (by rfl)] at this
  have h2 : 0 < R.countP Act.isDestroy := List.countP_pos_iff.mpr ⟨_, hm, rfl⟩
  split at this <;> omega

theorem Inv.dying_of {n : Nat} {s : Sys D} {A : List (Act D)} (i : Inv A s) (h : .destroy n ∈ A) : s.dying = true := by
  have := i.life.destr
  have h2 : 0 < A.countP Act.isDestroy := List.countP_pos_iff.mpr ⟨_, h, rfl⟩
  cases hd : s.dying with
  | true => rfl
  | false => rw [hd] at this; simp at this; have := this _ h; cases this

theorem Shut.destroy {n m : Nat} {R fl : List (Act D)} {s s' : Sys D} (i : Inv (.destroy n :: R) s) (l : Shut K stops (.destroy n :: R) s)
    (hfl : Flushes fl) (h1 : s'.timers = s.timers) (h2 : stops = true → 5 ≤ m → s'.timers = 0 ∧ s'.c.timer = none)
    (h3 : s'.cb .report = false → 5 ≤ m) (h4 : 3 ≤ m → Report.cachedOps K.cfgR s'.c.report = []) (h5 : s'.c.alive = s.c.alive)
    (h6 : s'.dropped = s.dropped) (h7 : s'.c.timer = s.c.timer ∨ 4 ≤ m) (h8 : m ≤ 3 → n ≤ 3) : Shut K stops ((fl ++ [.destroy m]) ++ R) s' := by
  have hal := Links.alive_of_destroy i
  have hd : ∀ k, .destroy k ∈ (fl ++ [.destroy m]) ++ R → k = m := by
    intro k hk
    rcases List.mem_append.mp hk with hk | hk
    · rcases List.mem_append.mp hk with hk | hk
      · obtain ⟨c, hc⟩ := hfl _ hk; cases hc
      · rw [List.mem_singleton] at hk; cases hk; rfl
    · exact absurd hk (i.only k)
  have hal' : s'.c.alive ≠ false := by rw [h5, hal]; simp
  refine ⟨?_, ?_, ?_, ?_, ?_, ?_⟩
  rotate_right
  · intro g1 g2 g3
    have g4 : m ≤ 3 := g3 m (by simp)
    rcases h7 with h7 | h7
    · refine h1.trans (l.untimed (h7 ▸ g1) hal (fun k hk => ?_))
      rcases List.mem_cons.mp hk with hk | hk
      · cases hk; exact h8 g4
      · exact absurd hk (i.only k)
    · omega
  · rw [h1, l.timers, List.append_assoc, hfl.countP _ (fun _ => rfl)]; rfl
  · rintro hs (⟨k, g1, g2⟩ | h)
    · rw [hd k g2] at g1; exact h2 hs g1
    · exact absurd h hal'
  · intro hx
    exact .inl ⟨m, h3 hx, by simp⟩
  · rintro (⟨k, g1, g2⟩ | h)
    · rw [hd k g2] at g1; exact h4 g1
    · exact absurd h hal'
  · intro hs r; rw [h6]; exact l.kept hs r

theorem exec_shut {a : Act D} {s s' : Sys D} {new R : List (Act D)} (i : Inv (a :: R) s) (lk : Links K hc hq hr (a :: R) s)
    (l : Shut K stops (a :: R) s) (hp : a.brings → ∃ b ∈ R, b.source = true)
    (h : exec K stops a s = some (.ok (s', new))) : Shut K stops (new ++ R) s' := by
  have api : a.api = true → ¬ ((∃ n, 3 ≤ n ∧ .destroy n ∈ R) ∨ s.c.alive = false) := by
    intro ha hx
    have hdy : s.dying = true := by
      rcases hx with ⟨n, _, hn⟩ | hx
      · exact i.dying_of (List.mem_cons_of_mem _ hn)
      · exact (i.life.dead hx).1
    have := i.life.api hdy _ List.mem_cons_self
    rw [ha] at this; cases this
  have plain : ∀ (x : Client D) (new : List (Act D)) , x.timer = s.c.timer → x.alive = s.c.alive → x.report = s.c.report → a.isDestroy = false →
      (∀ b ∈ new, b.isDestroy = false) → new.countP Act.isTimer = [a].countP Act.isTimer → Shut K stops (new ++ R) { s with c := x } :=
    fun x new h1 h2 h3 h4 h5 h6 => l.next rfl h1 h2 rfl (fun g _ => by show Report.cachedOps _ x.report = []; rw [h3]; exact g) (fun _ _ h => h) h4 h5 h6
  have same : ∀ (new : List (Act D)), a.isDestroy = false → (∀ b ∈ new, b.isDestroy = false) → new.countP Act.isTimer = [a].countP Act.isTimer →
      Shut K stops (new ++ R) s := fun new h1 h2 h3 => plain s.c new rfl rfl rfl h1 h2 h3
  have re : ∀ {s1 s2 : Sys D} {A : List (Act D)}, Shut K stops A s1 → s2.c = s1.c → s2.cb = s1.cb → s2.timers = s1.timers → s2.dropped = s1.dropped → Shut K stops A s2 := by
    intro s1 s2 A g e1 e2 e3 e4
    exact ⟨by rw [e3]; exact g.timers, by rw [e3, e1]; exact g.idle, by rw [e1, e2]; exact g.unset, by rw [e1]; exact g.empty, by rw [e4]; exact g.kept, by rw [e1, e3]; exact g.untimed⟩
  cases a with
  | user =>
    simp only [exec] at h; cases h
    exact same [] rfl (by simp) rfl
  | start j c t =>
    simp only [exec, this, Option.some.injEq] at h
    split at h
    · cases h
    · cases h
      refine plain _ _ rfl rfl rfl rfl ?_ ?_
      · cases t <;> simp [Act.isDestroy]
      · cases t <;> rfl
  | agg j c =>
    simp only [exec, this, Option.some.injEq] at h
    split at h
    · cases h
    · cases c with
      | check r =>
        simp only [runCall, bind, Except.bind] at h
        split at h
        · cases h
        · rename_i hg
          cases h
          obtain ⟨g1, g2, g3⟩ := aggC_only hg
          exact l.tail g2 g1 (fun g _ => by rw [g3]; exact g) rfl (by simp [Act.isDestroy]) rfl
      | quota r =>
        simp only [runCall, bind, Except.bind] at h
        split at h
        · cases h
        · rename_i hg
          cases h
          obtain ⟨g1, g2, g3⟩ := aggQ_only hg
          exact l.tail g2 g1 (fun g _ => by rw [g3]; exact g) rfl (by simp [Act.isDestroy]) rfl
      | report r =>
        simp only [runCall, bind, Except.bind] at h
        split at h
        · cases h
        · rename_i hg
          cases h
          obtain ⟨g1, g2⟩ := aggR_only hg
          exact l.tail g2 g1 (fun _ g => absurd g (api rfl)) rfl (by simp [Act.isDestroy]) rfl
  | result j c st reply =>
    simp only [exec, this, Option.some.injEq] at h
    split at h
    · cases h
    · split at h
      · simp only [Except.ok.injEq, Prod.mk.injEq] at h
        obtain ⟨rfl, rfl⟩ := h
        have he := (allocCall_ok c s.c).eq
        refine plain _ _ ?_ ?_ ?_ rfl (by simp [Act.isDestroy]) rfl
        · show (allocCall c s.c).2.timer = _; rw [he]
        · show (allocCall c s.c).2.alive = _; rw [he]
        · show (allocCall c s.c).2.report = _; rw [he]
      · cases h
        exact same _ rfl (by simp [Act.isDestroy]) rfl
  | count i' c' xs =>
    cases xs with
    | nil => simp only [exec] at h; cases h; exact same [] rfl (by simp) rfl
    | cons x xs =>
      simp only [exec, this, Option.some.injEq] at h
      split at h
      · cases h
      · cases h
        exact plain _ _ rfl rfl rfl rfl (by simp [Act.isDestroy]) rfl
  | finish j c st reply via =>
    simp only [exec] at h
    split at h
    · split at h
      · cases h
      · cases h
      · cases h
        exact re (plain (s.c.done j c st reply via) [.setValue j st] rfl rfl rfl rfl (by simp [Act.isDestroy]) rfl) rfl rfl rfl rfl
    · cases h
      exact plain _ _ rfl rfl rfl rfl (by simp [Act.isDestroy]) rfl
  | setValue j st =>
    simp only [exec] at h; cases h
    exact re (same [] rfl (by simp) rfl) rfl rfl rfl rfl
  | wait j =>
    simp only [exec] at h
    split at h
    · cases h
    · cases h
      exact re (same [] rfl (by simp) rfl) rfl rfl rfl rfl
  | fin p a =>
    simp only [exec, Option.some.injEq] at h
    unfold runFin at h
    split at h
    · split at h
      · simp only [bind, Except.bind] at h
        split at h
        · cases h
        · split at h
          · cases h
          · rename_i hg
            cases h
            obtain ⟨g1, g2, g3⟩ := aggC_only hg
            exact l.tail g2 g1 (fun g _ => by rw [g3]; exact g) rfl (by simp [Act.isDestroy]) rfl
      · cases h; exact same _ rfl (by simp [Act.isDestroy]) rfl
    · simp only [bind, Except.bind] at h
      split at h
      · cases h
      · split at h
        · cases h
        · rename_i hg
          cases h
          obtain ⟨g1, g2, g3⟩ := aggQ_only hg
          exact l.tail g2 g1 (fun g _ => by rw [g3]; exact g) rfl (by simp [Act.isDestroy]) rfl
    · cases h; exact same _ rfl (by simp [Act.isDestroy]) rfl
    · split at h
      · cases h
      · simp only [bind, Except.bind] at h
        split at h
        · cases h
        · split at h
          · cases h
          · rename_i hg
            cases h
            obtain ⟨g1, g2, g3⟩ := aggQ_only hg
            exact l.tail g2 g1 (fun g _ => by rw [g3]; exact g) rfl (by simp [Act.isDestroy]) rfl
    · cases h; exact same _ rfl (by simp [Act.isDestroy]) rfl
  | free own th =>
    simp only [exec, bind, Except.bind, Option.some.injEq] at h
    obtain ⟨c', h1, h2, h3⟩ := Books.freeAll (os := opensOf (.free own th :: R)) own (own := ownOf R) i.books
    split at h
    · cases h
    · rw [h1] at h
      cases h
      exact plain c' [] (by rw [h3]) (by rw [h3]) (by rw [h3]) rfl (by simp) rfl
  | timer n =>
    simp only [exec, Option.some.injEq] at h
    unfold runTimer at h
    split at h
    · simp only [bind, Except.bind] at h
      split at h
      · cases h
      · rename_i hg
        cases h
        obtain ⟨g1, g2, g3⟩ := aggC_only hg
        exact l.tail g2 g1 (fun g _ => by rw [g3]; exact g) rfl (by simp [Act.isDestroy]) rfl
    · simp only [bind, Except.bind] at h
      split at h
      · cases h
      · rename_i hg
        cases h
        obtain ⟨g1, g2, g3⟩ := aggQ_only hg
        exact l.tail g2 g1 (fun g _ => by rw [g3]; exact g) rfl (by simp [Act.isDestroy]) rfl
    · simp only [bind, Except.bind] at h
      split at h
      · cases h
      · rename_i hg
        cases h
        obtain ⟨g1, g2⟩ := aggR_only hg
        obtain ⟨a', rs, g4, _, g3⟩ := aggR_ok hg
        refine l.tail g2 g1 (fun g _ => ?_) rfl (by simp [Act.isDestroy]) rfl
        obtain ⟨ev, _, _, _, _, _, h6⟩ := lk.r.step g3
        rw [g4]
        exact flush_keeps_empty (s' := a'.setFlushCallback true) lk.r.reach g h6
    · cases h
      have ht := l.timers
      rw [List.countP_cons, if_pos (by rfl)] at ht
      have hd : ∀ k, .destroy k ∈ [] ++ R → .destroy k ∈ (.timer n :: R : List (Act D)) := fun k hk => List.mem_cons_of_mem _ hk
      refine ⟨?_, ?_, ?_, ?_, l.kept, ?_⟩
      rotate_right
      · intro g1 g2 g3
        have := l.untimed g1 g2 (fun k hk => by
          rcases List.mem_cons.mp hk with hk | hk
          · cases hk
          · exact g3 k hk)
        show s.timers - 1 = 0
        omega
      · show s.timers - 1 = R.countP _; omega
      · intro hs hx
        have := l.idle hs (hx.imp (fun ⟨k, g1, g2⟩ => ⟨k, g1, hd k g2⟩) id)
        exact ⟨by show s.timers - 1 = 0; omega, this.2⟩
      · intro hx
        refine (l.unset hx).imp (fun ⟨k, g1, g2⟩ => ⟨k, g1, ?_⟩) id
        rcases List.mem_cons.mp g2 with g2 | g2
        · cases g2
        · exact g2
      · intro hx
        exact l.empty (hx.imp (fun ⟨k, g1, g2⟩ => ⟨k, g1, hd k g2⟩) id)
  | destroy n =>
    have hlow : n < 5 → s.cb .report = false → False := by
      intro hn hx
      rcases l.unset hx with ⟨k, g1, g2⟩ | g
      · rcases List.mem_cons.mp g2 with g2 | g2
        · cases g2; omega
        · exact i.only k g2
      · rw [Links.alive_of_destroy i] at g; cases g
    have hemp : 3 ≤ n → Report.cachedOps K.cfgR s.c.report = [] := fun hn => l.empty (.inl ⟨n, hn, List.mem_cons_self⟩)
    have hidle : stops = true → 5 ≤ n → s.timers = 0 ∧ s.c.timer = none := fun hs hn => l.idle hs (.inl ⟨n, hn, List.mem_cons_self⟩)
    have nofl : Flushes ([] : List (Act D)) := by intro a ha; cases ha
    simp only [exec] at h
    unfold runDestroy at h
    split at h
    · simp only [bind, Except.bind, Option.some.injEq] at h
      split at h
      · cases h
      · rename_i hg
        cases h
        obtain ⟨g1, g2, g3⟩ := aggC_only hg
        have e := g1.eq
        exact Shut.destroy i l g2 (by rw [e]) (by intro _ h; omega) (by rw [e]; intro h; exact (hlow (by omega) h).elim) (by omega) (by rw [e]) (by rw [e]) (.inl (by rw [e])) (by omega)
    · simp only [bind, Except.bind, Option.some.injEq] at h
      split at h
      · cases h
      · rename_i hg
        cases h
        obtain ⟨g1, g2, g3⟩ := aggQ_only hg
        have e := g1.eq
        exact Shut.destroy i l g2 (by rw [e]) (by intro _ h; omega) (by rw [e]; intro h; exact (hlow (by omega) h).elim) (by omega) (by rw [e]) (by rw [e]) (.inl (by rw [e])) (by omega)
    · simp only [bind, Except.bind, Option.some.injEq] at h
      split at h
      · cases h
      · rename_i hg
        cases h
        obtain ⟨g1, g2⟩ := aggR_only hg
        obtain ⟨a', rs, g4, _, g3⟩ := aggR_ok hg
        have e := g1.eq
        refine Shut.destroy i l g2 (by rw [e]) (by intro _ h; omega) (by rw [e]; intro h; exact (hlow (by omega) h).elim) (fun _ => ?_) (by rw [e]) (by rw [e]) (.inl (by rw [e])) (by omega)
        obtain ⟨ev, _, _, _, _, _, h6⟩ := lk.r.step g3
        rw [g4]
        exact Report.C38_flushAll_empties (s' := a'.setFlushCallback true) lk.r.reach h6
    · split at h
      · rename_i htm
        cases h
        have htm : s.c.timer = none := by simpa using htm
        refine Shut.destroy (fl := []) i l nofl rfl (fun _ _ => ⟨?_, htm⟩) (fun h => (hlow (by omega) h).elim) (fun _ => hemp (by omega)) rfl rfl (.inl rfl) (by omega)
        refine l.untimed htm (Links.alive_of_destroy i) (fun k hk => ?_)
        rcases List.mem_cons.mp hk with hk | hk
        · cases hk; omega
        · exact absurd hk (i.only k)
      · cases h
        exact Shut.destroy (fl := []) i l nofl rfl (by intro _ h; omega) (fun h => (hlow (by omega) h).elim) (fun _ => hemp (by omega)) rfl rfl (.inr (by omega)) (by omega)
    · split at h
      · cases h
      · rename_i hst
        cases h
        refine Shut.destroy (fl := []) i l nofl rfl ?_ (fun h => (hlow (by omega) h).elim) (fun _ => hemp (by omega)) rfl rfl (.inr (by omega)) (by omega)
        intro hs _
        refine ⟨?_, lk.stopped 4 List.mem_cons_self (by omega)⟩
        simpa [hs] using hst
    · unfold Threads.unset at h; split at h
      · cases h
      · cases h
        exact Shut.destroy (fl := []) i l nofl rfl (fun hs _ => hidle hs (by omega)) (fun _ => by omega) (fun _ => hemp (by omega)) rfl rfl (.inr (by omega)) (by omega)
    · unfold Threads.unset at h; split at h
      · cases h
      · cases h
        exact Shut.destroy (fl := []) i l nofl rfl (fun hs _ => hidle hs (by omega)) (fun _ => by omega) (fun _ => hemp (by omega)) rfl rfl (.inr (by omega)) (by omega)
    · unfold Threads.unset at h; split at h
      · cases h
      · cases h
        exact Shut.destroy (fl := []) i l nofl rfl (fun hs _ => hidle hs (by omega)) (fun _ => by omega) (fun _ => hemp (by omega)) rfl rfl (.inr (by omega)) (by omega)
    · rename_i h0 h1 h2 h3 h4 h5 h6 h7
      have g0 : n ≠ 0 := h0
      have g1 : n ≠ 1 := h1
      have g2 : n ≠ 2 := h2
      have g3 : n ≠ 3 := h3
      have g4 : n ≠ 4 := h4
      cases h
      refine ⟨l.timers, fun hs _ => hidle hs (by omega), fun _ => .inr rfl, fun _ => hemp (by omega), l.kept, fun _ h => by cases h⟩
  | flush c =>
    simp only [exec] at h
    split at h
    · cases h
    · cases h
      exact re (same [.calling c] rfl (by simp [Act.isDestroy]) rfl) rfl rfl rfl rfl
  | calling c =>
    simp only [exec] at h
    split at h
    · rename_i hcb
      cases h
      refine l.next rfl rfl rfl rfl (fun g _ => g) ?_ rfl (by simp [Act.isDestroy]) rfl
      intro hs r hr
      rcases List.mem_append.mp hr with hr | hr
      · exact hr
      · exfalso
        rw [List.mem_singleton] at hr
        subst hr
        have hcb : s.cb .report = false := hcb
        have hend := l.unset hcb
        have hdy : s.dying = true := by
          rcases hend with ⟨n, _, hn⟩ | hx
          · exact i.dying_of hn
          · exact (i.life.dead hx).1
        obtain ⟨b, hb, hbs⟩ := hp ⟨r, .inr rfl⟩
        have hid := l.idle hs hend
        have hnotapi := i.life.api hdy b (List.mem_cons_of_mem _ hb)
        have htz := l.timers
        rw [hid.1] at htz
        cases b with
        | timer n =>
          have : 0 < (Act.calling (Call.report r) :: R).countP Act.isTimer := List.countP_pos_iff.mpr ⟨_, List.mem_cons_of_mem _ hb, rfl⟩
          omega
        | destroy n =>
          have hn : n ≤ 3 := by simpa [Act.source] using hbs
          have hone := i.life.destr
          rcases hend with ⟨k, g1, g2⟩ | hx
          · have hle : (Act.calling (Call.report r) :: R).countP Act.isDestroy ≤ 1 := by rw [hone]; split <;> omega
            have := eq_of_countP_le_one hle (List.mem_cons_of_mem _ hb) g2 rfl rfl
            cases this
            omega
          · rw [hx] at hone
            have : 0 < (Act.calling (Call.report r) :: R).countP Act.isDestroy := List.countP_pos_iff.mpr ⟨_, List.mem_cons_of_mem _ hb, rfl⟩
            simp only [Bool.and_false, Bool.false_eq_true, if_false] at hone
            omega
        | _ => simp only [Act.source] at hbs; rw [hnotapi] at hbs; cases hbs
    · simp only [this, Option.some.injEq] at h
      split at h
      · cases h
      · split at h
        · cases h
        · simp only [Except.ok.injEq, Prod.mk.injEq] at h
          obtain ⟨rfl, rfl⟩ := h
          have he := (allocFlush_ok c s.c).eq
          refine plain _ _ ?_ ?_ ?_ rfl (by simp [Act.isDestroy]) rfl
          · show (allocFlush c s.c).2.timer = _; rw [he]
          · show (allocFlush c s.c).2.alive = _; rw [he]
          · show (allocFlush c s.c).2.report = _; rw [he]
  | after k xs =>
    cases xs with
    | nil => simp only [exec] at h; cases h; exact re (same [] rfl (by simp) rfl) rfl rfl rfl rfl
    | cons x xs =>
      simp only [exec, this, Option.some.injEq] at h
      split at h
      · cases h
      · cases h
        exact plain _ _ rfl rfl rfl rfl (by simp [Act.isDestroy]) rfl

theorem Shut.pad {A : List (Act D)} {s : Sys D} (l : Shut K stops A s) : Shut K stops (.user :: A) s := by
  have hd : ∀ n, .destroy n ∈ Act.user :: A ↔ .destroy n ∈ A := by intro n; simp
  refine ⟨l.timers, ?_, ?_, ?_, l.kept, ?_⟩
  · simp only [hd]; exact l.idle
  · simp only [hd]; exact l.unset
  · simp only [hd]; exact l.empty
  · simp only [hd]; exact l.untimed

theorem step_shut {s s' : Sys D} (i : Inv s.acts s) (lk : Links K hc hq hr s.acts s) (hp : ∀ t ∈ s.threads, Par t) (l : Shut K stops s.acts s)
    (h : Step K stops s s') : Shut K stops s'.acts s' := by
  cases h with
  | work hth hex =>
    rename_i l1 a t l2 s1 new
    have hperm : (a :: (t ++ (l1 ++ l2).flatten)).Perm s.acts := by
      unfold Sys.acts; rw [hth]
      exact (acts_at (t := a :: t)).symm
    have hpar : Par (a :: t) := hp _ (by rw [hth]; simp)
    have l2 := exec_shut (i.perm hperm) (lk.perm hperm) (l.perm hperm)
      (fun hb => (hpar.1 hb).imp (fun b hb => ⟨List.mem_append_left _ hb.1, hb.2⟩)) hex
    refine (l2.threads _).perm ?_
    refine acts_at.trans ?_
    rw [List.append_assoc]
  | @call l1 t l2 c tr hth hfree hdy =>
    have l2 := l.pad.next (new := [.start s.c.calls c (present K c tr)])
      (s' := { s with c := { s.c.log (.called s.c.calls c (present K c tr)) with calls := s.c.calls + 1 } })
      rfl rfl rfl rfl (fun g _ => g) (fun _ _ h => h) rfl (by simp [Act.isDestroy]) rfl
    refine (l2.threads _).perm ?_
    refine (acts_push (new := [_])).trans ?_
    unfold Sys.acts; rw [hth]
  | @sync l1 t l2 c hth hfree hdy =>
    have l2 := l.pad.next (new := [.start s.c.calls c (present K c .default), .wait s.c.calls])
      (s' := { s with
        c := { s.c.log (.called s.c.calls c (present K c .default)) with calls := s.c.calls + 1 }
        syncs := s.syncs ++ [s.c.calls]
        frames := s.frames ++ [(s.c.calls, true)] })
      rfl rfl rfl rfl (fun g _ => g) (fun _ _ h => h) rfl (by simp [Act.isDestroy]) rfl
    refine (l2.threads _).perm ?_
    refine (acts_push (new := [_, _])).trans ?_
    unfold Sys.acts; rw [hth]
  | @complete l1 t l2 id a p c' hth hfree htake =>
    obtain ⟨he, _, _⟩ := i.books.take htake
    have l2 := l.pad.next (new := [.fin p a]) (s' := { s with c := c' }) rfl (by rw [he]; rfl) (by rw [he]; rfl) rfl
      (fun g _ => by show Report.cachedOps _ c'.report = []; rw [he]; exact g) (fun _ _ h => h) rfl (by simp [Act.isDestroy]) rfl
    refine (l2.threads _).perm ?_
    refine (acts_push (new := [_])).trans ?_
    unfold Sys.acts; rw [hth]
  | @fire l1 t l2 hth hfree htm =>
    have l2 : Shut K stops ([.timer 0] ++ s.acts) { s with c := s.c.log .fired, timers := s.timers + 1 } := by
      have hd : ∀ n, .destroy n ∈ [Act.timer 0] ++ s.acts ↔ .destroy n ∈ s.acts := by intro n; simp
      refine ⟨?_, ?_, ?_, ?_, l.kept, ?_⟩
      · rw [List.singleton_append, List.countP_cons, if_pos (by rfl), ← l.timers]
      · simp only [hd]
        intro hs hx
        exact absurd (l.idle hs hx).2 htm
      · simp only [hd]; exact l.unset
      · simp only [hd]; exact l.empty
      · intro h; exact absurd h htm
    refine (l2.threads _).perm ?_
    refine (acts_push (new := [_])).trans ?_
    unfold Sys.acts; rw [hth]
  | @destroy l1 t l2 hth hfree hdy hapi =>
    have hal : s.c.alive = true := by
      cases ha : s.c.alive with
      | true => rfl
      | false => have := (i.life.dead ha).1; rw [hdy] at this; cases this
    have hno : ∀ n, .destroy n ∉ s.acts := by
      intro n hn
      have := i.dying_of hn
      rw [hdy] at this; cases this
    have l2 : Shut K stops ([.destroy 0] ++ s.acts) { s with dying := true } := by
      have hd : ∀ n, .destroy n ∈ [Act.destroy 0] ++ s.acts → n = 0 := by
        intro n hn
        rcases List.mem_append.mp hn with h | h
        · rw [List.mem_singleton] at h; cases h; rfl
        · exact absurd h (hno n)
      have hno2 : ∀ m, 0 < m → ¬ ((∃ n, m ≤ n ∧ .destroy n ∈ [Act.destroy 0] ++ s.acts) ∨ s.c.alive = false) := by
        rintro m hm (⟨n, g1, g2⟩ | h)
        · have := hd n g2; omega
        · rw [hal] at h; cases h
      refine ⟨l.timers, fun _ hx => absurd hx (hno2 5 (by omega)), ?_, fun hx => absurd hx (hno2 3 (by omega)), l.kept, ?_⟩
      · intro hx
        have := i.life.born hdy .report
        rw [show s.cb .report = false from hx] at this; cases this
      · intro g1 g2 _
        exact l.untimed g1 g2 (fun n hn => absurd hn (hno n))
    refine (l2.threads _).perm ?_
    refine (acts_push (new := [_])).trans ?_
    unfold Sys.acts; rw [hth]
  | spawn =>
    refine (l.threads _).perm ?_
    show (s.threads ++ [[]]).flatten.Perm s.threads.flatten
    simp

theorem Reach.shut {s : Sys D} (r : Reach K stops s) : Shut K stops s.acts s := by
  induction r with
  | new h =>
    have hal : ∀ {c : Client D}, Client.new K = .ok c → c.alive = true := by
      intro c h
      unfold Client.new at h
      cases h1 : Check.new (D := D) K.envC K.cfgC <;> simp only [h1, bind, Except.bind, reduceCtorEq] at h
      cases h2 : Quota.new (D := D) K.envQ K.cfgQ (K.depth + 1) <;> simp only [h2, reduceCtorEq] at h
      cases h3 : Report.new (D := D) K.envR K.cfgR <;> simp only [h3, reduceCtorEq] at h
      cases h
      rfl
    have := hal h
    refine ⟨by simp [Sys.acts, Sys.new], ?_, ?_, ?_, ?_, ?_⟩ <;> simp [Sys.acts, Sys.new, this]
  | step r h ih =>
    obtain ⟨hc, hq, hr, l⟩ := r.links
    exact step_shut r.inv l r.par ih h

end Verif.Threads
