import Verif.Lemmas.ConcurrentAggregators
import Verif.Lemmas.ConcurrentProgress
import Verif.Props.Client
/-
Calls of one aggregator by many threads (C57, C58).  Every theorem is about all schedules.
-/
namespace Verif.Conc
variable {σ C O R L : Type}

/-- C57.  Whatever the schedule, results, flushed items and cache are those of making the calls one
at a time, in the order in which they acquired the cache lock. -/
theorem C57_linearizable {P : Prog σ C O R L} {s₀ : σ} {g : State σ C O R L} (h : Reach P s₀ g) :
    ∃ log s, Linear P s₀ g log s := by
  obtain ⟨log, hi⟩ := h.inv
  have hcore := hi.core
  unfold Core at hcore
  have h1 : ∀ e ∈ log, ∃ t, Ev.inv e.id t e.call ∈ g.trace := fun e he => (hi.logged e he).2.2
  have h2 : ∀ i o, Ev.ret i o ∈ g.trace → ∃ e ∈ log, e.id = i ∧ e.out = o ∧ flushed i g.trace = e.items :=
    fun i o hr => (hi.rets i o hr).2.2
  cases hc : g.cacheLock with
  | none =>
    rw [hc] at hcore
    exact ⟨log, g.st, hcore.2.1, hi.once, h1, Or.inl hcore.2.2, hi.order, h2, hi.part, fun _ => rfl⟩
  | some t =>
    rw [hc] at hcore
    obtain ⟨f, fs, s, h3, h4, h5, h6, h7⟩ := hcore
    exact ⟨log, s, h4, hi.once, h1, Or.inr ⟨by simp [hc], _, h5⟩, hi.order, h2, hi.part, fun e => by rw [hc] at e; cases e⟩

/-- Every call has its own number, and returns at most once. -/
theorem C57_numbers {P : Prog σ C O R L} {s₀ : σ} {g : State σ C O R L} (h : Reach P s₀ g) :
    invoked g.trace = List.range g.calls ∧ (returned g.trace).Nodup := by
  induction h with
  | new => exact ⟨rfl, List.nodup_nil⟩
  | @step g g' hr hs ih =>
    obtain ⟨ih1, ih2⟩ := ih
    have hinv : ∀ t c, ∀ g' : State σ C O R L, invoked g'.trace = List.range g'.calls →
        invoked (g'.invoke t c).trace = List.range (g'.invoke t c).calls := by
      intro t c g' hg
      show invoked (g'.trace ++ [Ev.inv g'.calls t c]) = List.range (g'.calls + 1)
      rw [invoked_append, hg, List.range_succ]; rfl
    have hret : ∀ t c, ∀ g' : State σ C O R L, returned (g'.invoke t c).trace = returned g'.trace := by
      intro t c g'
      simp [State.invoke, returned]
    cases hs with
    | work t hw =>
      cases hw with
      | ret ht hp hk =>
        refine ⟨?_, ?_⟩
        · simpa [State.log, invoked] using ih1
        · rename_i f fs o k
          show (returned (g.trace ++ [Ev.ret f.id o])).Nodup
          simp only [returned, List.filterMap_append]
          rw [List.nodup_append]
          refine ⟨ih2, by simp, ?_⟩
          intro a ha b hb
          simp only [List.filterMap_cons, List.filterMap_nil, List.mem_singleton] at hb
          rintro rfl
          rw [hb] at ha
          obtain ⟨ev, h1, h2⟩ := List.mem_filterMap.1 ha
          obtain ⟨log, hi⟩ := hr.inv
          cases ev with
          | ret j o' =>
            simp only [Option.some.injEq] at h2
            exact (hi.rets j o' h1).2.1 t f (by simp [ht]) h2.symm
          | _ => cases h2
      | callback ht hp hr' =>
        dsimp only
        split
        · refine ⟨hinv _ _ _ ?_, ?_⟩
          · simpa [State.log, State.goto, invoked] using ih1
          · rw [hret]; simpa [State.log, State.goto, returned] using ih2
        · refine ⟨?_, ?_⟩
          · simpa [State.log, State.goto, invoked] using ih1
          · simpa [State.log, State.goto, returned] using ih2
      | lock ht hp he hc =>
        refine ⟨?_, ?_⟩
        · simpa [State.log, State.goto, invoked] using ih1
        · simpa [State.log, State.goto, returned] using ih2
      | _ => exact ⟨ih1, ih2⟩
    | call t c ht => exact ⟨hinv _ _ _ ih1, by rw [hret]; exact ih2⟩
    | setCallback b _ =>
      refine ⟨?_, ?_⟩
      · simpa [State.log, invoked] using ih1
      · simpa [State.log, returned] using ih2

/-- The report aggregator under any schedule behaves like one called by a single thread: the calls,
their results and what they flush form a history of the sequential model, to which the theorems
C38–C43 apply. -/
theorem C57_report {D : Type} [DoubleOps D] {E : Lru.Env} {cfg : AggConfig} {s₀ : AggState (OpAgg D)}
    (h0 : Report.new E cfg = .ok s₀) {react : ReportRequest D → Option (Report.Call D)}
    {g : State (AggState (OpAgg D)) (Report.Call D) Status (ReportRequest D) (Loc (Report.Call D) Status (ReportRequest D))}
    (h : Reach (reportProg E cfg react) (s₀.setFlushCallback true) g) :
    ∃ log s hist, Linear (reportProg E cfg react) (s₀.setFlushCallback true) g log s ∧ Report.Reach E cfg hist s ∧
      hist.reverse.map (fun ev => (ev.call, ev.status, ev.flushed)) = log.map (fun e => (e.call, e.out, e.items)) := by
  obtain ⟨log, s, hl⟩ := C57_linearizable h
  refine ⟨log, s, ?_⟩
  have := hl.serial
  suffices hs : ∃ hist, Report.Reach E cfg hist s ∧
      hist.reverse.map (fun ev => (ev.call, ev.status, ev.flushed)) = log.map (fun e => (e.call, e.out, e.items)) by
    obtain ⟨hist, h1, h2⟩ := hs
    exact ⟨hist, hl, h1, h2⟩
  clear hl
  induction this with
  | nil => exact ⟨[], .init h0, rfl⟩
  | @snoc log s e s' _ ha ih =>
    obtain ⟨hist, h1, h2⟩ := ih
    have hs : Report.step E cfg e.call s = .ok (s', e.out, e.items) := by
      rcases seq_alone ha with ⟨he, hi, rfl⟩ | ⟨_, hf⟩
      · rw [hi]; exact report_early h1 he
      · exact hf
    exact ⟨_, .call h1 hs, by simp [h2]⟩

/-- The same for the check aggregator, with C31–C37. -/
theorem C57_check {D : Type} [DoubleOps D] {E : Lru.Env} {cfg : AggConfig} {s₀ : AggState (Check.Elem D)}
    (h0 : Check.new E cfg = .ok s₀) {react : CheckRequest D → Option (Check.Call D)}
    {g : State (AggState (Check.Elem D)) (Check.Call D) Check.Out (CheckRequest D) (Loc (Check.Call D) Check.Out (CheckRequest D))}
    (h : Reach (checkProg E cfg react) (s₀.setFlushCallback true) g) :
    ∃ log s hist, Linear (checkProg E cfg react) (s₀.setFlushCallback true) g log s ∧ Check.Reach E cfg hist s ∧
      hist.reverse.map (fun ev => (ev.call, ev.out, ev.flushed)) = log.map (fun e => (e.call, e.out, e.items)) := by
  obtain ⟨log, s, hl⟩ := C57_linearizable h
  refine ⟨log, s, ?_⟩
  have := hl.serial
  suffices hs : ∃ hist, Check.Reach E cfg hist s ∧
      hist.reverse.map (fun ev => (ev.call, ev.out, ev.flushed)) = log.map (fun e => (e.call, e.out, e.items)) by
    obtain ⟨hist, h1, h2⟩ := hs
    exact ⟨hist, hl, h1, h2⟩
  clear hl
  induction this with
  | nil => exact ⟨[], .init h0, rfl⟩
  | @snoc log s e s' _ ha ih =>
    obtain ⟨hist, h1, h2⟩ := ih
    have hs : Check.step E cfg e.call s = .ok (s', e.out, e.items) := by
      rcases seq_alone ha with ⟨he, hi, rfl⟩ | ⟨_, hf⟩
      · rw [hi]; exact check_early h1 he
      · exact hf
    exact ⟨_, .call h1 hs, by simp [h2]⟩

/-- The same for the quota aggregator, with C44–C48. -/
theorem C57_quota {D : Type} {E : Lru.Env} {cfg : AggConfig} {depth : Nat} {s₀ : Quota.State D}
    (h0 : Quota.new E cfg (depth + 1) = .ok s₀) {react : AllocateQuotaRequest D → Option (Quota.Call D)}
    {g : State (Quota.State D) (Quota.Call D) Quota.Out (AllocateQuotaRequest D)
      (Loc (Quota.Call D) Quota.Out (AllocateQuotaRequest D))}
    (h : Reach (quotaProg E cfg depth react) { s₀ with base := s₀.base.setFlushCallback true } g) :
    ∃ log s hist, Linear (quotaProg E cfg depth react) { s₀ with base := s₀.base.setFlushCallback true } g log s ∧
      Quota.Reach E cfg hist s ∧
      hist.reverse.map (fun ev => (ev.call, ev.out, ev.flushed)) = log.map (fun e => (e.call, e.out, e.items)) := by
  obtain ⟨log, s, hl⟩ := C57_linearizable h
  refine ⟨log, s, ?_⟩
  have := hl.serial
  suffices hs : ∃ hist, Quota.Reach E cfg hist s ∧
      hist.reverse.map (fun ev => (ev.call, ev.out, ev.flushed)) = log.map (fun e => (e.call, e.out, e.items)) by
    obtain ⟨hist, h1, h2⟩ := hs
    exact ⟨hist, hl, h1, h2⟩
  clear hl
  induction this with
  | nil => exact ⟨[], .init h0, rfl⟩
  | @snoc log s e s' _ ha ih =>
    obtain ⟨hist, h1, h2⟩ := ih
    have hs : Quota.step E cfg (depth + 1) e.call s = .ok (s', e.out, e.items) := by
      rcases seq_alone ha with ⟨he, hi, rfl⟩ | ⟨_, hf⟩
      · rw [hi]; exact quota_early h1 he
      · exact hf
    exact ⟨_, .call h1 hs, by simp [h2]⟩

/-- The calls of the callback: if it is set before the first call and stays set, it gets every item. -/
theorem C57_delivered {P : Prog σ C O R L} {s₀ : σ} {g : State σ C O R L} (h : Reach P s₀ g)
    (hset : ∃ rest, g.trace = Ev.setCallback true :: rest ∧ Ev.setCallback false ∉ rest) (i : Nat) :
    delivered i g.trace = flushed i g.trace := by
  have key : ∀ g : State σ C O R L, Reach P s₀ g → g.trace = [] ∨ (∀ rest, g.trace ≠ Ev.setCallback true :: rest) ∨
      Ev.setCallback false ∈ g.trace ∨ (g.callback = true ∧ delivered i g.trace = flushed i g.trace) := by
    intro g h
    induction h with
    | new => exact Or.inl rfl
    | @step g g' hr hs ih =>
      -- the new events
      have hext : ∃ evs, g'.trace = g.trace ++ evs ∧ (g.callback = true → Ev.setCallback false ∉ evs →
          g'.callback = true ∧ delivered i evs = flushed i evs) ∧
          (g.trace = [] → g'.trace = [] ∨ g' = { g with callback := g'.callback }.log (.setCallback g'.callback) ∨
            ∃ j t c, evs = [Ev.inv j t c]) := by
        have hempty : ∀ t (f : Frame C L O) fs, g.threads t = f :: fs → g.trace = [] → False := by
          intro t f fs ht he
          obtain ⟨log, hi⟩ := hr.inv
          have := (hi.frames t f (by simp [ht])).2.2
          rw [he] at this; cases this
        cases hs with
        | work t hw =>
          cases hw with
          | callback ht hp hr' =>
            rename_i f fs o k r
            dsimp only
            split
            · rename_i c h1 h2
              refine ⟨[.flush f.id r g.callback, .inv g.calls t c], by simp [State.invoke, State.log, State.goto], ?_,
                fun he => (hempty _ _ _ ht he).elim⟩
              intro hc _
              refine ⟨hc, ?_⟩
              rw [hc]; rfl
            · refine ⟨[.flush f.id r g.callback], rfl, ?_, fun he => (hempty _ _ _ ht he).elim⟩
              intro hc _
              refine ⟨hc, ?_⟩
              rw [hc]; rfl
          | early ht _ _ => exact ⟨[], by simp [State.goto], fun hc _ => ⟨hc, rfl⟩, fun he => (hempty _ _ _ ht he).elim⟩
          | lock ht _ _ _ => exact ⟨[.enter _], rfl, fun hc _ => ⟨hc, rfl⟩, fun he => (hempty _ _ _ ht he).elim⟩
          | swap ht _ => exact ⟨[], by simp [State.goto], fun hc _ => ⟨hc, rfl⟩, fun he => (hempty _ _ _ ht he).elim⟩
          | next ht _ _ => exact ⟨[], by simp [State.goto], fun hc _ => ⟨hc, rfl⟩, fun he => (hempty _ _ _ ht he).elim⟩
          | done ht _ _ => exact ⟨[], by simp [State.goto], fun hc _ => ⟨hc, rfl⟩, fun he => (hempty _ _ _ ht he).elim⟩
          | unswap ht _ => exact ⟨[], by simp [State.goto], fun hc _ => ⟨hc, rfl⟩, fun he => (hempty _ _ _ ht he).elim⟩
          | unlock ht _ => exact ⟨[], by simp [State.goto], fun hc _ => ⟨hc, rfl⟩, fun he => (hempty _ _ _ ht he).elim⟩
          | cbLock ht _ _ _ => exact ⟨[], by simp [State.goto], fun hc _ => ⟨hc, rfl⟩, fun he => (hempty _ _ _ ht he).elim⟩
          | cbUnlock ht _ => exact ⟨[], by simp [State.goto], fun hc _ => ⟨hc, rfl⟩, fun he => (hempty _ _ _ ht he).elim⟩
          | ret ht _ _ => exact ⟨[.ret _ _], rfl, fun hc _ => ⟨hc, rfl⟩, fun he => (hempty _ _ _ ht he).elim⟩
        | call t c ht => exact ⟨[.inv g.calls t c], rfl, fun hc _ => ⟨hc, rfl⟩, fun _ => Or.inr (Or.inr ⟨_, _, _, rfl⟩)⟩
        | setCallback b _ =>
          refine ⟨[.setCallback b], rfl, ?_, fun _ => Or.inr (Or.inl rfl)⟩
          intro _ hn
          cases b with
          | true => exact ⟨rfl, rfl⟩
          | false => simp at hn
      obtain ⟨evs, h1, h2, h3⟩ := hext
      by_cases he : g.trace = []
      · rcases h3 he with h | h | ⟨j, t, c, h⟩
        · exact Or.inl h
        · have ht : g'.trace = [.setCallback g'.callback] := by rw [h]; simp [State.log, he]
          cases hb : g'.callback with
          | true => rw [ht, hb]; exact Or.inr (Or.inr (Or.inr ⟨rfl, rfl⟩))
          | false => rw [ht, hb]; exact Or.inr (Or.inr (Or.inl (by simp)))
        · refine Or.inr (Or.inl (fun rest hr => ?_))
          rw [h1, he, h] at hr
          cases hr
      · rcases ih with ih | ih | ih | ⟨ih1, ih2⟩
        · exact absurd ih he
        · refine Or.inr (Or.inl (fun rest hr => ?_))
          rw [h1] at hr
          cases ht : g.trace with
          | nil => exact he ht
          | cons a l =>
            rw [ht] at hr
            simp only [List.cons_append, List.cons.injEq] at hr
            exact ih l (by rw [ht, hr.1])
        · exact Or.inr (Or.inr (Or.inl (by rw [h1]; exact List.mem_append_left _ ih)))
        · by_cases hn : Ev.setCallback false ∈ evs
          · exact Or.inr (Or.inr (Or.inl (by rw [h1]; exact List.mem_append_right _ hn)))
          · obtain ⟨h4, h5⟩ := h2 ih1 hn
            exact Or.inr (Or.inr (Or.inr ⟨h4, by rw [h1, delivered_append, flushed_append, ih2, h5]⟩))
  obtain ⟨rest, h1, h2⟩ := hset
  rcases key g h with hk | hk | hk | hk
  · rw [h1] at hk; cases hk
  · exact absurd h1 (hk rest)
  · rw [h1] at hk
    simp [h2] at hk
  · exact hk.2

/-- C58.  A thread that calls the flush callback does not hold the cache lock, and holds the callback lock. -/
theorem C58_callback_unlocked {P : Prog σ C O R L} {s₀ : σ} {g g' : State σ C O R L} {t : Nat} (h : Reach P s₀ g)
    (hw : Work P t g g') {i : Nat} (ho : flushed i g'.trace ≠ flushed i g.trace) :
    g.cacheLock ≠ some t ∧ g.cbLock = some t := by
  obtain ⟨log, hi⟩ := h.inv
  cases hw with
  | callback ht hp hr =>
    have hl := hi.locks t
    rw [ht] at hl
    refine ⟨fun e => ?_, (hl.cb (by rw [hp]; trivial)).2⟩
    have := hl.crit.2 e
    rw [hp] at this; exact this
  | lock ht hp he hc => exact absurd (by simp [State.log, State.goto, flushed]) ho
  | ret ht hp hk => exact absurd (by simp [State.log, flushed]) ho
  | _ => exact absurd rfl ho

/-- C58.  At most one thread at a time is calling the flush callback. -/
theorem C58_callback_exclusive {P : Prog σ C O R L} {s₀ : σ} {g : State σ C O R L} (h : Reach P s₀ g) {t u : Nat}
    {f f' : Frame C L O} (ht : f ∈ g.threads t) (hu : f' ∈ g.threads u) (hf : f.pc.Cb) (hf' : f'.pc.Cb) : t = u := by
  obtain ⟨log, hi⟩ := h.inv
  have key : ∀ t f, f ∈ g.threads t → f.pc.Cb → g.cbLock = some t := by
    intro t f ht hf
    have hl := hi.locks t
    generalize g.threads t = x at ht hl
    match x, hl, ht with
    | [f1], hl, ht =>
      rw [List.mem_singleton] at ht
      subst ht
      exact hl.2.1 hf
    | [f1, f2], hl, ht => exact hl.2.2.2
  have h1 := key t f ht hf
  have h2 := key u f' hu hf'
  rw [h1] at h2
  exact Option.some.inj h2

/-- What the flush callback calls removes nothing from the cache. -/
def Quiet (P : Prog σ C O R L) (s₀ : σ) : Prop :=
  ∀ r c, P.react r = some c → ∀ log s o items s', Serial P s₀ log s → Alone P c s o items s' → items = []

/-- A call in progress has run into undefined behaviour, as it does when made alone. -/
def Fails (P : Prog σ C O R L) (s₀ : σ) (g : State σ C O R L) : Prop :=
  ∃ t f fs log s l b, g.threads t = f :: fs ∧ f.pc = .inside l ∧ Serial P s₀ log s ∧ Runs P (P.start f.call) s [] l g.st b ∧
    P.exec l g.st = .fault

/-- The call made by the callback is one of those it makes. -/
theorem Reach.nested {P : Prog σ C O R L} {s₀ : σ} {g : State σ C O R L} (h : Reach P s₀ g) {t : Nat} {f f1 : Frame C L O}
    (ht : g.threads t = [f, f1]) : ∃ r, P.react r = some f.call := by
  suffices hs : ∀ g : State σ C O R L, Reach P s₀ g → ∀ t f f1, g.threads t = [f, f1] → ∃ r, P.react r = some f.call from hs g h t f f1 ht
  clear ht h
  intro g h
  induction h with
  | new => intro t f f1 ht; cases ht
  | @step g g' hr hs ih =>
    have goto : ∀ t (f : Frame C L O) fs pc, g.threads t = f :: fs → ∀ u x x1,
        upd g.threads t (⟨f.id, f.call, pc⟩ :: fs) u = [x, x1] → ∃ r, P.react r = some x.call := by
      intro t f fs pc ht u x x1 hx
      by_cases hu : u = t
      · subst hu
        rw [upd_same] at hx
        cases hx
        exact ih u f x1 ht
      · rw [upd_other _ _ hu] at hx
        exact ih u x x1 hx
    obtain ⟨log, hi⟩ := hr.inv
    intro u x x1 hx
    cases hs with
    | work t hw =>
      cases hw with
      | callback ht hp hr' =>
        rename_i f fs o k r
        dsimp only at hx
        have hl := hi.locks t
        rw [ht] at hl
        obtain ⟨hfs, hcb⟩ := hl.cb (by rw [hp]; trivial)
        subst hfs
        split at hx
        · rename_i c h1 h2
          by_cases hu : u = t
          · subst hu
            have : (((g.goto u f [] (.called o k)).log (.flush f.id r g.callback)).invoke u c).threads u =
                [⟨g.calls, c, .begin⟩, ⟨f.id, f.call, .called o k⟩] := by
              simp [State.invoke, State.log, State.goto, upd]
            rw [this] at hx
            cases hx
            exact ⟨r, h2⟩
          · have : (((g.goto t f [] (.called o k)).log (.flush f.id r g.callback)).invoke t c).threads u = g.threads u := by
              simp [State.invoke, State.log, State.goto, upd, hu]
            rw [this] at hx
            exact ih u x x1 hx
        · exact goto t f [] (.called o k) ht u x x1 hx
      | early ht _ _ => exact goto _ _ _ _ ht u x x1 hx
      | lock ht _ _ _ => exact goto _ _ _ _ ht u x x1 hx
      | swap ht _ => exact goto _ _ _ _ ht u x x1 hx
      | next ht _ _ => exact goto _ _ _ _ ht u x x1 hx
      | done ht _ _ => exact goto _ _ _ _ ht u x x1 hx
      | unswap ht _ => exact goto _ _ _ _ ht u x x1 hx
      | unlock ht _ => exact goto _ _ _ _ ht u x x1 hx
      | cbLock ht _ _ _ => exact goto _ _ _ _ ht u x x1 hx
      | cbUnlock ht _ => exact goto _ _ _ _ ht u x x1 hx
      | ret ht hp hk =>
        rename_i f fs o k
        by_cases hu : u = t
        · subst hu
          have hx : upd g.threads u fs u = [x, x1] := hx
          rw [upd_same] at hx
          subst hx
          have hl := hi.locks u
          rw [ht] at hl
          exact hl.elim
        · have hx : upd g.threads t fs u = [x, x1] := hx
          rw [upd_other _ _ hu] at hx
          exact ih u x x1 hx
    | call t c ht =>
      by_cases hu : u = t
      · subst hu
        have hx : upd g.threads u (⟨g.calls, c, .begin⟩ :: g.threads u) u = [x, x1] := hx
        rw [upd_same, ht] at hx
        cases hx
      · have hx : upd g.threads t (⟨g.calls, c, .begin⟩ :: g.threads t) u = [x, x1] := hx
        rw [upd_other _ _ hu] at hx
        exact ih u x x1 hx
    | setCallback b _ => exact ih u x x1 hx

/-- C58.  If the flush callback does not call the aggregator, or makes only calls that remove
nothing, then whenever some call is in progress some thread in a call can go on, unless one has run
into undefined behaviour. -/
theorem C58_no_deadlock {P : Prog σ C O R L} {s₀ : σ} {g : State σ C O R L} (hq : Quiet P s₀)
    (h : Reach P s₀ g) {t : Nat} (ht : g.threads t ≠ []) : (∃ u g', g.threads u ≠ [] ∧ Work P u g g') ∨ Fails P s₀ g := by
  by_cases hs : Fails P s₀ g
  · exact .inr hs
  left
  obtain ⟨log, hi⟩ := h.inv
  have hcore := hi.core
  unfold Core at hcore
  cases hc : g.cacheLock with
  | some u =>
    rw [hc] at hcore
    obtain ⟨f, fs, s, h1, h2, h3, h4, h5⟩ := hcore
    refine ⟨u, ?_⟩
    unfold HolderOk at h5
    cases hp : f.pc with
    | locked => exact ⟨_, by simp [h1], .swap h1 hp⟩
    | inside l =>
      rw [hp] at h5
      cases hx : P.exec l g.st with
      | next l' s' e => exact ⟨_, by simp [h1], .next h1 hp hx⟩
      | done o => exact ⟨_, by simp [h1], .done h1 hp hx⟩
      | fault => exact absurd ⟨u, f, fs, log, s, l, _, h1, hp, h2, h5.2, hx⟩ hs
    | leaving o => exact ⟨_, by simp [h1], .unswap h1 hp⟩
    | unlocking o => exact ⟨_, by simp [h1], .unlock h1 hp⟩
    | begin => rw [hp] at h5; exact h5.elim
    | flushing o k => rw [hp] at h5; exact h5.elim
    | calling o k => rw [hp] at h5; exact h5.elim
    | called o k => rw [hp] at h5; exact h5.elim
  | none =>
    -- the innermost method of a thread in a call can go on unless it waits for the callback lock
    have go : ∀ u f fs, g.threads u = f :: fs →
        (∀ o k, f.pc = .flushing o k → k < (g.items f.id).length → g.cbLock = none) → ∃ g', Work P u g g' := by
      intro u f fs hu hfree
      have hl := hi.locks u
      rw [hu] at hl
      have hnc : ¬ f.pc.Crit := fun e => by have := hl.crit.1 e; rw [hc] at this; cases this
      cases hp : f.pc with
      | begin =>
        cases he : P.early f.call with
        | none => exact ⟨_, .lock hu hp he hc⟩
        | some o => exact ⟨_, .early hu hp he⟩
      | flushing o k =>
        by_cases hk : k < (g.items f.id).length
        · exact ⟨_, .cbLock hu hp hk (hfree o k hp hk)⟩
        · exact ⟨_, .ret hu hp (by omega)⟩
      | calling o k =>
        have hfo := (hi.frames u f (by simp [hu])).1
        unfold FrameOk at hfo
        rw [hp] at hfo
        exact ⟨_, .callback hu hp (List.getElem?_eq_getElem hfo.2.2)⟩
      | called o k => exact ⟨_, .cbUnlock hu hp⟩
      | locked => rw [hp] at hnc; exact absurd trivial hnc
      | inside l => rw [hp] at hnc; exact absurd trivial hnc
      | leaving o => rw [hp] at hnc; exact absurd trivial hnc
      | unlocking o => rw [hp] at hnc; exact absurd trivial hnc
    cases hb : g.cbLock with
    | none =>
      cases hth : g.threads t with
      | nil => exact absurd hth ht
      | cons f fs =>
        obtain ⟨g', hw⟩ := go t f fs hth (fun _ _ _ _ => hb)
        exact ⟨t, g', ht, hw⟩
    | some u =>
      have hl := hi.locks u
      cases hth : g.threads u with
      | nil => rw [hth] at hl; exact absurd hb hl.2
      | cons f fs =>
        rw [hth] at hl
        have : ∀ o k, f.pc = .flushing o k → k < (g.items f.id).length → g.cbLock = none := by
          intro o k hp hk
          match fs, hl, hth with
          | [], hl, hth =>
            have := hl.2.2 hb
            rw [hp] at this; exact this.elim
          | [f1], hl, hth =>
            -- a call made by the callback removes nothing
            obtain ⟨r, hr⟩ := h.nested hth
            have hfo := (hi.frames u f (by simp [hth])).1
            unfold FrameOk at hfo
            rw [hp] at hfo
            obtain ⟨hmem, _, _⟩ := hfo
            rw [hc] at hcore
            have hser := hcore.2.1
            have : ∀ (log : List (Entry C O R)) s, Serial P s₀ log s → ∀ e ∈ log, P.react r = some e.call → e.items = [] := by
              intro log s hs
              induction hs with
              | nil => intro e he; cases he
              | @snoc log s e s' hs' ha ih =>
                intro e' he' hr'
                rcases List.mem_append.1 he' with he' | he'
                · exact ih e' he' hr'
                · rw [List.mem_singleton] at he'
                  subst he'
                  exact hq r _ hr' _ _ _ _ _ hs' ha
            have he := this log _ hser _ hmem hr
            simp only at he
            rw [he] at hk
            simp at hk
        obtain ⟨g', hw⟩ := go u f fs hth this
        exact ⟨u, g', by simp [hth], hw⟩

/-- C78.  If every call made alone comes to an end, then every schedule without new calls is finite,
and when no thread in a call can go on, every call has returned, unless one has run into undefined
behaviour. -/
theorem C78_all_return {P : Prog σ C O R L} {s₀ : σ} {g : State σ C O R L} (hq : Quiet P s₀)
    (hterm : ∀ log s c, Serial P s₀ log s → ∃ n, Ends P n (P.start c) s) (h : Reach P s₀ g) :
    Acc (fun y x => ∃ t, Work P t x y) g ∧
    ((∀ u g', ¬ Work P u g g') →
      ((∀ t, g.threads t = []) ∧ ∀ i ∈ invoked g.trace, i ∈ returned g.trace) ∨ Fails P s₀ g) := by
  obtain ⟨N, hF⟩ := h.few
  obtain ⟨n, hn⟩ := h.near hterm
  refine ⟨acc_work hterm _ _ _ n g h hF hn rfl rfl rfl, fun hstuck => ?_⟩
  by_cases hs : Fails P s₀ g
  · exact .inr hs
  left
  have hidle : ∀ t, g.threads t = [] := by
    intro t
    by_cases ht : g.threads t = []
    · exact ht
    · rcases C58_no_deadlock hq h ht with ⟨u, g', _, hw⟩ | hx
      · exact absurd hw (hstuck u g')
      · exact absurd hx hs
  refine ⟨hidle, ?_⟩
  -- a call that was made is in progress or has returned
  have key : ∀ g : State σ C O R L, Reach P s₀ g → ∀ i ∈ invoked g.trace, i ∈ returned g.trace ∨ ∃ t, ∃ f ∈ g.threads t, f.id = i := by
    clear hidle hstuck hn hF h
    intro g h
    induction h with
    | new => intro i hi; cases hi
    | @step g g' hr hst ih =>
      have goto : ∀ t (f : Frame C L O) fs pc (tr : List (Ev C O R)), g.threads t = f :: fs → invoked tr = invoked g.trace →
          returned tr = returned g.trace → ∀ i ∈ invoked tr, i ∈ returned tr ∨
            ∃ u, ∃ x ∈ upd g.threads t (⟨f.id, f.call, pc⟩ :: fs) u, x.id = i := by
        intro t f fs pc tr ht h1 h2 i hi
        rw [h1] at hi
        rw [h2]
        rcases ih i hi with h3 | ⟨u, x, hx, h3⟩
        · exact Or.inl h3
        · right
          by_cases hu : u = t
          · subst hu
            rw [ht] at hx
            rcases List.mem_cons.1 hx with rfl | hx
            · exact ⟨u, ⟨x.id, x.call, pc⟩, by rw [upd_same]; exact List.mem_cons_self, h3⟩
            · exact ⟨u, x, by rw [upd_same]; exact List.mem_cons_of_mem _ hx, h3⟩
          · exact ⟨u, x, by rw [upd_other _ _ hu]; exact hx, h3⟩
      cases hst with
      | work t hw =>
        cases hw with
        | callback ht hp hr' =>
          rename_i f fs o k r
          dsimp only
          have h1 := goto t f fs (.called o k) (g.trace ++ [.flush f.id r g.callback]) ht (by simp [invoked]) (by simp [returned])
          split
          · rename_i c _ _
            intro i hi
            have hi : i ∈ invoked ((g.trace ++ [.flush f.id r g.callback]) ++ [.inv g.calls t c]) := hi
            have e2 : returned ((g.trace ++ [Ev.flush f.id r g.callback]) ++ [Ev.inv g.calls t c]) =
                returned (g.trace ++ [Ev.flush f.id r g.callback]) := by simp [returned]
            show i ∈ returned ((g.trace ++ [Ev.flush f.id r g.callback]) ++ [Ev.inv g.calls t c]) ∨ _
            rw [e2]
            rw [invoked_append] at hi
            rcases List.mem_append.1 hi with hi | hi
            · rcases h1 i hi with h3 | ⟨u, x, hx, h3⟩
              · exact Or.inl h3
              · refine Or.inr ⟨u, x, ?_, h3⟩
                show x ∈ upd (upd g.threads t _) t (_ :: upd g.threads t _ t) u
                by_cases hu : u = t
                · subst hu; rw [upd_same]; exact List.mem_cons_of_mem _ hx
                · rw [upd_other _ _ hu]; exact hx
            · refine Or.inr ⟨t, ⟨g.calls, c, .begin⟩, ?_, ?_⟩
              · show _ ∈ upd (upd g.threads t _) t (_ :: upd g.threads t _ t) t
                rw [upd_same]; exact List.mem_cons_self
              · simp [invoked] at hi; exact hi.symm
          · exact h1
        | early ht _ _ => exact goto _ _ _ _ _ ht rfl rfl
        | lock ht _ _ _ => exact goto _ _ _ _ _ ht (by simp [State.log, State.goto, invoked]) (by simp [State.log, State.goto, returned])
        | swap ht _ => exact goto _ _ _ _ _ ht rfl rfl
        | next ht _ _ => exact goto _ _ _ _ _ ht rfl rfl
        | done ht _ _ => exact goto _ _ _ _ _ ht rfl rfl
        | unswap ht _ => exact goto _ _ _ _ _ ht rfl rfl
        | unlock ht _ => exact goto _ _ _ _ _ ht rfl rfl
        | cbLock ht _ _ _ => exact goto _ _ _ _ _ ht rfl rfl
        | cbUnlock ht _ => exact goto _ _ _ _ _ ht rfl rfl
        | ret ht hp hk =>
          rename_i f fs o k
          intro i hi
          have hi : i ∈ invoked (g.trace ++ [.ret f.id o]) := hi
          have e1 : invoked (g.trace ++ [Ev.ret f.id o]) = invoked g.trace := by simp [invoked]
          show i ∈ returned (g.trace ++ [.ret f.id o]) ∨ _
          rw [e1] at hi
          have e2 : returned (g.trace ++ [Ev.ret f.id o]) = returned g.trace ++ [f.id] := by simp [returned]
          rw [e2]
          rcases ih i hi with h3 | ⟨u, x, hx, h3⟩
          · exact Or.inl (List.mem_append_left _ h3)
          · by_cases hu : u = t
            · subst hu
              rw [ht] at hx
              rcases List.mem_cons.1 hx with rfl | hx
              · exact Or.inl (List.mem_append_right _ (by simp [h3]))
              · exact Or.inr ⟨u, x, by show x ∈ upd g.threads u fs u; rw [upd_same]; exact hx, h3⟩
            · exact Or.inr ⟨u, x, by show x ∈ upd g.threads t fs u; rw [upd_other _ _ hu]; exact hx, h3⟩
      | call t c ht =>
        intro i hi
        have hi : i ∈ invoked (g.trace ++ [.inv g.calls t c]) := hi
        show i ∈ returned (g.trace ++ [.inv g.calls t c]) ∨ _
        have e2 : returned (g.trace ++ [Ev.inv g.calls t c]) = returned g.trace := by simp [returned]
        rw [e2]
        rw [invoked_append] at hi
        rcases List.mem_append.1 hi with hi | hi
        · rcases ih i hi with h3 | ⟨u, x, hx, h3⟩
          · exact Or.inl h3
          · refine Or.inr ⟨u, x, ?_, h3⟩
            show x ∈ upd g.threads t (_ :: g.threads t) u
            by_cases hu : u = t
            · subst hu; rw [upd_same]; exact List.mem_cons_of_mem _ hx
            · rw [upd_other _ _ hu]; exact hx
        · refine Or.inr ⟨t, ⟨g.calls, c, .begin⟩, ?_, ?_⟩
          · show _ ∈ upd g.threads t (_ :: g.threads t) t
            rw [upd_same]; exact List.mem_cons_self
          · simp [invoked] at hi; exact hi.symm
      | setCallback b _ =>
        intro i hi
        have hi : i ∈ invoked (g.trace ++ [.setCallback b]) := hi
        have e1 : invoked (g.trace ++ [Ev.setCallback b]) = invoked g.trace := by simp [invoked]
        rw [e1] at hi
        show i ∈ returned (g.trace ++ [.setCallback b]) ∨ _
        have e2 : returned (g.trace ++ [Ev.setCallback b]) = returned g.trace := by simp [returned]
        rw [e2]
        exact ih i hi
  intro i hi
  rcases key g h i hi with h1 | ⟨t, f, hf, _⟩
  · exact h1
  · rw [hidle t] at hf; cases hf

/-! ### The aggregators -/

theorem seq_ends (f : C → σ → Res (σ × O × List R)) (early : C → Option O) (react : R → Option C) (c : C) (s : σ) :
    ∃ n, Ends (seqProg f early react) n (.todo c) s := by
  have emit : ∀ (items : List R) (o : O) (s : σ), Ends (seqProg f early react) items.length (.emitting items o) s := by
    intro items o
    induction items with
    | nil => intro s; exact .stop (fun l' s' e h => by cases h)
    | cons r rs ih => intro s; exact .next rfl (ih s)
  cases hf : f c s with
  | error e =>
    refine ⟨0, .stop (fun l' s' e' h => ?_)⟩
    simp only [seqProg, hf] at h
    cases h
  | ok v =>
    obtain ⟨s', o, items⟩ := v
    refine ⟨_, .next (l' := .emitting items o) (s' := s') (e := none) ?_ (emit items o s')⟩
    simp only [seqProg, hf]

theorem seq_fails {f : C → σ → Res (σ × O × List R)} {early : C → Option O} {react : R → Option C} {s₀ : σ}
    {g : State σ C O R (Loc C O R)} (h : Fails (seqProg f early react) s₀ g) :
    ∃ t x fs log s err, g.threads t = x :: fs ∧ Serial (seqProg f early react) s₀ log s ∧ f x.call s = .error err := by
  obtain ⟨t, x, fs, log, s, l, b, h1, _, h3, h4, h5⟩ := h
  rcases seq_runs h4 with ⟨rfl, hs, rfl⟩ | ⟨o, items, rest, _, rfl, _⟩
  · cases hf : f x.call s with
    | error err => exact ⟨t, x, fs, log, s, err, h1, h3, hf⟩
    | ok v =>
      rw [hs] at h5
      simp only [seqProg, hf] at h5
      cases h5
  · cases rest <;> cases h5

/-- C58, C78 for the report aggregator whose flush callback does not call it, as in the client: under
every schedule all calls return, unless the operations of a report and of earlier ones overflow an
integer. -/
theorem C78_report {D : Type} [DoubleOps D] {E : Lru.Env} {cfg : AggConfig} {s₀ : AggState (OpAgg D)}
    (h0 : Report.new E cfg = .ok s₀) (hm : E.dbg = true → Lru.Mono E.clk)
    {g : State (AggState (OpAgg D)) (Report.Call D) Status (ReportRequest D) (Loc (Report.Call D) Status (ReportRequest D))}
    (h : Reach (reportProg E cfg (fun _ => none)) (s₀.setFlushCallback true) g) :
    Acc (fun y x => ∃ t, Work (reportProg E cfg (fun _ => none)) t x y) g ∧
    ((∀ u g', ¬ Work (reportProg E cfg (fun _ => none)) u g g') →
      ((∀ t, g.threads t = []) ∧ ∀ i ∈ invoked g.trace, i ∈ returned g.trace) ∨
      ∃ t f fs hist s q, g.threads t = f :: fs ∧ Report.Reach E cfg hist s ∧ f.call = .report q ∧
        Report.step E cfg (.report q) s = .error .signedOverflow) := by
  have hser : ∀ log s, Serial (reportProg E cfg (fun _ => none)) (s₀.setFlushCallback true) log s →
      ∃ hist, Report.Reach E cfg hist s := by
    intro log s hs
    induction hs with
    | nil => exact ⟨[], .init h0⟩
    | @snoc log s e s' _ ha ih =>
      obtain ⟨hist, h1⟩ := ih
      have hs : Report.step E cfg e.call s = .ok (s', e.out, e.items) := by
        rcases seq_alone ha with ⟨he, hi, rfl⟩ | ⟨_, hf⟩
        · rw [hi]; exact report_early h1 he
        · exact hf
      exact ⟨_, .call h1 hs⟩
  have hall := C78_all_return (fun r c hr => by cases hr) (fun _ s c _ => seq_ends _ _ _ c s) h
  refine ⟨hall.1, fun hw => (hall.2 hw).imp_right fun hx => ?_⟩
  obtain ⟨t, f, fs, log, s, err, h1, h2, h3⟩ := seq_fails hx
  obtain ⟨hist, h4⟩ := hser log s h2
  cases hc : f.call with
  | report q =>
    rw [hc] at h3
    refine ⟨t, f, fs, hist, s, q, h1, h4, hc, ?_⟩
    rcases Report.C64_report_returns h4 hm (.report q) with ⟨v, hv⟩ | hv
    · rw [hv] at h3; cases h3
    · exact hv
  | flush =>
    obtain ⟨_, _, hv⟩ := (Report.C64_report_flush_returns h4 hm).1
    rw [hc, hv] at h3; cases h3
  | flushAll =>
    obtain ⟨_, _, hv⟩ := (Report.C64_report_flush_returns h4 hm).2
    rw [hc, hv] at h3; cases h3

/-- The same for the check aggregator. -/
theorem C78_check {D : Type} [DoubleOps D] {E : Lru.Env} {cfg : AggConfig} {s₀ : AggState (Check.Elem D)}
    (h0 : Check.new E cfg = .ok s₀) (hm : E.dbg = true → Lru.Mono E.clk)
    {g : State (AggState (Check.Elem D)) (Check.Call D) Check.Out (CheckRequest D) (Loc (Check.Call D) Check.Out (CheckRequest D))}
    (h : Reach (checkProg E cfg (fun _ => none)) (s₀.setFlushCallback true) g) :
    Acc (fun y x => ∃ t, Work (checkProg E cfg (fun _ => none)) t x y) g ∧
    ((∀ u g', ¬ Work (checkProg E cfg (fun _ => none)) u g g') →
      ((∀ t, g.threads t = []) ∧ ∀ i ∈ invoked g.trace, i ∈ returned g.trace) ∨
      ∃ t f fs hist s q, g.threads t = f :: fs ∧ Check.Reach E cfg hist s ∧ f.call = .check q ∧
        Check.step E cfg (.check q) s = .error .signedOverflow) := by
  have hser : ∀ log s, Serial (checkProg E cfg (fun _ => none)) (s₀.setFlushCallback true) log s →
      ∃ hist, Check.Reach E cfg hist s := by
    intro log s hs
    induction hs with
    | nil => exact ⟨[], .init h0⟩
    | @snoc log s e s' _ ha ih =>
      obtain ⟨hist, h1⟩ := ih
      have hs : Check.step E cfg e.call s = .ok (s', e.out, e.items) := by
        rcases seq_alone ha with ⟨he, hi, rfl⟩ | ⟨_, hf⟩
        · rw [hi]; exact check_early h1 he
        · exact hf
      exact ⟨_, .call h1 hs⟩
  have hall := C78_all_return (fun r c hr => by cases hr) (fun _ s c _ => seq_ends _ _ _ c s) h
  refine ⟨hall.1, fun hw => (hall.2 hw).imp_right fun hx => ?_⟩
  obtain ⟨t, f, fs, log, s, err, h1, h2, h3⟩ := seq_fails hx
  obtain ⟨hist, h4⟩ := hser log s h2
  rcases Check.C68_check_returns h4 hm f.call with ⟨v, hv⟩ | ⟨⟨q, hq⟩, hv⟩
  · rw [hv] at h3; cases h3
  · exact ⟨t, f, fs, hist, s, q, h1, h4, hq, hq ▸ hv⟩

/-- The same for the quota aggregator when its flush callback completes requests later, as with the
client and a transport that does not complete in place: only a `Quota` call can fail (see C44, C48). -/
theorem C78_quota {D : Type} [DoubleOps D] {E : Lru.Env} {cfg : AggConfig} {depth : Nat} {s₀ : Quota.State D}
    (h0 : Quota.new E cfg (depth + 1) = .ok s₀) (hm : Lru.Mono E.clk) (hf : 0 < E.extraFuel)
    {g : State (Quota.State D) (Quota.Call D) Quota.Out (AllocateQuotaRequest D)
      (Loc (Quota.Call D) Quota.Out (AllocateQuotaRequest D))}
    (h : Reach (quotaProg E cfg depth (fun _ => none)) { s₀ with base := s₀.base.setFlushCallback true } g) :
    Acc (fun y x => ∃ t, Work (quotaProg E cfg depth (fun _ => none)) t x y) g ∧
    ((∀ u g', ¬ Work (quotaProg E cfg depth (fun _ => none)) u g g') →
      ((∀ t, g.threads t = []) ∧ ∀ i ∈ invoked g.trace, i ∈ returned g.trace) ∨
      ∃ t f fs hist s q err, g.threads t = f :: fs ∧ Quota.Reach E cfg hist s ∧ f.call = .quota q ∧
        Quota.step E cfg (depth + 1) (.quota q) s = .error err) := by
  have hser : ∀ log s, Serial (quotaProg E cfg depth (fun _ => none)) { s₀ with base := s₀.base.setFlushCallback true } log s →
      ∃ hist, Quota.Reach E cfg hist s := by
    intro log s hs
    induction hs with
    | nil => exact ⟨[], .init h0⟩
    | @snoc log s e s' _ ha ih =>
      obtain ⟨hist, h1⟩ := ih
      have hs : Quota.step E cfg (depth + 1) e.call s = .ok (s', e.out, e.items) := by
        rcases seq_alone ha with ⟨he, hi, rfl⟩ | ⟨_, hf⟩
        · rw [hi]; exact quota_early h1 he
        · exact hf
      exact ⟨_, .call h1 hs⟩
  have hall := C78_all_return (fun r c hr => by cases hr) (fun _ s c _ => seq_ends _ _ _ c s) h
  refine ⟨hall.1, fun hw => (hall.2 hw).imp_right fun hx => ?_⟩
  obtain ⟨t, f, fs, log, s, err, h1, h2, h3⟩ := seq_fails hx
  obtain ⟨hist, h4⟩ := hser log s h2
  by_cases hq : ∃ q, f.call = .quota q
  · obtain ⟨q, hq⟩ := hq
    exact ⟨t, f, fs, hist, s, q, err, h1, h4, hq, hq ▸ h3⟩
  · obtain ⟨v, hv⟩ := Client.quota_returns (K := { Client.exK with envQ := E, cfgQ := cfg, depth := depth }) ⟨hm, hf⟩ h4 f.call (fun q e => hq ⟨q, e⟩)
    rw [hv] at h3; cases h3

/-! ### Concrete schedules -/
section examples

/-- What a schedule says to do next. -/
inductive Act (C : Type) where
  | call (t : Nat) (c : C)
  | work (t : Nat)
  | setCallback (b : Bool)

/-- The step thread `t` can make. -/
def work? (P : Prog σ C O R L) (t : Nat) (g : State σ C O R L) : Option (State σ C O R L) :=
  match g.threads t with
  | [] => none
  | f :: fs => match f.pc with
    | .begin => match P.early f.call, g.cacheLock with
      | some o, _ => some (g.goto t f fs (.flushing o 0))
      | none, none => some (({ g with cacheLock := some t }.goto t f fs .locked).log (.enter f.id))
      | none, some _ => none
    | .locked => some ({ g with buf := some f.id }.goto t f fs (.inside (P.start f.call)))
    | .inside l => match P.exec l g.st with
      | .next l' s' emit => some ({ g with st := s', items := addRemoved P g emit }.goto t f fs (.inside l'))
      | .done o => some (g.goto t f fs (.leaving o))
      | .fault => none
    | .leaving o => some ({ g with buf := none }.goto t f fs (.unlocking o))
    | .unlocking o => some ({ g with cacheLock := none }.goto t f fs (.flushing o 0))
    | .flushing o k =>
      if k < (g.items f.id).length then
        match g.cbLock with
        | none => some ({ g with cbLock := some t }.goto t f fs (.calling o k))
        | some _ => none
      else some ({ g with threads := upd g.threads t fs }.log (.ret f.id o))
    | .calling o k => match (g.items f.id)[k]? with
      | some r => some
        (let g' := (g.goto t f fs (.called o k)).log (.flush f.id r g.callback)
         match g.callback, P.react r with
         | true, some c => g'.invoke t c
         | _, _ => g')
      | none => none
    | .called o k => some ({ g with cbLock := none }.goto t f fs (.flushing o (k + 1)))

theorem work?_iff {P : Prog σ C O R L} {t : Nat} {g g' : State σ C O R L} : work? P t g = some g' ↔ Work P t g g' := by
  constructor
  · intro h
    unfold work? at h
    split at h
    · cases h
    · rename_i f fs ht
      split at h
      · rename_i hp
        split at h
        · rename_i o he; cases h; exact .early ht hp he
        · rename_i he hc; cases h; exact .lock ht hp he hc
        · cases h
      · rename_i hp; cases h; exact .swap ht hp
      · rename_i l hp
        split at h
        · rename_i hx; cases h; exact .next ht hp hx
        · rename_i hx; cases h; exact .done ht hp hx
        · cases h
      · rename_i hp; cases h; exact .unswap ht hp
      · rename_i hp; cases h; exact .unlock ht hp
      · rename_i o k hp
        split at h
        · rename_i hk
          split at h
          · rename_i hc; cases h; exact .cbLock ht hp hk hc
          · cases h
        · rename_i hk; cases h; exact .ret ht hp (by omega)
      · rename_i o k hp
        split at h
        · rename_i r hr; cases h; exact .callback ht hp hr
        · cases h
      · rename_i hp; cases h; exact .cbUnlock ht hp
  · intro h
    unfold work?
    cases h with
    | early ht hp he => rw [ht]; simp only [hp, he]
    | lock ht hp he hc => rw [ht]; simp only [hp, he, hc]
    | swap ht hp => rw [ht]; simp only [hp]
    | next ht hp hx => rw [ht]; simp only [hp, hx]
    | done ht hp hx => rw [ht]; simp only [hp, hx]
    | unswap ht hp => rw [ht]; simp only [hp]
    | unlock ht hp => rw [ht]; simp only [hp]
    | cbLock ht hp hk hc => rw [ht]; simp only [hp, hc, if_pos hk]
    | callback ht hp hr => rw [ht]; simp only [hp, hr]; rfl
    | cbUnlock ht hp => rw [ht]; simp only [hp]
    | ret ht hp hk => rw [ht]; simp only [hp, if_neg (Nat.not_lt.2 hk)]

/-- Follow a schedule, skipping what cannot be done. -/
def act (P : Prog σ C O R L) (g : State σ C O R L) : Act C → State σ C O R L
  | .call t c => match g.threads t with | [] => g.invoke t c | _ => g
  | .work t => (work? P t g).getD g
  | .setCallback b => match g.cbLock with | none => { g with callback := b }.log (.setCallback b) | some _ => g

theorem act_reach {P : Prog σ C O R L} {s₀ : σ} (acts : List (Act C)) (g : State σ C O R L) (h : Reach P s₀ g) :
    Reach P s₀ (acts.foldl (act P) g) := by
  induction acts generalizing g with
  | nil => exact h
  | cons a acts ih =>
    refine ih _ ?_
    cases a with
    | call t c =>
      simp only [act]
      split
      · rename_i ht; exact .step h (.call t c ht)
      · exact h
    | work t =>
      simp only [act]
      cases hw : work? P t g with
      | none => exact h
      | some g' => exact .step h (.work t (work?_iff.1 hw))
    | setCallback b =>
      simp only [act]
      split
      · rename_i hc; exact .step h (.setCallback b hc)
      · exact h

def Act.below (N : Nat) : Act C → Bool
  | .call t _ | .work t => decide (t < N)
  | .setCallback _ => true

theorem act_few {P : Prog σ C O R L} {N : Nat} (acts : List (Act C)) (hN : acts.all (Act.below N) = true) (g : State σ C O R L)
    (h : Few g N) : Few (acts.foldl (act P) g) N := by
  induction acts generalizing g with
  | nil => exact h
  | cons a acts ih =>
    rw [List.all_cons, Bool.and_eq_true] at hN
    refine ih hN.2 _ ?_
    cases a with
    | call t c =>
      have ht : t < N := of_decide_eq_true hN.1
      simp only [act]
      split
      · intro u hu
        show upd _ t _ u = []
        rw [upd_other _ _ (by omega)]
        exact h u hu
      · exact h
    | work t =>
      simp only [act]
      cases hw : work? P t g with
      | none => exact h
      | some g' => exact ((work?_iff.1 hw).few h).2.1
    | setCallback b =>
      simp only [act]
      split <;> exact h

/-- `n` steps of thread `t`. -/
def steps (t n : Nat) : List (Act C) := List.replicate n (.work t)

def exReportState : AggState (OpAgg Int) :=
  match Report.new Report.exEnv Report.exCfg with | .ok s => s | .error _ => ⟨none, 0, false⟩

theorem exReportState_eq : Report.new (D := Int) Report.exEnv Report.exCfg = .ok exReportState := by decide +kernel

abbrev exReportProg := reportProg (D := Int) Report.exEnv Report.exCfg (fun _ => none)

/-- Two threads report; the one that called second gets the lock first; the other evicts its
operation, and flushes it only after a third call has cleared the cache. -/
def exSchedule : List (Act (Report.Call Int)) :=
  [.setCallback true, .call 0 (Report.exReport [Report.exNamed 1 5, Report.exNamed 2 1]),
    .call 1 (Report.exReport [Report.exNamed 3 4])] ++ steps 1 2 ++ steps 0 3 ++ steps 1 4 ++ steps 0 8 ++ steps 1 3 ++
  [.call 1 .flushAll] ++ steps 1 7 ++ steps 0 4 ++ steps 1 12 ++ steps 0 4

/-- An event in short: its kind, its call, and the thread or the number of operations flushed. -/
def brief : Ev (Report.Call Int) Status (ReportRequest Int) → Nat × Nat × Nat
  | .inv i t _ => (0, i, t)
  | .enter i => (1, i, 0)
  | .flush i r _ => (2, i, r.operations.length)
  | .ret i _ => (3, i, 0)
  | .setCallback _ => (4, 0, 0)

theorem example_schedule : ∃ g, Reach exReportProg (exReportState.setFlushCallback true) g ∧
    g.trace.map brief =
      [(4, 0, 0), (0, 0, 0), (0, 1, 1), (1, 1, 0), (1, 0, 0), (3, 1, 0), (0, 2, 1), (1, 2, 0), (2, 0, 1), (3, 0, 0), (2, 2, 2), (3, 2, 0)] := by
  refine ⟨_, act_reach exSchedule _ .new, ?_⟩
  decide +kernel

abbrev exQuotaProg := quotaProg (D := Int) Client.exK.envQ Client.exK.cfgQ 2 (fun r => some (.cacheResponse r (Quota.exYes 7)))

def exQuotaState : Quota.State Int :=
  match Quota.new Client.exK.envQ Client.exK.cfgQ 3 with | .ok s => s | .error _ => ⟨⟨none, 0, false⟩, false⟩

theorem exQuotaState_eq : Quota.new (D := Int) Client.exK.envQ Client.exK.cfgQ 3 = .ok exQuotaState := by decide +kernel

/-- Calls by one thread, each followed to its end. -/
def exQuotaSchedule : List (Act (Quota.Call Int)) :=
  .setCallback true ::
    ([.quota (Quota.exQ 1 5), .quota (Quota.exQ 2 3), .flush, .quota (Quota.exQ 2 4), .quota (Quota.exQ 1 6), .flush] :
      List (Quota.Call Int)).flatMap (fun c => .call 0 c :: steps 0 30)

/-- C59 at the level of locks: the flush callback of the quota aggregator stores the response at
once; storing it removes another entry, and the thread waits for the callback lock it holds. -/
theorem C59_false_threads : ∃ g, Reach exQuotaProg { exQuotaState with base := exQuotaState.base.setFlushCallback true } g ∧
    g.threads 0 ≠ [] ∧ g.cbLock = some 0 ∧ ∀ u g', ¬ Work exQuotaProg u g g' := by
  have hF := act_few (P := exQuotaProg) (N := 1) exQuotaSchedule (by decide +kernel)
    (State.new { exQuotaState with base := exQuotaState.base.setFlushCallback true }) (fun _ _ => rfl)
  have h0 : (work? exQuotaProg 0 (exQuotaSchedule.foldl (act exQuotaProg)
      (State.new { exQuotaState with base := exQuotaState.base.setFlushCallback true }))).isNone = true := by decide +kernel
  have h1 : ((exQuotaSchedule.foldl (act exQuotaProg)
      (State.new { exQuotaState with base := exQuotaState.base.setFlushCallback true })).threads 0).length = 2 := by decide +kernel
  have h2 : (exQuotaSchedule.foldl (act exQuotaProg)
      (State.new { exQuotaState with base := exQuotaState.base.setFlushCallback true })).cbLock = some 0 := by decide +kernel
  refine ⟨_, act_reach exQuotaSchedule _ .new, ?_, h2, ?_⟩
  · intro e; rw [e] at h1; cases h1
  · intro u g' hw
    by_cases hu : u = 0
    · subst hu
      rw [work?_iff.2 hw] at h0
      cases h0
    · have := (hw.few hF).1
      omega

end examples

end Verif.Conc
