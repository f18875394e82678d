import Verif.Lemmas.Concurrency
/-
Every step of a thread brings the calls in progress closer to their return.
-/
namespace Verif.Conc
variable {σ C O R L : Type}

/-- The code at `l` in state `s` stops within `n` steps. -/
inductive Ends (P : Prog σ C O R L) : Nat → L → σ → Prop
  | stop {n l s} : (∀ l' s' e, P.exec l s ≠ .next l' s' e) → Ends P n l s
  | next {n l s l' s' e} : P.exec l s = .next l' s' e → Ends P n l' s' → Ends P (n + 1) l s

theorem Ends.step {P : Prog σ C O R L} {n : Nat} {l l' : L} {s s' : σ} {e : Option R} (h : Ends P n l s)
    (hx : P.exec l s = .next l' s' e) : ∃ m, n = m + 1 ∧ Ends P m l' s' := by
  cases h with
  | stop h => exact absurd hx (h _ _ _)
  | next h1 h2 =>
    rw [hx] at h1
    cases h1
    exact ⟨_, rfl, h2⟩

theorem Ends.runs {P : Prog σ C O R L} {n : Nat} {l l' : L} {s s' : σ} {b b' : List R} (h : Ends P n l s)
    (hr : Runs P l s b l' s' b') : ∃ m, Ends P m l' s' := by
  induction hr with
  | refl => exact ⟨n, h⟩
  | step _ hx ih =>
    obtain ⟨m, hm⟩ := ih
    obtain ⟨k, _, hk⟩ := hm.step hx
    exact ⟨k, hk⟩

/-- The outermost method of a thread: has it still to get and release the lock? -/
def wA : List (Frame C L O) → Nat
  | [f] | [_, f] => match f.pc with
    | .begin => 2
    | .locked | .inside _ | .leaving _ | .unlocking _ => 1
    | _ => 0
  | _ => 0

/-- The items it has still to flush, given the number of items of each call. -/
def wB (len : Nat → Nat) : List (Frame C L O) → Nat
  | [f] | [_, f] => match f.pc with
    | .flushing _ k => 3 * (len f.id - k) + 1
    | .calling _ k => 3 * (len f.id - k)
    | .called _ k => 3 * (len f.id - k) - 1
    | _ => 0
  | _ => 0

/-- A call made by the callback. -/
def wC : List (Frame C L O) → Nat
  | [f, _] => match f.pc with
    | .begin => 3
    | .locked | .inside _ | .leaving _ | .unlocking _ => 2
    | _ => 1
  | _ => 0

def total (f : Nat → Nat) : Nat → Nat
  | 0 => 0
  | n + 1 => total f n + f n

theorem total_congr {f f' : Nat → Nat} : ∀ n, (∀ u, u < n → f' u = f u) → total f' n = total f n
  | 0, _ => rfl
  | n + 1, h => by
    rw [total, total, total_congr n (fun u hu => h u (by omega)), h n (by omega)]

theorem total_upd {f f' : Nat → Nat} {t : Nat} (ho : ∀ u, u ≠ t → f' u = f u) :
    ∀ n, t < n → total f' n + f t = total f n + f' t
  | 0, h => absurd h (Nat.not_lt_zero _)
  | n + 1, h => by
    rw [total, total]
    by_cases e : t = n
    · subst e
      rw [total_congr (f := f) (f' := f') t (fun u hu => ho u (by omega))]
      omega
    · rw [ho n (Ne.symm e)]
      have := total_upd ho n (by omega)
      omega

/-- How far the holder of the cache lock is from releasing it. -/
def Near (P : Prog σ C O R L) (g : State σ C O R L) (n : Nat) : Prop :=
  ∀ t f fs, g.cacheLock = some t → g.threads t = f :: fs → match f.pc with
    | .locked => ∃ m, m + 3 ≤ n ∧ Ends P m (P.start f.call) g.st
    | .inside l => ∃ m, m + 2 ≤ n ∧ Ends P m l g.st
    | .leaving _ => 1 ≤ n
    | _ => True

theorem Near.free {P : Prog σ C O R L} {g : State σ C O R L} (h : g.cacheLock = none) : Near P g 0 := by
  intro t f fs ht
  rw [h] at ht; cases ht

theorem Reach.near {P : Prog σ C O R L} {s₀ : σ} {g : State σ C O R L}
    (hterm : ∀ log s c, Serial P s₀ log s → ∃ n, Ends P n (P.start c) s) (h : Reach P s₀ g) : ∃ n, Near P g n := by
  obtain ⟨log, hi⟩ := h.inv
  have hcore := hi.core
  unfold Core at hcore
  cases hc : g.cacheLock with
  | none => exact ⟨0, .free hc⟩
  | some t =>
    rw [hc] at hcore
    obtain ⟨f, fs, s, h1, h2, h3, h4, h5⟩ := hcore
    obtain ⟨n, hn⟩ := hterm log s f.call h2
    have key : ∀ n, (match f.pc with
        | .locked => ∃ m, m + 3 ≤ n ∧ Ends P m (P.start f.call) g.st
        | .inside l => ∃ m, m + 2 ≤ n ∧ Ends P m l g.st
        | .leaving _ => 1 ≤ n
        | _ => True) → Near P g n := by
      intro n hx t' f' fs' ht' hf'
      rw [hc] at ht'
      cases ht'
      rw [h1] at hf'
      cases hf'
      exact hx
    unfold HolderOk at h5
    cases hp : f.pc with
    | locked =>
      rw [hp] at h5 key
      refine ⟨n + 3, key _ ⟨n, Nat.le_refl _, ?_⟩⟩
      rw [h5.2.1]; exact hn
    | inside l =>
      rw [hp] at h5 key
      obtain ⟨m, hm⟩ := hn.runs h5.2
      exact ⟨m + 2, key _ ⟨m, Nat.le_refl _, hm⟩⟩
    | leaving o => rw [hp] at key; exact ⟨1, key _ (Nat.le_refl _)⟩
    | _ => rw [hp] at key; exact ⟨0, key _ trivial⟩

/-- Nobody but the first `N` threads is in a method. -/
def Few (g : State σ C O R L) (N : Nat) : Prop := ∀ t, N ≤ t → g.threads t = []

theorem Work.few {P : Prog σ C O R L} {t : Nat} {g g' : State σ C O R L} {N : Nat} (h : Few g N) (hw : Work P t g g') :
    t < N ∧ Few g' N ∧ ∀ u, u ≠ t → g'.threads u = g.threads u := by
  have key : ∀ (f : Frame C L O) fs, g.threads t = f :: fs → t < N := by
    intro f fs ht
    by_cases hN : N ≤ t
    · rw [h t hN] at ht; cases ht
    · omega
  have key2 : ∀ (x : List (Frame C L O)), t < N → (∀ u, N ≤ u → upd g.threads t x u = []) := by
    intro x ht u hu
    rw [upd_other _ _ (by omega)]
    exact h u hu
  cases hw with
  | callback ht hp hr =>
    have hlt := key _ _ ht
    refine ⟨hlt, ?_, ?_⟩
    · intro u hu
      dsimp only
      split
      · show upd (upd g.threads t _) t _ u = []
        rw [upd_other _ _ (by omega), upd_other _ _ (by omega)]
        exact h u hu
      · exact key2 _ hlt u hu
    · intro u hu
      dsimp only
      split
      · show upd (upd g.threads t _) t _ u = _
        rw [upd_other _ _ hu, upd_other _ _ hu]
      · exact upd_other _ _ hu
  | early ht _ _ => exact ⟨key _ _ ht, key2 _ (key _ _ ht), fun u hu => upd_other _ _ hu⟩
  | lock ht _ _ _ => exact ⟨key _ _ ht, key2 _ (key _ _ ht), fun u hu => upd_other _ _ hu⟩
  | swap ht _ => exact ⟨key _ _ ht, key2 _ (key _ _ ht), fun u hu => upd_other _ _ hu⟩
  | next ht _ _ => exact ⟨key _ _ ht, key2 _ (key _ _ ht), fun u hu => upd_other _ _ hu⟩
  | done ht _ _ => exact ⟨key _ _ ht, key2 _ (key _ _ ht), fun u hu => upd_other _ _ hu⟩
  | unswap ht _ => exact ⟨key _ _ ht, key2 _ (key _ _ ht), fun u hu => upd_other _ _ hu⟩
  | unlock ht _ => exact ⟨key _ _ ht, key2 _ (key _ _ ht), fun u hu => upd_other _ _ hu⟩
  | cbLock ht _ _ _ => exact ⟨key _ _ ht, key2 _ (key _ _ ht), fun u hu => upd_other _ _ hu⟩
  | cbUnlock ht _ => exact ⟨key _ _ ht, key2 _ (key _ _ ht), fun u hu => upd_other _ _ hu⟩
  | ret ht _ _ => exact ⟨key _ _ ht, key2 _ (key _ _ ht), fun u hu => upd_other _ _ hu⟩

theorem Reach.few {P : Prog σ C O R L} {s₀ : σ} {g : State σ C O R L} (h : Reach P s₀ g) : ∃ N, Few g N := by
  induction h with
  | new => exact ⟨0, fun _ _ => rfl⟩
  | step _ hs ih =>
    obtain ⟨N, ih⟩ := ih
    cases hs with
    | work t hw => exact ⟨N, (hw.few ih).2.1⟩
    | call t c ht =>
      refine ⟨max N (t + 1), fun u hu => ?_⟩
      show upd _ t _ u = []
      rw [upd_other _ _ (by omega)]
      exact ih u (by omega)
    | setCallback b _ => exact ⟨N, ih⟩

/-- The numbers of items of the calls. -/
abbrev lens (g : State σ C O R L) : Nat → Nat := fun i => (g.items i).length

def totalA (g : State σ C O R L) (N : Nat) : Nat := total (fun u => wA (g.threads u)) N
def totalB (g : State σ C O R L) (N : Nat) : Nat := total (fun u => wB (lens g) (g.threads u)) N
def totalC (g : State σ C O R L) (N : Nat) : Nat := total (fun u => wC (g.threads u)) N

/-- A step of thread `t` does to the totals what it does to the thread. -/
theorem totals {P : Prog σ C O R L} {t : Nat} {g g' : State σ C O R L} {N : Nat} (hF : Few g N) (hw : Work P t g g')
    (hB : ∀ u, u ≠ t → wB (lens g') (g.threads u) = wB (lens g) (g.threads u)) :
    totalA g' N + wA (g.threads t) = totalA g N + wA (g'.threads t) ∧
    totalB g' N + wB (lens g) (g.threads t) = totalB g N + wB (lens g') (g'.threads t) ∧
    totalC g' N + wC (g.threads t) = totalC g N + wC (g'.threads t) := by
  obtain ⟨ht, _, ho⟩ := hw.few hF
  refine ⟨?_, ?_, ?_⟩
  · exact total_upd (f := fun u => wA (g.threads u)) (f' := fun u => wA (g'.threads u)) (fun u hu => by simp only [ho u hu]) N ht
  · refine total_upd (f := fun u => wB (lens g) (g.threads u)) (f' := fun u => wB (lens g') (g'.threads u)) (fun u hu => ?_) N ht
    simp only [ho u hu, hB u hu]
  · exact total_upd (f := fun u => wC (g.threads u)) (f' := fun u => wC (g'.threads u)) (fun u hu => by simp only [ho u hu]) N ht

theorem wB_congr {len len' : Nat → Nat} {fs : List (Frame C L O)} (h : ∀ f ∈ fs, len' f.id = len f.id) :
    wB len' fs = wB len fs := by
  match fs, h with
  | [], _ => rfl
  | [f], h => simp only [wB]; rw [h f (by simp)]
  | [f1, f], h => simp only [wB]; rw [h f (by simp)]
  | _ :: _ :: _ :: _, _ => rfl

/-- What a step does to the thread that makes it. -/
inductive Closer (a b c a' b' c' : Nat) (near : Prop) : Prop
  | a : a' < a → Closer a b c a' b' c' near
  | b : a' = a → b' < b → Closer a b c a' b' c' near
  | c : a' = a → b' = b → c' < c → Closer a b c a' b' c' near
  | d : a' = a → b' = b → c' = c → near → Closer a b c a' b' c' near

theorem closer_upd {th : Nat → List (Frame C L O)} {t : Nat} {x : List (Frame C L O)} {len : Nat → Nat} {a b c : Nat}
    {near : Prop} (h : Closer a b c (wA x) (wB len x) (wC x) near) :
    Closer a b c (wA (upd th t x t)) (wB len (upd th t x t)) (wC (upd th t x t)) near := by
  rw [upd_same]; exact h

theorem Work.closer {P : Prog σ C O R L} {s₀ : σ} {log : List (Entry C O R)} {t : Nat} {g g' : State σ C O R L}
    (hi : Inv P s₀ log g) (hw : Work P t g g') :
    (∀ u, u ≠ t → wB (lens g') (g.threads u) = wB (lens g) (g.threads u)) ∧
    Closer (wA (g.threads t)) (wB (lens g) (g.threads t)) (wC (g.threads t))
      (wA (g'.threads t)) (wB (lens g') (g'.threads t)) (wC (g'.threads t))
      (∀ n, Near P g n → ∃ m, m < n ∧ Near P g' m) := by
  cases hw with
  | @early f fs o ht hp he =>
    have hl := hi.locks t
    rw [ht] at hl
    refine ⟨fun _ _ => rfl, ?_⟩
    rw [ht]
    refine closer_upd ?_
    match fs, hl with
    | [], _ => exact .a (by simp [wA, hp])
    | [f1], hl => exact .c (by simp [wA]) (by simp [wB, State.goto, lens]) (by simp [wC, hp])
  | @lock f fs ht hp he hc =>
    have hl := hi.locks t
    rw [ht] at hl
    refine ⟨fun _ _ => rfl, ?_⟩
    rw [ht]
    refine closer_upd ?_
    match fs, hl with
    | [], _ => exact .a (by simp [wA, hp])
    | [f1], hl => exact .c (by simp [wA]) (by simp [wB, State.goto, State.log, lens]) (by simp [wC, hp])
  | @swap f fs ht hp =>
    have hl := hi.locks t
    rw [ht] at hl
    refine ⟨fun _ _ => rfl, ?_⟩
    rw [ht]
    refine closer_upd ?_
    have hn : ∀ n, Near P g n → ∃ m, m < n ∧ Near P ({ g with buf := some f.id }.goto t f fs (.inside (P.start f.call))) m := by
      intro n hn
      have hc : g.cacheLock = some t := hl.crit.1 (by rw [hp]; trivial)
      have := hn t f fs hc ht
      rw [hp] at this
      obtain ⟨m, h1, h2⟩ := this
      refine ⟨m + 2, by omega, ?_⟩
      intro t' f' fs' ht' hf'
      have ht' : g.cacheLock = some t' := ht'
      rw [hc] at ht'
      cases ht'
      have hf' := (upd_same _ _ _).symm.trans hf'
      cases hf'
      exact ⟨m, Nat.le_refl _, h2⟩
    match fs, hl, hn with
    | [], _, hn => exact .d (by simp [wA, hp]) (by simp [wB, hp]) (by simp [wC]) hn
    | [f1], hl, hn => exact .d (by simp [wA]) (by simp [wB, State.goto, lens]) (by simp [wC, hp]) hn
  | @next f fs l l' s' emit ht hp hex =>
    have hl := hi.locks t
    rw [ht] at hl
    have hc : g.cacheLock = some t := hl.crit.1 (by rw [hp]; trivial)
    have hbuf : g.buf = some f.id := by
      have hcore := hi.core
      unfold Core at hcore
      rw [hc] at hcore
      obtain ⟨f', fs', s, h1, h2, h3, h4, h5⟩ := hcore
      rw [ht] at h1
      obtain ⟨rfl, rfl⟩ := List.cons.inj h1
      unfold HolderOk at h5
      rw [hp] at h5
      exact h5.1
    have hit : ∀ i, i ≠ f.id → addRemoved P g emit i = g.items i := by
      intro i hi
      unfold addRemoved
      rw [hbuf]
      cases emit with
      | none => rfl
      | some r => exact upd_other _ _ hi
    refine ⟨fun u hu => wB_congr (fun x hx => ?_), ?_⟩
    · show (addRemoved P g emit x.id).length = _
      rw [hit _ (fun e => hi.apart t u f x (Ne.symm hu) (by simp [ht]) hx e.symm)]
    rw [ht]
    refine closer_upd ?_
    have hn : ∀ n, Near P g n → ∃ m, m < n ∧
        Near P ({ g with st := s', items := addRemoved P g emit }.goto t f fs (.inside l')) m := by
      intro n hn
      have := hn t f fs hc ht
      rw [hp] at this
      obtain ⟨m, h1, h2⟩ := this
      obtain ⟨k, rfl, h3⟩ := h2.step hex
      refine ⟨k + 2, by omega, ?_⟩
      intro t' f' fs' ht' hf'
      have ht' : g.cacheLock = some t' := ht'
      rw [hc] at ht'
      cases ht'
      have hf' := (upd_same _ _ _).symm.trans hf'
      cases hf'
      exact ⟨k, Nat.le_refl _, h3⟩
    match fs, hl, ht, hn with
    | [], _, ht, hn => exact .d (by simp [wA, hp]) (by simp [wB, hp]) (by simp [wC]) hn
    | [f1], hl, ht, hn =>
      refine .d (by simp [wA]) ?_ (by simp [wC, hp]) hn
      have hne : f1.id ≠ f.id := by
        have := hi.nodup t
        rw [ht] at this
        simp only [List.map_cons, List.map_nil, List.nodup_cons, List.mem_singleton] at this
        exact fun e => this.1 e.symm
      simp only [wB, State.goto, lens, hit f1.id hne]
  | @done f fs l o ht hp hex =>
    have hl := hi.locks t
    rw [ht] at hl
    have hc : g.cacheLock = some t := hl.crit.1 (by rw [hp]; trivial)
    refine ⟨fun _ _ => rfl, ?_⟩
    rw [ht]
    refine closer_upd ?_
    have hn : ∀ n, Near P g n → ∃ m, m < n ∧ Near P (g.goto t f fs (.leaving o)) m := by
      intro n hn
      have := hn t f fs hc ht
      rw [hp] at this
      obtain ⟨m, h1, h2⟩ := this
      refine ⟨1, by omega, ?_⟩
      intro t' f' fs' ht' hf'
      have ht' : g.cacheLock = some t' := ht'
      rw [hc] at ht'
      cases ht'
      have hf' := (upd_same _ _ _).symm.trans hf'
      cases hf'
      exact Nat.le_refl 1
    match fs, hl, hn with
    | [], _, hn => exact .d (by simp [wA, hp]) (by simp [wB, hp]) (by simp [wC]) hn
    | [f1], hl, hn => exact .d (by simp [wA]) (by simp [wB, State.goto, lens]) (by simp [wC, hp]) hn
  | @unswap f fs o ht hp =>
    have hl := hi.locks t
    rw [ht] at hl
    have hc : g.cacheLock = some t := hl.crit.1 (by rw [hp]; trivial)
    refine ⟨fun _ _ => rfl, ?_⟩
    rw [ht]
    refine closer_upd ?_
    have hn : ∀ n, Near P g n → ∃ m, m < n ∧ Near P ({ g with buf := none }.goto t f fs (.unlocking o)) m := by
      intro n hn
      have := hn t f fs hc ht
      rw [hp] at this
      refine ⟨0, this, ?_⟩
      intro t' f' fs' ht' hf'
      have ht' : g.cacheLock = some t' := ht'
      rw [hc] at ht'
      cases ht'
      have hf' := (upd_same _ _ _).symm.trans hf'
      cases hf'
      trivial
    match fs, hl, hn with
    | [], _, hn => exact .d (by simp [wA, hp]) (by simp [wB, hp]) (by simp [wC]) hn
    | [f1], hl, hn => exact .d (by simp [wA]) (by simp [wB, State.goto, lens]) (by simp [wC, hp]) hn
  | @unlock f fs o ht hp =>
    have hl := hi.locks t
    rw [ht] at hl
    refine ⟨fun _ _ => rfl, ?_⟩
    rw [ht]
    refine closer_upd ?_
    match fs, hl with
    | [], _ => exact .a (by simp [wA, hp])
    | [f1], hl => exact .c (by simp [wA]) (by simp [wB, State.goto, lens]) (by simp [wC, hp])
  | @cbLock f fs o k ht hp hk hc =>
    have hl := hi.locks t
    rw [ht, hc] at hl
    have hfs := hl.free
    subst hfs
    refine ⟨fun _ _ => rfl, ?_⟩
    rw [ht]
    refine closer_upd ?_
    exact .b (by simp [wA, hp]) (by simp [wB, hp, State.goto, lens])
  | @callback f fs o k r ht hp hr =>
    have hl := hi.locks t
    rw [ht] at hl
    obtain ⟨hfs, hcb⟩ := hl.cb (by rw [hp]; trivial)
    subst hfs
    obtain ⟨hlt, _⟩ := List.getElem?_eq_some_iff.1 hr
    dsimp only
    split
    · refine ⟨fun _ _ => rfl, ?_⟩
      rename_i c _ _
      have e : (((g.goto t f [] (.called o k)).log (.flush f.id r g.callback)).invoke t c).threads t =
          [⟨g.calls, c, .begin⟩, ⟨f.id, f.call, .called o k⟩] := by
        simp [State.invoke, State.log, State.goto, upd]
      rw [ht, e]
      refine .b (by simp [wA, hp]) ?_
      simp only [wB, hp, State.invoke, State.log, State.goto, lens]
      omega
    · refine ⟨fun _ _ => rfl, ?_⟩
      rw [ht]
      refine closer_upd ?_
      refine .b (by simp [wA, hp]) ?_
      simp only [wB, hp, State.log, State.goto, lens]
      omega
  | @cbUnlock f fs o k ht hp =>
    have hl := hi.locks t
    rw [ht] at hl
    obtain ⟨hfs, hcb⟩ := hl.cb (by rw [hp]; trivial)
    subst hfs
    obtain ⟨hfo, hfc, hfi⟩ := hi.frames t f (by simp [ht])
    unfold FrameOk at hfo
    rw [hp] at hfo
    have hlt := hfo.2.2
    refine ⟨fun _ _ => rfl, ?_⟩
    rw [ht]
    refine closer_upd ?_
    refine .b (by simp [wA, hp]) ?_
    simp only [wB, hp, State.goto, lens]
    omega
  | @ret f fs o k ht hp hk =>
    have hl := hi.locks t
    rw [ht] at hl
    refine ⟨fun _ _ => rfl, ?_⟩
    rw [ht]
    refine closer_upd ?_
    match fs, hl with
    | [], _ => exact .b (by simp [wA, hp]) (by simp [wB, hp])
    | [f1], hl => exact .c (by simp [wA]) (by simp [wB, State.log, lens]) (by simp [wC, hp])

/-- Without new calls, every schedule is finite. -/
theorem acc_work {P : Prog σ C O R L} {s₀ : σ} (hterm : ∀ log s c, Serial P s₀ log s → ∃ n, Ends P n (P.start c) s)
    {N : Nat} (a b c n : Nat) (g : State σ C O R L) (h : Reach P s₀ g) (hF : Few g N) (hn : Near P g n)
    (ha : totalA g N = a) (hb : totalB g N = b) (hc : totalC g N = c) : Acc (fun y x => ∃ t, Work P t x y) g := by
  refine Acc.intro _ ?_
  rintro g' ⟨t, hw⟩
  obtain ⟨log, hi⟩ := h.inv
  obtain ⟨hB, hcl⟩ := hw.closer hi
  obtain ⟨t1, t2, t3⟩ := totals hF hw hB
  have hr : Reach P s₀ g' := .step h (.work t hw)
  obtain ⟨n', hn'⟩ := hr.near hterm
  have hF' := (hw.few hF).2.1
  cases hcl with
  | a h1 =>
    have : totalA g' N < a := by omega
    exact acc_work hterm _ _ _ n' g' hr hF' hn' rfl rfl rfl
  | b h1 h2 =>
    have e1 : totalA g' N = a := by omega
    have : totalB g' N < b := by omega
    exact acc_work hterm a _ _ n' g' hr hF' hn' e1 rfl rfl
  | c h1 h2 h3 =>
    have e1 : totalA g' N = a := by omega
    have e2 : totalB g' N = b := by omega
    have : totalC g' N < c := by omega
    exact acc_work hterm a b _ n' g' hr hF' hn' e1 e2 rfl
  | d h1 h2 h3 h4 =>
    have e1 : totalA g' N = a := by omega
    have e2 : totalB g' N = b := by omega
    have e3 : totalC g' N = c := by omega
    obtain ⟨m, h5, h6⟩ := h4 n hn
    exact acc_work hterm a b c m g' hr hF' h6 e1 e2 e3
termination_by (a, b, c, n)

end Verif.Conc
