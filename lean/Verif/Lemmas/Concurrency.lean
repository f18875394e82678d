import Verif.Spec.Concurrency
/-
The invariant of the threads calling an aggregator.
-/
namespace Verif.Conc
variable {σ C O R L : Type}

theorem upd_same {α : Type} (f : Nat → α) (i : Nat) (a : α) : upd f i a i = a := by simp [upd]
theorem upd_other {α : Type} (f : Nat → α) {i j : Nat} (a : α) (h : j ≠ i) : upd f i a j = f j := by simp [upd, h]

@[simp] theorem flushed_append (i : Nat) (a b : List (Ev C O R)) : flushed i (a ++ b) = flushed i a ++ flushed i b := by
  simp [flushed]
@[simp] theorem entered_append (a b : List (Ev C O R)) : entered (a ++ b) = entered a ++ entered b := by
  simp [entered]
@[simp] theorem invoked_append (a b : List (Ev C O R)) : invoked (a ++ b) = invoked a ++ invoked b := by
  simp [invoked]
@[simp] theorem delivered_append (i : Nat) (a b : List (Ev C O R)) :
    delivered i (a ++ b) = delivered i a ++ delivered i b := by
  simp [delivered]
@[simp] theorem ids_append (a b : List (Entry C O R)) : ids (a ++ b) = ids a ++ ids b := by simp [ids]
@[simp] theorem locking_append (P : Prog σ C O R L) (a b : List (Entry C O R)) :
    locking P (a ++ b) = locking P a ++ locking P b := by simp [locking]

theorem mem_ids {e : Entry C O R} {log : List (Entry C O R)} (h : e ∈ log) : e.id ∈ ids log :=
  List.mem_map.2 ⟨e, h, rfl⟩

/-- What holds of a method in progress, wherever it is on the stack. -/
def FrameOk (log : List (Entry C O R)) (g : State σ C O R L) (f : Frame C L O) : Prop :=
  match f.pc with
  | .begin => f.id ∉ ids log ∧ g.items f.id = [] ∧ flushed f.id g.trace = []
  | .locked | .inside _ | .leaving _ | .unlocking _ => f.id ∉ ids log ∧ flushed f.id g.trace = []
  | .flushing o k =>
    ⟨f.id, f.call, o, g.items f.id⟩ ∈ log ∧ flushed f.id g.trace = (g.items f.id).take k ∧ k ≤ (g.items f.id).length
  | .calling o k =>
    ⟨f.id, f.call, o, g.items f.id⟩ ∈ log ∧ flushed f.id g.trace = (g.items f.id).take k ∧ k < (g.items f.id).length
  | .called o k =>
    ⟨f.id, f.call, o, g.items f.id⟩ ∈ log ∧ flushed f.id g.trace = (g.items f.id).take (k + 1) ∧
      k < (g.items f.id).length

def Called (f : Frame C L O) : Prop := ∃ o k, f.pc = .called o k

/-- The locks a thread holds are those its methods have taken. -/
def LocksOk (cl cb : Option Nat) (t : Nat) : List (Frame C L O) → Prop
  | [] => cl ≠ some t ∧ cb ≠ some t
  | [f] => (f.pc.Crit ↔ cl = some t) ∧ (f.pc.Cb ↔ cb = some t)
  | [f, f1] => (f.pc.Crit ↔ cl = some t) ∧ ¬ f.pc.Cb ∧ Called f1 ∧ cb = some t
  | _ => False

/-- What the holder of the cache lock has done so far. -/
def HolderOk (P : Prog σ C O R L) (g : State σ C O R L) (f : Frame C L O) (s : σ) : Prop :=
  match f.pc with
  | .locked => g.buf = none ∧ g.st = s ∧ g.items f.id = []
  | .inside l => g.buf = some f.id ∧ Runs P (P.start f.call) s [] l g.st (g.items f.id)
  | .leaving o => g.buf = some f.id ∧ Alone P f.call s o (g.items f.id) g.st
  | .unlocking o => g.buf = none ∧ Alone P f.call s o (g.items f.id) g.st
  | _ => False

/-- The protected state. -/
def Core (P : Prog σ C O R L) (s₀ : σ) (log : List (Entry C O R)) (g : State σ C O R L) : Prop :=
  match g.cacheLock with
  | none => g.buf = none ∧ Serial P s₀ log g.st ∧ entered g.trace = ids (locking P log)
  | some t => ∃ f fs s, g.threads t = f :: fs ∧ Serial P s₀ log s ∧ entered g.trace = ids (locking P log) ++ [f.id] ∧
      P.early f.call = none ∧ HolderOk P g f s

structure Inv (P : Prog σ C O R L) (s₀ : σ) (log : List (Entry C O R)) (g : State σ C O R L) : Prop where
  locks : ∀ t, LocksOk g.cacheLock g.cbLock t (g.threads t)
  frames : ∀ t, ∀ f ∈ g.threads t, FrameOk log g f ∧ f.id < g.calls ∧ Ev.inv f.id t f.call ∈ g.trace
  nodup : ∀ t, ((g.threads t).map (·.id)).Nodup
  apart : ∀ t u f f', t ≠ u → f ∈ g.threads t → f' ∈ g.threads u → f.id ≠ f'.id
  rets : ∀ i o, Ev.ret i o ∈ g.trace → i < g.calls ∧ (∀ t, ∀ f ∈ g.threads t, f.id ≠ i) ∧
    ∃ e ∈ log, e.id = i ∧ e.out = o ∧ flushed i g.trace = e.items
  logged : ∀ e ∈ log, g.items e.id = e.items ∧ e.id < g.calls ∧ ∃ t, Ev.inv e.id t e.call ∈ g.trace
  once : (ids log).Nodup
  order : log.Pairwise fun e e' => ¬ Before g.trace e'.id e.id
  known : ∀ i t c, Ev.inv i t c ∈ g.trace → i < g.calls
  fresh : ∀ i, g.calls ≤ i → g.items i = [] ∧ flushed i g.trace = []
  part : ∀ i, flushed i g.trace ≠ [] → ∃ e ∈ log, e.id = i ∧ flushed i g.trace <+: e.items
  core : Core P s₀ log g

theorem LocksOk.congr {cl cb cl' cb' : Option Nat} {t : Nat} {fs : List (Frame C L O)}
    (hc : cl' = some t ↔ cl = some t) (hb : cb' = some t ↔ cb = some t) (h : LocksOk cl cb t fs) :
    LocksOk cl' cb' t fs := by
  match fs, h with
  | [], h => exact ⟨fun e => h.1 (hc.1 e), fun e => h.2 (hb.1 e)⟩
  | [f], h => exact ⟨h.1.trans hc.symm, h.2.trans hb.symm⟩
  | [f, f1], h => exact ⟨h.1.trans hc.symm, h.2.1, h.2.2.1, hb.2 h.2.2.2⟩

theorem FrameOk.congr {log log' : List (Entry C O R)} {g g' : State σ C O R L} {f : Frame C L O}
    (hi : g'.items f.id = g.items f.id) (hf : flushed f.id g'.trace = flushed f.id g.trace)
    (he : f.id ∈ ids log' → f.id ∈ ids log) (hl : ∀ e ∈ log, e ∈ log')
    (h : FrameOk log g f) : FrameOk log' g' f := by
  unfold FrameOk at *
  split <;> rename_i heq <;> simp only [heq] at h <;> rw [hf] <;> try rw [hi]
  all_goals first | exact ⟨fun hx => h.1 (he hx), h.2⟩ | exact ⟨hl _ h.1, h.2⟩

/-- Events of call `i` inside the aggregator. -/
def Inner (i : Nat) : Ev C O R → Prop
  | .enter j => j = i
  | .flush j _ _ => j = i
  | .setCallback _ => True
  | _ => False

theorem flushed_inner {i j : Nat} (hne : j ≠ i) : ∀ {evs : List (Ev C O R)}, (∀ ev ∈ evs, Inner i ev) → flushed j evs = []
  | [], _ => rfl
  | ev :: evs, h => by
    have ih := flushed_inner hne (evs := evs) (fun e he => h e (List.mem_cons_of_mem _ he))
    have h1 := h ev List.mem_cons_self
    rw [show ev :: evs = [ev] ++ evs from rfl, flushed_append, ih]
    cases ev with
    | flush k r b =>
      have : k = i := h1
      simp [flushed, this, Ne.symm hne]
    | _ => rfl

/-- Events that are neither calls nor returns do not change the order of calls. -/
theorem before_inner {tr evs : List (Ev C O R)} (h : ∀ ev ∈ evs, ∀ i t c, ev ≠ Ev.inv i t c) {i j : Nat} :
    Before (tr ++ evs) i j → Before tr i j := by
  rintro ⟨pre, post, u, c, o, heq, hr⟩
  have hmem : Ev.inv j u c ∉ evs := fun hx => h _ hx _ _ _ rfl
  rw [List.append_eq_append_iff] at heq
  rcases heq with ⟨as, h1, h2⟩ | ⟨as, h1, h2⟩
  · exact absurd (h2 ▸ by simp) hmem
  · cases as with
    | nil =>
      simp only [List.nil_append] at h2
      exact absurd (h2 ▸ by simp) hmem
    | cons a as =>
      simp only [List.cons_append, List.cons.injEq] at h2
      exact ⟨pre, as, u, c, o, by rw [h1, h2.1], hr⟩

theorem Inner.not_inv {k : Nat} {ev : Ev C O R} (h : Inner k ev) (i t : Nat) (c : C) : ev ≠ Ev.inv i t c := by
  rintro rfl; exact h

/-- A step of thread `t` that stays in the same method. -/
theorem Inv.goto {P : Prog σ C O R L} {s₀ : σ} {log log' : List (Entry C O R)} {g g' : State σ C O R L}
    {t : Nat} {f : Frame C L O} {fs : List (Frame C L O)} {pc : Pc L O} {evs : List (Ev C O R)}
    (h : Inv P s₀ log g) (ht : g.threads t = f :: fs)
    (hth : g'.threads = upd g.threads t (⟨f.id, f.call, pc⟩ :: fs)) (hcalls : g'.calls = g.calls)
    (htr : g'.trace = g.trace ++ evs) (hevs : ∀ ev ∈ evs, Inner f.id ev)
    (hitems : g'.items = g.items ∨ f.id ∉ ids log ∧ ∀ i, i ≠ f.id → g'.items i = g.items i)
    (hlog : log' = log ∨ f.id ∉ ids log ∧ ∃ o, log' = log ++ [⟨f.id, f.call, o, g'.items f.id⟩])
    (hcl : ∀ u, u ≠ t → (g'.cacheLock = some u ↔ g.cacheLock = some u))
    (hcb : ∀ u, u ≠ t → (g'.cbLock = some u ↔ g.cbLock = some u))
    (hlocks : LocksOk g'.cacheLock g'.cbLock t (⟨f.id, f.call, pc⟩ :: fs))
    (hframe : FrameOk log' g' ⟨f.id, f.call, pc⟩)
    (hpart : flushed f.id g'.trace ≠ [] → ∃ e ∈ log', e.id = f.id ∧ flushed f.id g'.trace <+: e.items)
    (hcore : Core P s₀ log' g') : Inv P s₀ log' g' := by
  have hnd := h.nodup t
  rw [ht] at hnd
  simp only [List.map_cons, List.nodup_cons, List.mem_map, not_exists, not_and] at hnd
  have hfl' := h.frames t f (by simp [ht])
  have hit : ∀ i, i ≠ f.id → g'.items i = g.items i := by
    rcases hitems with h1 | ⟨_, h1⟩
    · intro i _; rw [h1]
    · exact h1
  have hfl : ∀ i, i ≠ f.id → flushed i g'.trace = flushed i g.trace := by
    intro i hi; rw [htr, flushed_append, flushed_inner hi hevs, List.append_nil]
  have hinv : ∀ i u c, Ev.inv i u c ∈ g.trace → Ev.inv i u c ∈ g'.trace := by
    intro i u c hx; rw [htr]; exact List.mem_append_left _ hx
  have hret : ∀ i o, Ev.ret i o ∈ g'.trace → Ev.ret i o ∈ g.trace := by
    intro i o hx
    rw [htr] at hx
    rcases List.mem_append.1 hx with hx | hx
    · exact hx
    · exact (hevs _ hx).elim
  have hsub : ∀ e ∈ log, e ∈ log' := by
    rcases hlog with rfl | ⟨_, o, rfl⟩
    · intro e he; exact he
    · intro e he; exact List.mem_append_left _ he
  have hidl : ∀ i, i ≠ f.id → i ∈ ids log' → i ∈ ids log := by
    rcases hlog with rfl | ⟨_, o, rfl⟩
    · intro i _ he; exact he
    · intro i hi he
      simpa [ids, hi] using he
  have hbef : ∀ i j, Before g'.trace i j → Before g.trace i j := by
    intro i j hb; rw [htr] at hb
    exact before_inner (fun ev hev => (hevs ev hev).not_inv) hb
  have other : ∀ u, ∀ x ∈ g'.threads u, (u = t ∧ x = ⟨f.id, f.call, pc⟩) ∨ (x.id ≠ f.id ∧ x ∈ g.threads u) := by
    intro u x hx
    rw [hth] at hx
    by_cases hu : u = t
    · subst hu
      rw [upd_same] at hx
      rcases List.mem_cons.1 hx with rfl | hx
      · exact Or.inl ⟨rfl, rfl⟩
      · exact Or.inr ⟨fun e => hnd.1 x hx e, by simp [ht, hx]⟩
    · rw [upd_other _ _ hu] at hx
      exact Or.inr ⟨fun e => h.apart t u f x (Ne.symm hu) (by simp [ht]) hx e.symm, hx⟩
  have same : ∀ u, ∀ x ∈ g'.threads u, ∃ y ∈ g.threads u, y.id = x.id := by
    intro u x hx
    rcases other u x hx with ⟨rfl, rfl⟩ | ⟨_, hx⟩
    · exact ⟨f, by simp [ht], rfl⟩
    · exact ⟨x, hx, rfl⟩
  refine ⟨?_, ?_, ?_, ?_, ?_, ?_, ?_, ?_, ?_, ?_, ?_, hcore⟩
  · intro u
    rw [hth]
    by_cases hu : u = t
    · subst hu; rw [upd_same]; exact hlocks
    · rw [upd_other _ _ hu]; exact (h.locks u).congr (hcl u hu) (hcb u hu)
  · intro u x hx
    rw [hcalls]
    rcases other u x hx with ⟨rfl, rfl⟩ | ⟨hne, hx⟩
    · exact ⟨hframe, hfl'.2.1, hinv _ _ _ hfl'.2.2⟩
    · have := h.frames u x hx
      exact ⟨this.1.congr (hit _ hne) (hfl _ hne) (hidl _ hne) hsub, this.2.1, hinv _ _ _ this.2.2⟩
  · intro u
    rw [hth]
    by_cases hu : u = t
    · subst hu; rw [upd_same]; simpa using hnd
    · rw [upd_other _ _ hu]; exact h.nodup u
  · intro u v x y huv hx hy
    obtain ⟨x', hx', ex⟩ := same u x hx
    obtain ⟨y', hy', ey⟩ := same v y hy
    rw [← ex, ← ey]
    exact h.apart u v x' y' huv hx' hy'
  · intro i o hi
    obtain ⟨h1, h2, e, he, h3, h4, h5⟩ := h.rets i o (hret i o hi)
    have hne : i ≠ f.id := fun e => h2 t f (by simp [ht]) e.symm
    refine ⟨hcalls ▸ h1, ?_, e, hsub e he, h3, h4, by rw [hfl i hne, h5]⟩
    intro u x hx
    obtain ⟨y, hy, ey⟩ := same u x hx
    rw [← ey]; exact h2 u y hy
  · intro e he
    have old : e ∈ log → g'.items e.id = e.items ∧ e.id < g'.calls ∧ ∃ u, Ev.inv e.id u e.call ∈ g'.trace := by
      intro he
      obtain ⟨h3, h5, u, h4⟩ := h.logged e he
      refine ⟨?_, hcalls ▸ h5, u, hinv _ _ _ h4⟩
      rcases hitems with h1 | ⟨h1, h2⟩
      · rw [h1, h3]
      · rw [h2 _ (fun e' => h1 (e' ▸ mem_ids he)), h3]
    rcases hlog with rfl | ⟨_, o, rfl⟩
    · exact old he
    · rcases List.mem_append.1 he with he | he
      · exact old he
      · rw [List.mem_singleton] at he
        subst he
        exact ⟨rfl, hcalls ▸ hfl'.2.1, t, hinv _ _ _ hfl'.2.2⟩
  · rcases hlog with rfl | ⟨hn, o, rfl⟩
    · exact h.once
    · rw [ids_append, List.nodup_append]
      refine ⟨h.once, by simp [ids], ?_⟩
      intro a ha b hb
      simp only [ids, List.map_cons, List.map_nil, List.mem_singleton] at hb
      rintro rfl
      exact hn (hb ▸ ha)
  · have hord : log.Pairwise fun e e' => ¬ Before g'.trace e'.id e.id :=
      h.order.imp (fun hx hb => hx (hbef _ _ hb))
    rcases hlog with rfl | ⟨hn, o, rfl⟩
    · exact hord
    · rw [List.pairwise_append]
      refine ⟨hord, by simp, ?_⟩
      intro a _ b hb
      rw [List.mem_singleton] at hb
      subst hb
      rintro ⟨pre, post, u, c, o', heq, hr⟩
      exact (h.rets f.id o' (hret _ _ (heq ▸ List.mem_append_left _ hr))).2.1 t f (by simp [ht]) rfl
  · intro i u c hi
    rw [hcalls]
    rw [htr] at hi
    rcases List.mem_append.1 hi with hi | hi
    · exact h.known i u c hi
    · exact (hevs _ hi).elim
  · intro i hi
    rw [hcalls] at hi
    have hne : i ≠ f.id := fun e => by have := hfl'.2.1; omega
    rw [hit i hne, hfl i hne]
    exact h.fresh i hi
  · intro i hi
    by_cases e : i = f.id
    · subst e; exact hpart hi
    · rw [hfl i e] at hi ⊢
      obtain ⟨x, h1, h2, h3⟩ := h.part i hi
      exact ⟨x, hsub x h1, h2, h3⟩

/-- Steps of threads that do not hold the cache lock leave the protected state alone. -/
theorem Core.other {P : Prog σ C O R L} {s₀ : σ} {log log' : List (Entry C O R)} {g g' : State σ C O R L}
    (h : Core P s₀ log g) (hcl : g'.cacheLock = g.cacheLock) (hbuf : g'.buf = g.buf) (hst : g'.st = g.st)
    (hitems : ∀ u f fs, g.cacheLock = some u → g.threads u = f :: fs → g'.items f.id = g.items f.id)
    (hen : entered g'.trace = entered g.trace)
    (hth : ∀ u, g.cacheLock = some u → g'.threads u = g.threads u)
    (hlog : log' = log ∨ ∃ e : Entry C O R, log' = log ++ [e] ∧ P.early e.call = some e.out ∧ e.items = []) :
    Core P s₀ log' g' := by
  have hids : ids (locking P log') = ids (locking P log) := by
    rcases hlog with rfl | ⟨e, rfl, he, _⟩
    · rfl
    · simp [locking, he]
  have hser : ∀ s, Serial P s₀ log s → Serial P s₀ log' s := by
    intro s hs
    rcases hlog with rfl | ⟨e, rfl, he, hi⟩
    · exact hs
    · exact .snoc hs (hi ▸ .early he)
  unfold Core at *
  rw [hcl]
  cases hc : g.cacheLock with
  | none =>
    simp only [hc] at h
    simp only [hbuf, hst, hen, hids]
    exact ⟨h.1, hser _ h.2.1, h.2.2⟩
  | some u =>
    simp only [hc] at h
    obtain ⟨f, fs, s, h1, h2, h3, h4, h5⟩ := h
    refine ⟨f, fs, s, (hth u hc).trans h1, hser _ h2, by rw [hen, hids, h3], h4, ?_⟩
    unfold HolderOk at *
    rw [hbuf, hst, hitems u f fs hc h1]
    exact h5

theorem LocksOk.top {cl cb cl' : Option Nat} {t : Nat} {f : Frame C L O} {fs : List (Frame C L O)} {pc : Pc L O}
    (h : LocksOk cl cb t (f :: fs)) (hc : pc.Crit ↔ cl' = some t) (hb : pc.Cb ↔ f.pc.Cb) :
    LocksOk cl' cb t (⟨f.id, f.call, pc⟩ :: fs) := by
  match fs, h with
  | [], h => exact ⟨hc, hb.trans h.2⟩
  | [f1], h => exact ⟨hc, fun hx => h.2.1 (hb.1 hx), h.2.2⟩

theorem LocksOk.crit {cl cb : Option Nat} {t : Nat} {f : Frame C L O} {fs : List (Frame C L O)}
    (h : LocksOk cl cb t (f :: fs)) : f.pc.Crit ↔ cl = some t := by
  match fs, h with
  | [], h => exact h.1
  | [f1], h => exact h.1

/-- A method that has the callback lock is the outermost one. -/
theorem LocksOk.cb {cl cb : Option Nat} {t : Nat} {f : Frame C L O} {fs : List (Frame C L O)}
    (h : LocksOk cl cb t (f :: fs)) (hf : f.pc.Cb) : fs = [] ∧ cb = some t := by
  match fs, h with
  | [], h => exact ⟨rfl, h.2.1 hf⟩
  | [f1], h => exact absurd hf h.2.1

/-- If nobody has the callback lock, no callback is running. -/
theorem LocksOk.free {cl : Option Nat} {t : Nat} {f : Frame C L O} {fs : List (Frame C L O)}
    (h : LocksOk cl none t (f :: fs)) : fs = [] := by
  match fs, h with
  | [], _ => rfl
  | [f1], h => cases h.2.2.2

/-- A new call. -/
theorem Inv.invoke {P : Prog σ C O R L} {s₀ : σ} {log : List (Entry C O R)} {g : State σ C O R L} {t : Nat} {c : C}
    (h : Inv P s₀ log g) (ht : g.threads t = [] ∨ ∃ f, g.threads t = [f] ∧ Called f) : Inv P s₀ log (g.invoke t c) := by
  have hcl : g.cacheLock ≠ some t := by
    have := h.locks t
    rcases ht with ht | ⟨f, ht, o, k, hf⟩
    · rw [ht] at this; exact this.1
    · rw [ht] at this
      intro e
      have := this.1.2 e
      rw [hf] at this
      exact this
  have hfl : ∀ i, flushed i (g.trace ++ [Ev.inv g.calls t c]) = flushed i g.trace := by
    intro i; simp [flushed]
  have hth : ∀ u, u ≠ t → (g.invoke t c).threads u = g.threads u := fun u hu => upd_other _ _ hu
  have htt : (g.invoke t c).threads t = ⟨g.calls, c, .begin⟩ :: g.threads t := upd_same _ _ _
  have hmem : ∀ u, ∀ x ∈ (g.invoke t c).threads u, (u = t ∧ x = ⟨g.calls, c, .begin⟩) ∨ x ∈ g.threads u := by
    intro u x hx
    by_cases hu : u = t
    · subst hu
      rw [htt] at hx
      rcases List.mem_cons.1 hx with hx | hx
      · exact Or.inl ⟨rfl, hx⟩
      · exact Or.inr hx
    · rw [hth u hu] at hx; exact Or.inr hx
  refine ⟨?_, ?_, ?_, ?_, ?_, ?_, h.once, ?_, ?_, ?_, ?_, ?_⟩
  · intro u
    by_cases hu : u = t
    · subst hu
      rw [htt]
      have hl := h.locks u
      rcases ht with ht | ⟨f, ht, hf⟩
      · rw [ht] at hl ⊢
        exact ⟨⟨False.elim, fun e => hl.1 e⟩, ⟨False.elim, fun e => hl.2 e⟩⟩
      · rw [ht] at hl ⊢
        refine ⟨⟨False.elim, fun e => hcl e⟩, id, hf, hl.2.1 ?_⟩
        obtain ⟨o, k, hf⟩ := hf
        rw [hf]; trivial
    · rw [hth u hu]; exact h.locks u
  · intro u x hx
    rcases hmem u x hx with ⟨rfl, rfl⟩ | hx
    · refine ⟨⟨?_, (h.fresh g.calls (Nat.le_refl _)).1, (hfl _).trans (h.fresh g.calls (Nat.le_refl _)).2⟩,
        Nat.lt_succ_self _, List.mem_append_right _ (by simp)⟩
      intro hi
      obtain ⟨e, he, hi⟩ := List.mem_map.1 hi
      have := (h.logged e he).2.1
      simp only at hi
      omega
    · obtain ⟨h1, h2, h3⟩ := h.frames u x hx
      exact ⟨h1.congr (g := g) rfl (hfl _) id (fun _ he => he), Nat.lt_succ_of_lt h2, List.mem_append_left _ h3⟩
  · intro u
    by_cases hu : u = t
    · subst hu
      rw [htt, List.map_cons, List.nodup_cons]
      refine ⟨?_, h.nodup u⟩
      intro hi
      obtain ⟨x, hx, hi⟩ := List.mem_map.1 hi
      have := (h.frames u x hx).2.1
      simp only at hi
      omega
    · rw [hth u hu]; exact h.nodup u
  · intro u v x y huv hx hy
    rcases hmem u x hx with ⟨rfl, rfl⟩ | hx' <;> rcases hmem v y hy with ⟨rfl, rfl⟩ | hy'
    · exact absurd rfl huv
    · have := (h.frames v y hy').2.1
      exact fun e => by simp only at e; omega
    · have := (h.frames u x hx').2.1
      exact fun e => by simp only at e; omega
    · exact h.apart u v x y huv hx' hy'
  · intro i o hi
    have hi : Ev.ret i o ∈ g.trace := by
      rcases List.mem_append.1 hi with hi | hi
      · exact hi
      · simp at hi
    obtain ⟨h1, h2, e, he, h3, h4, h5⟩ := h.rets i o hi
    refine ⟨Nat.lt_succ_of_lt h1, ?_, e, he, h3, h4, (hfl i).trans h5⟩
    intro u x hx
    rcases hmem u x hx with ⟨rfl, rfl⟩ | hx
    · exact fun e => by simp only at e; omega
    · exact h2 u x hx
  · intro e he
    obtain ⟨h1, h2, u, h3⟩ := h.logged e he
    exact ⟨h1, Nat.lt_succ_of_lt h2, u, List.mem_append_left _ h3⟩
  · refine h.order.imp_of_mem ?_
    intro e e' he _ hx ⟨pre, post, u, c', o, heq, hr⟩
    have heq : g.trace ++ [Ev.inv g.calls t c] = pre ++ Ev.inv e.id u c' :: post := heq
    rcases List.eq_nil_or_concat post with rfl | ⟨post', b, rfl⟩
    · have := List.append_inj_right' heq rfl
      simp only [List.cons.injEq, Ev.inv.injEq] at this
      have h2 := (h.logged e he).2.1
      omega
    · rw [List.concat_eq_append, ← List.cons_append, ← List.append_assoc] at heq
      have := List.append_inj_left' heq rfl
      exact hx ⟨pre, post', u, c', o, this, hr⟩
  · intro i u c' hi
    rcases List.mem_append.1 hi with hi | hi
    · exact Nat.lt_succ_of_lt (h.known i u c' hi)
    · simp only [List.mem_singleton, Ev.inv.injEq] at hi
      rw [hi.1]; exact Nat.lt_succ_self _
  · intro i hi
    have hi : g.calls + 1 ≤ i := hi
    exact ⟨(h.fresh i (by omega)).1, (hfl i).trans (h.fresh i (by omega)).2⟩
  · intro i hi
    have hi : flushed i (g.trace ++ [Ev.inv g.calls t c]) ≠ [] := hi
    rw [hfl] at hi
    obtain ⟨e, h1, h2, h3⟩ := h.part i hi
    exact ⟨e, h1, h2, by rw [show (g.invoke t c).trace = g.trace ++ [Ev.inv g.calls t c] from rfl, hfl]; exact h3⟩
  · refine h.core.other rfl rfl rfl (fun _ _ _ _ _ => rfl) (by simp [State.invoke, entered]) ?_ (Or.inl rfl)
    intro u hu
    exact hth u (fun e => hcl (e ▸ hu))

/-- `SetFlushCallback`. -/
theorem Inv.setCallback {P : Prog σ C O R L} {s₀ : σ} {log : List (Entry C O R)} {g : State σ C O R L} (b : Bool)
    (h : Inv P s₀ log g) : Inv P s₀ log ({ g with callback := b }.log (.setCallback b)) := by
  have hfl : ∀ i, flushed i (g.trace ++ [Ev.setCallback b]) = flushed i g.trace := by
    intro i; simp [flushed]
  have hret : ∀ i o, Ev.ret i o ∈ g.trace ++ [Ev.setCallback b] → Ev.ret i o ∈ g.trace := by
    intro i o hi
    rcases List.mem_append.1 hi with hi | hi
    · exact hi
    · simp at hi
  refine ⟨h.locks, ?_, h.nodup, h.apart, ?_, ?_, h.once, ?_, ?_, ?_, ?_, ?_⟩
  · intro u x hx
    obtain ⟨h1, h2, h3⟩ := h.frames u x hx
    exact ⟨h1.congr (g := g) rfl (hfl _) id (fun _ he => he), h2, List.mem_append_left _ h3⟩
  · intro i o hi
    obtain ⟨h1, h2, e, he, h3, h4, h5⟩ := h.rets i o (hret i o hi)
    exact ⟨h1, h2, e, he, h3, h4, (hfl i).trans h5⟩
  · intro e he
    obtain ⟨h1, h2, u, h3⟩ := h.logged e he
    exact ⟨h1, h2, u, List.mem_append_left _ h3⟩
  · refine h.order.imp ?_
    intro e e' hx hb
    exact hx (before_inner (by simp) hb)
  · intro i u c hi
    rcases List.mem_append.1 hi with hi | hi
    · exact h.known i u c hi
    · simp at hi
  · intro i hi
    exact ⟨(h.fresh i hi).1, (hfl i).trans (h.fresh i hi).2⟩
  · intro i hi
    have hi : flushed i (g.trace ++ [Ev.setCallback b]) ≠ [] := hi
    rw [hfl] at hi
    obtain ⟨e, h1, h2, h3⟩ := h.part i hi
    exact ⟨e, h1, h2, (hfl i).symm ▸ h3⟩
  · exact h.core.other rfl rfl rfl (fun _ _ _ _ _ => rfl) (by simp [State.log, entered]) (fun _ _ => rfl) (Or.inl rfl)

/-- A call returns. -/
theorem Inv.ret {P : Prog σ C O R L} {s₀ : σ} {log : List (Entry C O R)} {g : State σ C O R L} {t : Nat}
    {f : Frame C L O} {fs : List (Frame C L O)} {o : O} {k : Nat}
    (h : Inv P s₀ log g) (ht : g.threads t = f :: fs) (hf : f.pc = .flushing o k) (hk : (g.items f.id).length ≤ k) :
    Inv P s₀ log ({ g with threads := upd g.threads t fs }.log (.ret f.id o)) := by
  have hfl : ∀ i, flushed i (g.trace ++ [Ev.ret f.id o]) = flushed i g.trace := by
    intro i; simp [flushed]
  have hl := h.locks t
  rw [ht] at hl
  have hncl : g.cacheLock ≠ some t := fun e => by
    have := hl.crit.2 e; rw [hf] at this; exact this
  have hsub : ∀ u, ∀ x ∈ upd g.threads t fs u, x ∈ g.threads u ∧ x.id ≠ f.id := by
    intro u x hx
    by_cases hu : u = t
    · subst hu
      rw [upd_same] at hx
      refine ⟨by rw [ht]; exact List.mem_cons_of_mem _ hx, ?_⟩
      have := h.nodup u
      rw [ht, List.map_cons, List.nodup_cons] at this
      exact fun e => this.1 (List.mem_map.2 ⟨x, hx, e⟩)
    · rw [upd_other _ _ hu] at hx
      exact ⟨hx, fun e => h.apart t u f x (Ne.symm hu) (by simp [ht]) hx e.symm⟩
  have hfr := h.frames t f (by simp [ht])
  have hfo := hfr.1
  unfold FrameOk at hfo
  rw [hf] at hfo
  simp only at hfo
  refine ⟨?_, ?_, ?_, ?_, ?_, ?_, h.once, ?_, ?_, ?_, ?_, ?_⟩
  · intro u
    show LocksOk g.cacheLock g.cbLock u (upd g.threads t fs u)
    by_cases hu : u = t
    · subst hu
      rw [upd_same]
      match fs, hl with
      | [], hl => exact ⟨hncl, fun e => by have := hl.2.2 e; rw [hf] at this; exact this⟩
      | [f1], hl =>
        refine ⟨⟨fun hx => ?_, fun e => absurd e hncl⟩, ⟨fun _ => hl.2.2.2, fun _ => ?_⟩⟩
        · obtain ⟨o', k', h1⟩ := hl.2.2.1
          rw [h1] at hx; exact hx.elim
        · obtain ⟨o', k', h1⟩ := hl.2.2.1
          rw [h1]; trivial
    · rw [upd_other _ _ hu]; exact h.locks u
  · intro u x hx
    obtain ⟨hx, _⟩ := hsub u x hx
    obtain ⟨h1, h2, h3⟩ := h.frames u x hx
    exact ⟨h1.congr (g := g) rfl (hfl _) id (fun _ he => he), h2, List.mem_append_left _ h3⟩
  · intro u
    show ((upd g.threads t fs u).map (·.id)).Nodup
    by_cases hu : u = t
    · subst hu
      rw [upd_same]
      have := h.nodup u
      rw [ht, List.map_cons, List.nodup_cons] at this
      exact this.2
    · rw [upd_other _ _ hu]; exact h.nodup u
  · intro u v x y huv hx hy
    exact h.apart u v x y huv (hsub u x hx).1 (hsub v y hy).1
  · intro i o' hi
    rcases List.mem_append.1 hi with hi | hi
    · obtain ⟨h1, h2, e, he, h3, h4, h5⟩ := h.rets i o' hi
      exact ⟨h1, fun u x hx => h2 u x (hsub u x hx).1, e, he, h3, h4, (hfl i).trans h5⟩
    · simp only [List.mem_singleton, Ev.ret.injEq] at hi
      obtain ⟨rfl, rfl⟩ := hi
      refine ⟨hfr.2.1, fun u x hx => (hsub u x hx).2, _, hfo.1, rfl, rfl, (hfl _).trans ?_⟩
      rw [hfo.2.1, List.take_of_length_le hk]
  · intro e he
    obtain ⟨h1, h2, u, h3⟩ := h.logged e he
    exact ⟨h1, h2, u, List.mem_append_left _ h3⟩
  · refine h.order.imp ?_
    intro e e' hx hb
    exact hx (before_inner (by simp) hb)
  · intro i u c hi
    rcases List.mem_append.1 hi with hi | hi
    · exact h.known i u c hi
    · simp at hi
  · intro i hi
    exact ⟨(h.fresh i hi).1, (hfl i).trans (h.fresh i hi).2⟩
  · intro i hi
    have hi : flushed i (g.trace ++ [Ev.ret f.id o]) ≠ [] := hi
    rw [hfl] at hi
    obtain ⟨e, h1, h2, h3⟩ := h.part i hi
    exact ⟨e, h1, h2, (hfl i).symm ▸ h3⟩
  · refine h.core.other rfl rfl rfl (fun _ _ _ _ _ => rfl) (by simp [State.log, entered]) ?_ (Or.inl rfl)
    intro u hu
    exact upd_other _ _ (fun e => hncl (e ▸ hu))

theorem Core.held {P : Prog σ C O R L} {s₀ : σ} {log : List (Entry C O R)} {g : State σ C O R L} {t : Nat}
    {f : Frame C L O} {fs : List (Frame C L O)} {s : σ} (hc : g.cacheLock = some t) (h1 : g.threads t = f :: fs)
    (h2 : Serial P s₀ log s) (h3 : entered g.trace = ids (locking P log) ++ [f.id]) (h4 : P.early f.call = none)
    (h5 : HolderOk P g f s) : Core P s₀ log g := by
  unfold Core; rw [hc]; exact ⟨f, fs, s, h1, h2, h3, h4, h5⟩

theorem flushed_self (i : Nat) (r : R) (b : Bool) : flushed i [(Ev.flush i r b : Ev C O R)] = [r] := by
  simp [flushed]

theorem Inv.work {P : Prog σ C O R L} {s₀ : σ} {log : List (Entry C O R)} {g g' : State σ C O R L} {t : Nat}
    (h : Inv P s₀ log g) (hw : Work P t g g') : ∃ log', Inv P s₀ log' g' := by
  cases hw with
  | @early f fs o ht hp he =>
    obtain ⟨hfo, hfc, hfi⟩ := h.frames t f (by simp [ht])
    unfold FrameOk at hfo
    rw [hp] at hfo
    simp only at hfo
    have hl := h.locks t
    rw [ht] at hl
    have hncl : g.cacheLock ≠ some t := fun e => by have := hl.crit.2 e; rw [hp] at this; exact this
    refine ⟨log ++ [⟨f.id, f.call, o, []⟩], h.goto (evs := []) ht rfl rfl (by simp [State.goto]) (by simp) (Or.inl rfl)
      (Or.inr ⟨hfo.1, o, by rw [show (g.goto t f fs (.flushing o 0)).items = g.items from rfl, hfo.2.1]⟩)
      (fun _ _ => Iff.rfl) (fun _ _ => Iff.rfl)
      (hl.top ⟨False.elim, fun e => hncl e⟩ (by rw [hp]; exact Iff.rfl)) ?_ ?_ ?_⟩
    · refine ⟨List.mem_append_right _ ?_, hfo.2.2, Nat.zero_le _⟩
      rw [show (g.goto t f fs (.flushing o 0)).items = g.items from rfl, hfo.2.1]
      simp
    · intro hx; exact absurd hfo.2.2 hx
    · exact h.core.other rfl rfl rfl (fun _ _ _ _ _ => rfl) rfl
        (fun u hu => upd_other _ _ (fun e => hncl (e ▸ hu))) (Or.inr ⟨_, rfl, he, rfl⟩)
  | @lock f fs ht hp he hc =>
    obtain ⟨hfo, hfc, hfi⟩ := h.frames t f (by simp [ht])
    unfold FrameOk at hfo
    rw [hp] at hfo
    simp only at hfo
    have hl := h.locks t
    rw [ht] at hl
    have hfl : flushed f.id (g.trace ++ [Ev.enter f.id]) = [] := by
      rw [flushed_append, hfo.2.2]; rfl
    refine ⟨log, h.goto (evs := [.enter f.id]) ht rfl rfl rfl (by simp [Inner]) (Or.inl rfl) (Or.inl rfl)
      (fun u hu => ?_) (fun _ _ => Iff.rfl)
      (hl.top ⟨fun _ => rfl, fun _ => trivial⟩ (by rw [hp]; exact Iff.rfl)) ⟨hfo.1, hfl⟩ ?_ ?_⟩
    · rw [hc]
      show some t = some u ↔ none = some u
      simp [Ne.symm hu]
    · intro hx; exact absurd hfl hx
    · have hcore := h.core
      unfold Core at hcore ⊢
      rw [hc] at hcore
      refine ⟨⟨f.id, f.call, .locked⟩, fs, g.st, upd_same _ _ _, hcore.2.1, ?_, he, hcore.1, rfl, hfo.2.1⟩
      show entered (g.trace ++ [Ev.enter f.id]) = _
      rw [entered_append, hcore.2.2]
      rfl
  | @swap f fs ht hp =>
    obtain ⟨hfo, hfc, hfi⟩ := h.frames t f (by simp [ht])
    unfold FrameOk at hfo
    rw [hp] at hfo
    simp only at hfo
    have hl := h.locks t
    rw [ht] at hl
    have hc : g.cacheLock = some t := hl.crit.1 (by rw [hp]; trivial)
    refine ⟨log, h.goto (evs := []) ht rfl rfl (by simp [State.goto]) (by simp) (Or.inl rfl) (Or.inl rfl)
      (fun _ _ => Iff.rfl) (fun _ _ => Iff.rfl)
      (hl.top ⟨fun _ => hc, fun _ => trivial⟩ (by rw [hp]; exact Iff.rfl)) hfo ?_ ?_⟩
    · intro hx; exact absurd hfo.2 hx
    · have hcore := h.core
      unfold Core at hcore
      rw [hc] at hcore
      obtain ⟨f', fs', s, h1, h2, h3, h4, h5⟩ := hcore
      rw [ht] at h1
      obtain ⟨rfl, rfl⟩ := List.cons.inj h1
      unfold HolderOk at h5
      rw [hp] at h5
      obtain ⟨-, rfl, h6⟩ := h5
      refine Core.held (f := ⟨f.id, f.call, .inside (P.start f.call)⟩) hc (upd_same _ _ _) h2 h3 h4 ⟨rfl, ?_⟩
      show Runs P (P.start f.call) g.st [] (P.start f.call) g.st (g.items f.id)
      rw [h6]
      exact .refl _ _ _
  | @next f fs l l' s' emit ht hp hex =>
    obtain ⟨hfo, hfc, hfi⟩ := h.frames t f (by simp [ht])
    unfold FrameOk at hfo
    rw [hp] at hfo
    simp only at hfo
    have hl := h.locks t
    rw [ht] at hl
    have hc : g.cacheLock = some t := hl.crit.1 (by rw [hp]; trivial)
    have hcore := h.core
    unfold Core at hcore
    rw [hc] at hcore
    obtain ⟨f', fs', s, h1, h2, h3, h4, h5⟩ := hcore
    rw [ht] at h1
    obtain ⟨rfl, rfl⟩ := List.cons.inj h1
    unfold HolderOk at h5
    rw [hp] at h5
    obtain ⟨hbuf, hrun⟩ := h5
    refine ⟨log, h.goto (evs := []) ht rfl rfl (by simp [State.goto]) (by simp) (Or.inr ⟨hfo.1, ?_⟩) (Or.inl rfl)
      (fun _ _ => Iff.rfl) (fun _ _ => Iff.rfl)
      (hl.top ⟨fun _ => hc, fun _ => trivial⟩ (by rw [hp]; exact Iff.rfl)) hfo ?_ ?_⟩
    · intro i hi
      show addRemoved P g emit i = g.items i
      unfold addRemoved
      rw [hbuf]
      cases emit with
      | none => rfl
      | some r => exact upd_other _ _ hi
    · intro hx; exact absurd hfo.2 hx
    · refine Core.held (f := ⟨f.id, f.call, .inside l'⟩) hc (upd_same _ _ _) h2 h3 h4 ⟨hbuf, ?_⟩
      show Runs P (P.start f.call) s [] l' s' (addRemoved P g emit f.id)
      have hadd : addRemoved P g emit f.id = addTo P (g.items f.id) emit := by
        unfold addRemoved
        rw [hbuf]
        cases emit with
        | none => rfl
        | some r => exact upd_same _ _ _
      rw [hadd]
      exact Runs.step hrun hex
  | @done f fs l o ht hp hex =>
    obtain ⟨hfo, hfc, hfi⟩ := h.frames t f (by simp [ht])
    unfold FrameOk at hfo
    rw [hp] at hfo
    simp only at hfo
    have hl := h.locks t
    rw [ht] at hl
    have hc : g.cacheLock = some t := hl.crit.1 (by rw [hp]; trivial)
    have hcore := h.core
    unfold Core at hcore
    rw [hc] at hcore
    obtain ⟨f', fs', s, h1, h2, h3, h4, h5⟩ := hcore
    rw [ht] at h1
    obtain ⟨rfl, rfl⟩ := List.cons.inj h1
    unfold HolderOk at h5
    rw [hp] at h5
    obtain ⟨hbuf, hrun⟩ := h5
    refine ⟨log, h.goto (evs := []) ht rfl rfl (by simp [State.goto]) (by simp) (Or.inl rfl) (Or.inl rfl)
      (fun _ _ => Iff.rfl) (fun _ _ => Iff.rfl)
      (hl.top ⟨fun _ => hc, fun _ => trivial⟩ (by rw [hp]; exact Iff.rfl)) hfo ?_ ?_⟩
    · intro hx; exact absurd hfo.2 hx
    · exact Core.held (f := ⟨f.id, f.call, .leaving o⟩) hc (upd_same _ _ _) h2 h3 h4 ⟨hbuf, .run h4 hrun hex⟩
  | @unswap f fs o ht hp =>
    obtain ⟨hfo, hfc, hfi⟩ := h.frames t f (by simp [ht])
    unfold FrameOk at hfo
    rw [hp] at hfo
    simp only at hfo
    have hl := h.locks t
    rw [ht] at hl
    have hc : g.cacheLock = some t := hl.crit.1 (by rw [hp]; trivial)
    have hcore := h.core
    unfold Core at hcore
    rw [hc] at hcore
    obtain ⟨f', fs', s, h1, h2, h3, h4, h5⟩ := hcore
    rw [ht] at h1
    obtain ⟨rfl, rfl⟩ := List.cons.inj h1
    unfold HolderOk at h5
    rw [hp] at h5
    refine ⟨log, h.goto (evs := []) ht rfl rfl (by simp [State.goto]) (by simp) (Or.inl rfl) (Or.inl rfl)
      (fun _ _ => Iff.rfl) (fun _ _ => Iff.rfl)
      (hl.top ⟨fun _ => hc, fun _ => trivial⟩ (by rw [hp]; exact Iff.rfl)) hfo ?_ ?_⟩
    · intro hx; exact absurd hfo.2 hx
    · exact Core.held (f := ⟨f.id, f.call, .unlocking o⟩) hc (upd_same _ _ _) h2 h3 h4 ⟨rfl, h5.2⟩
  | @unlock f fs o ht hp =>
    obtain ⟨hfo, hfc, hfi⟩ := h.frames t f (by simp [ht])
    unfold FrameOk at hfo
    rw [hp] at hfo
    simp only at hfo
    have hl := h.locks t
    rw [ht] at hl
    have hc : g.cacheLock = some t := hl.crit.1 (by rw [hp]; trivial)
    have hcore := h.core
    unfold Core at hcore
    rw [hc] at hcore
    obtain ⟨f', fs', s, h1, h2, h3, h4, h5⟩ := hcore
    rw [ht] at h1
    obtain ⟨rfl, rfl⟩ := List.cons.inj h1
    unfold HolderOk at h5
    rw [hp] at h5
    refine ⟨log ++ [⟨f.id, f.call, o, g.items f.id⟩],
      h.goto (evs := []) ht rfl rfl (by simp [State.goto]) (by simp) (Or.inl rfl) (Or.inr ⟨hfo.1, o, rfl⟩)
      (fun u hu => ?_) (fun _ _ => Iff.rfl)
      (hl.top ⟨False.elim, fun e => nomatch e⟩ (by rw [hp]; exact Iff.rfl))
      ⟨List.mem_append_right _ (List.mem_singleton.2 rfl), hfo.2, Nat.zero_le _⟩ ?_ ?_⟩
    · rw [hc]
      show none = some u ↔ some t = some u
      simp [Ne.symm hu]
    · intro hx; exact absurd hfo.2 hx
    · refine ⟨h5.1, .snoc h2 h5.2, ?_⟩
      show entered g.trace = _
      rw [h3]
      simp [locking, h4, ids]
  | @cbLock f fs o k ht hp hk hc =>
    obtain ⟨hfo, hfc, hfi⟩ := h.frames t f (by simp [ht])
    unfold FrameOk at hfo
    rw [hp] at hfo
    simp only at hfo
    have hl := h.locks t
    rw [ht] at hl
    have hncl : g.cacheLock ≠ some t := fun e => by have := hl.crit.2 e; rw [hp] at this; exact this
    have hfs : fs = [] := by rw [hc] at hl; exact hl.free
    subst hfs
    refine ⟨log, h.goto (evs := []) ht rfl rfl (by simp [State.goto]) (by simp) (Or.inl rfl) (Or.inl rfl)
      (fun _ _ => Iff.rfl) (fun u hu => ?_)
      ⟨⟨False.elim, fun e => hncl e⟩, ⟨fun _ => rfl, fun _ => trivial⟩⟩ ⟨hfo.1, hfo.2.1, hk⟩ ?_ ?_⟩
    · rw [hc]
      show some t = some u ↔ none = some u
      simp [Ne.symm hu]
    · intro hx; exact h.part f.id hx
    · exact h.core.other rfl rfl rfl (fun _ _ _ _ _ => rfl) rfl
        (fun u hu => upd_other _ _ (fun e => hncl (e ▸ hu))) (Or.inl rfl)
  | @callback f fs o k r ht hp hr =>
    obtain ⟨hfo, hfc, hfi⟩ := h.frames t f (by simp [ht])
    unfold FrameOk at hfo
    rw [hp] at hfo
    simp only at hfo
    have hl := h.locks t
    rw [ht] at hl
    have hncl : g.cacheLock ≠ some t := fun e => by have := hl.crit.2 e; rw [hp] at this; exact this
    obtain ⟨hfs, hcb⟩ := hl.cb (by rw [hp]; trivial)
    subst hfs
    obtain ⟨hlt, hre⟩ := List.getElem?_eq_some_iff.1 hr
    have hfl : flushed f.id (g.trace ++ [Ev.flush f.id r g.callback]) = (g.items f.id).take (k + 1) := by
      rw [flushed_append, hfo.2.1, flushed_self, List.take_add_one, hr]; rfl
    have h1 : Inv P s₀ log ((g.goto t f [] (.called o k)).log (.flush f.id r g.callback)) := by
      refine h.goto (evs := [.flush f.id r g.callback]) ht rfl rfl rfl (by simp [Inner]) (Or.inl rfl) (Or.inl rfl)
        (fun _ _ => Iff.rfl) (fun _ _ => Iff.rfl)
        ⟨⟨False.elim, fun e => hncl e⟩, ⟨fun _ => hcb, fun _ => trivial⟩⟩ ⟨hfo.1, hfl, hlt⟩ ?_ ?_
      · intro _
        refine ⟨_, hfo.1, rfl, ?_⟩
        show flushed f.id (g.trace ++ [Ev.flush f.id r g.callback]) <+: g.items f.id
        rw [hfl]
        exact List.take_prefix _ _
      · exact h.core.other rfl rfl rfl (fun _ _ _ _ _ => rfl) (by simp [State.log, State.goto, entered])
          (fun u hu => upd_other _ _ (fun e => hncl (e ▸ hu))) (Or.inl rfl)
    refine ⟨log, ?_⟩
    dsimp only
    split
    · exact h1.invoke (Or.inr ⟨_, upd_same _ _ _, o, k, rfl⟩)
    · exact h1
  | @cbUnlock f fs o k ht hp =>
    obtain ⟨hfo, hfc, hfi⟩ := h.frames t f (by simp [ht])
    unfold FrameOk at hfo
    rw [hp] at hfo
    simp only at hfo
    have hl := h.locks t
    rw [ht] at hl
    have hncl : g.cacheLock ≠ some t := fun e => by have := hl.crit.2 e; rw [hp] at this; exact this
    obtain ⟨hfs, hcb⟩ := hl.cb (by rw [hp]; trivial)
    subst hfs
    refine ⟨log, h.goto (evs := []) ht rfl rfl (by simp [State.goto]) (by simp) (Or.inl rfl) (Or.inl rfl)
      (fun _ _ => Iff.rfl) (fun u hu => ?_)
      ⟨⟨False.elim, fun e => hncl e⟩, ⟨False.elim, fun e => nomatch e⟩⟩ ⟨hfo.1, hfo.2.1, hfo.2.2⟩ ?_ ?_⟩
    · rw [hcb]
      show none = some u ↔ some t = some u
      simp [Ne.symm hu]
    · intro hx; exact h.part f.id hx
    · exact h.core.other rfl rfl rfl (fun _ _ _ _ _ => rfl) rfl
        (fun u hu => upd_other _ _ (fun e => hncl (e ▸ hu))) (Or.inl rfl)
  | @ret f fs o k ht hp hk => exact ⟨log, h.ret ht hp hk⟩

theorem Inv.new (P : Prog σ C O R L) (s₀ : σ) : Inv P s₀ [] (State.new s₀) := by
  refine ⟨fun t => ⟨nofun, nofun⟩, ?_, fun t => List.nodup_nil, ?_, ?_, ?_, List.nodup_nil, List.Pairwise.nil, ?_,
    fun i _ => ⟨rfl, rfl⟩, fun i hi => absurd rfl hi, ⟨rfl, .nil, rfl⟩⟩
  · intro t f hf; cases hf
  · intro t u f f' _ hf; cases hf
  · intro i o hi; cases hi
  · intro e he; cases he
  · intro i t c hi; cases hi

theorem Reach.inv {P : Prog σ C O R L} {s₀ : σ} {g : State σ C O R L} (h : Reach P s₀ g) : ∃ log, Inv P s₀ log g := by
  induction h with
  | new => exact ⟨[], .new P s₀⟩
  | step _ hs ih =>
    obtain ⟨log, ih⟩ := ih
    cases hs with
    | work t hw => exact ih.work hw
    | call t c ht => exact ⟨log, ih.invoke (Or.inl ht)⟩
    | setCallback b _ => exact ⟨log, ih.setCallback b⟩

end Verif.Conc
