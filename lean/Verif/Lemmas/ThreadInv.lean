import Verif.Lemmas.ThreadBooks
/-
What is true of a client used by many threads at every moment: the bookkeeping, who holds the locks, who may
use the client, and the calls that wait.  The invariant is about the pieces of code all threads still have to
run, in any order.
-/
set_option linter.unusedSectionVars false
namespace Verif.Threads
open Client
variable {D : Type}

/-! ### What a piece of code stands for -/

/-- The call it works on. -/
def Act.opens : Act D → Opens D
  | .start i c _ => [(i, c, true)]
  | .agg i c => [(i, c, true)]
  | .result i c _ _ => [(i, c, true)]
  | .finish i c _ _ via => [(i, c, via.isNone)]
  | .fin p _ => openOf p
  | _ => []

/-- The heap objects it has to delete. -/
def Act.own : Act D → List Nat
  | .fin p _ => p.own
  | .free own _ => own
  | _ => []

def sumStats (xs : List Stats) : Stats := xs.foldr Stats.add .zero

/-- The counters it has to increment. -/
def Act.owed : Act D → Stats
  | .start _ c _ => total c
  | .count _ _ xs => sumStats xs
  | .after _ xs => sumStats xs
  | _ => .zero

/-- It holds the callback lock of aggregator `k`. -/
def Act.holds (k : Kind) : Act D → Bool
  | .calling c => kind c == k
  | .after j _ => j == k
  | _ => false

def Act.isDestroy : Act D → Bool
  | .destroy _ => true
  | _ => false

def Act.isWait (i : Nat) : Act D → Bool
  | .wait j => j == i
  | _ => false

/-- What it goes by has happened. -/
def Act.Ok (tr : List (Ev D)) : Act D → Prop
  | .finish i c st reply via => ∀ id, via = some id → ∃ a, Ev.completed id (some i) c a ∈ tr ∧ a.status = st ∧ reply = replyOf c a
  | .fin p a => Ev.completed p.id p.by_ p.req a ∈ tr
  | .setValue i st => ∃ c reply via, Ev.done i c st reply via ∈ tr
  | .count i c _ => ∃ id, Ev.sent id (some i) c ∈ tr
  | _ => True

theorem Act.Ok.mono {tr tr' : List (Ev D)} {a : Act D} (h : a.Ok tr) (hs : ∀ e ∈ tr, e ∈ tr') : a.Ok tr' := by
  cases a <;> try trivial
  · obtain ⟨id, h1⟩ := h
    exact ⟨id, hs _ h1⟩
  · intro id hid
    obtain ⟨a, h1, h2⟩ := h id hid
    exact ⟨a, hs _ h1, h2⟩
  · obtain ⟨c, r, v, h1⟩ := h
    exact ⟨c, r, v, hs _ h1⟩
  · exact hs _ h

def opensOf (A : List (Act D)) : Opens D := A.flatMap Act.opens
def ownOf (A : List (Act D)) : List Nat := A.flatMap Act.own
def owedOf (A : List (Act D)) : Stats := sumStats (A.map Act.owed)

theorem opensOf_cons (a : Act D) (A : List (Act D)) : opensOf (a :: A) = a.opens ++ opensOf A := rfl
theorem ownOf_cons (a : Act D) (A : List (Act D)) : ownOf (a :: A) = a.own ++ ownOf A := rfl
theorem owedOf_cons (a : Act D) (A : List (Act D)) : owedOf (a :: A) = a.owed.add (owedOf A) := rfl

theorem sumStats_perm {xs ys : List Stats} (h : xs.Perm ys) : sumStats xs = sumStats ys := by
  induction h with
  | nil => rfl
  | cons x h ih => simp only [sumStats, List.foldr_cons] at ih ⊢; rw [ih]
  | swap x y l =>
    simp only [sumStats, List.foldr_cons]
    rw [← Stats.add_assoc, Stats.add_comm y x, Stats.add_assoc]
  | trans _ _ h1 h2 => exact h1.trans h2

/-- Items on their way to `FlushOut`. -/
def Flushes (fl : List (Act D)) : Prop := ∀ a ∈ fl, ∃ c, a = Act.flush c

theorem Flushes.opens {fl A : List (Act D)} (h : Flushes fl) : opensOf (fl ++ A) = opensOf A := by
  induction fl with
  | nil => rfl
  | cons a fl ih =>
    obtain ⟨c, rfl⟩ := h a (by simp)
    exact ih (fun b hb => h b (List.mem_cons_of_mem _ hb))

theorem Flushes.own {fl A : List (Act D)} (h : Flushes fl) : ownOf (fl ++ A) = ownOf A := by
  induction fl with
  | nil => rfl
  | cons a fl ih =>
    obtain ⟨c, rfl⟩ := h a (by simp)
    exact ih (fun b hb => h b (List.mem_cons_of_mem _ hb))

theorem Flushes.owed {fl A : List (Act D)} (h : Flushes fl) : owedOf (fl ++ A) = owedOf A := by
  induction fl with
  | nil => rfl
  | cons a fl ih =>
    obtain ⟨c, rfl⟩ := h a (by simp)
    rw [List.cons_append, owedOf_cons, ih (fun b hb => h b (List.mem_cons_of_mem _ hb))]
    exact Stats.zero_add _

theorem Flushes.countP {fl A : List (Act D)} (h : Flushes fl) (P : Act D → Bool) (hP : ∀ c, P (.flush c) = false) :
    (fl ++ A).countP P = A.countP P := by
  rw [List.countP_append, List.countP_eq_zero.mpr, Nat.zero_add]
  intro a ha
  obtain ⟨c, rfl⟩ := h a ha
  simp [hP c]

/-! ### The invariant -/

/-- Who may use the client. -/
structure Life (A : List (Act D)) (s : Sys D) : Prop where
  /-- the lock is held by one piece of code or by none -/
  locks : ∀ k, A.countP (Act.holds k) = if s.lk k then 1 else 0
  /-- there is one destructor -/
  destr : A.countP Act.isDestroy = if s.dying && s.c.alive then 1 else 0
  api : s.dying = true → ∀ a ∈ A, a.api = false
  after : ∀ k xs, .after k xs ∈ A → xs ≠ [] → s.cb k = true
  phase : ∀ n, .destroy n ∈ A → (6 ≤ n → s.cb .check = false) ∧ (7 ≤ n → s.cb .quota = false) ∧ (8 ≤ n → s.cb .report = false)
  dead : s.c.alive = false → s.dying = true ∧ ∀ k, s.cb k = false
  born : s.dying = false → ∀ k, s.cb k = true

/-- The calls that wait for their done callback. -/
structure Frames (A : List (Act D)) (s : Sys D) : Prop where
  nodup : (s.frames.map (·.1)).Nodup
  waits : ∀ i, A.countP (Act.isWait i) = s.frames.countP (·.1 == i)
  known : ∀ f ∈ s.frames, f.1 ∈ s.syncs
  lt : ∀ i ∈ s.syncs, i < s.c.calls
  live : ∀ i ∈ s.syncs, dones i s.c.trace = 0 → (i, true) ∈ s.frames
  unset : ∀ i, (i, true) ∈ s.frames → dones i s.c.trace = 0
  moved : ∀ i, (i, false) ∈ s.frames → (∃ st, Act.setValue i st ∈ A) ∨ ∃ st, (i, st) ∈ s.values
  vals : ∀ i st, (i, st) ∈ s.values → ∃ c reply via, Ev.done i c st reply via ∈ s.c.trace
  rets : ∀ i st, (i, st) ∈ s.returns → i ∈ s.syncs ∧ ∃ c reply via, Ev.done i c st reply via ∈ s.c.trace
  once : (s.returns.map (·.1)).Nodup
  gone : ∀ i ∈ s.returns.map (·.1), i ∉ s.frames.map (·.1)
  back : ∀ i ∈ s.syncs, i ∈ s.frames.map (·.1) ∨ i ∈ s.returns.map (·.1)

structure Inv (A : List (Act D)) (s : Sys D) : Prop where
  books : Books (opensOf A) (ownOf A) (owedOf A) s.c
  acts : ∀ a ∈ A, a.Ok s.c.trace
  life : Life A s
  frames : Frames A s

theorem Life.perm {A A' : List (Act D)} {s : Sys D} (l : Life A s) (h : A'.Perm A) : Life A' s :=
  ⟨fun k => by rw [h.countP_eq]; exact l.locks k, by rw [h.countP_eq]; exact l.destr, fun hd a ha => l.api hd a (h.mem_iff.mp ha),
   fun k xs ha => l.after k xs (h.mem_iff.mp ha), fun n ha => l.phase n (h.mem_iff.mp ha), l.dead, l.born⟩

theorem Frames.perm {A A' : List (Act D)} {s : Sys D} (f : Frames A s) (h : A'.Perm A) : Frames A' s :=
  ⟨f.nodup, fun i => by rw [h.countP_eq]; exact f.waits i, f.known, f.lt, f.live, f.unset,
   fun i hi => (f.moved i hi).imp (fun ⟨st, hs⟩ => ⟨st, h.mem_iff.mpr hs⟩) id, f.vals, f.rets, f.once, f.gone, f.back⟩

theorem Inv.perm {A A' : List (Act D)} {s : Sys D} (i : Inv A s) (h : A'.Perm A) : Inv A' s := by
  refine ⟨?_, fun a ha => i.acts a (h.mem_iff.mp ha), i.life.perm h, i.frames.perm h⟩
  have h3 : owedOf A' = owedOf A := sumStats_perm (h.map _)
  rw [h3]
  exact i.books.perm (h.flatMap_right _) (h.flatMap_right _)

/-- The pieces of code of all threads. -/
def Sys.acts (s : Sys D) : List (Act D) := s.threads.flatten

theorem acts_at {l1 l2 : List (List (Act D))} {t : List (Act D)} : ((l1 ++ t :: l2).flatten).Perm (t ++ (l1 ++ l2).flatten) := by
  rw [List.flatten_append, List.flatten_cons, List.flatten_append, ← List.append_assoc, ← List.append_assoc]
  exact List.perm_append_comm.append_right _

/-! ### Parts of the state the parts of the invariant do not concern -/

theorem Life.change {A A' : List (Act D)} {s s' : Sys D} (l : Life A s) (h1 : s'.cb = s.cb) (h2 : s'.lk = s.lk) (h3 : s'.dying = s.dying)
    (h4 : s'.c.alive = s.c.alive) (hk : ∀ k, A'.countP (Act.holds k) = A.countP (Act.holds k))
    (hd : A'.countP Act.isDestroy = A.countP Act.isDestroy) (ha : ∀ a ∈ A', a.api = true → ∃ b ∈ A, b.api = true)
    (hf : ∀ k xs, .after k xs ∈ A' → xs ≠ [] → ∃ ys, ys ≠ [] ∧ .after k ys ∈ A) (hn : ∀ n, .destroy n ∈ A' → .destroy n ∈ A) : Life A' s' := by
  refine ⟨?_, ?_, ?_, ?_, ?_, ?_, ?_⟩
  · intro k; rw [hk, h2]; exact l.locks k
  · rw [hd, h3, h4]; exact l.destr
  · intro hdy a ham
    cases hap : a.api with
    | false => rfl
    | true =>
      obtain ⟨b, hb, hb2⟩ := ha a ham hap
      rw [l.api (h3 ▸ hdy) b hb] at hb2
      cases hb2
  · intro k xs hm hx
    obtain ⟨ys, hy, hy2⟩ := hf k xs hm hx
    rw [h1]; exact l.after k ys hy2 hy
  · intro n hm; rw [h1]; exact l.phase n (hn n hm)
  · rw [h4, h3, h1]; exact l.dead
  · rw [h3, h1]; exact l.born

theorem Frames.change {A A' : List (Act D)} {s s' : Sys D} (f : Frames A s) (h1 : s'.frames = s.frames) (h2 : s'.syncs = s.syncs)
    (h3 : s'.values = s.values) (h4 : s'.returns = s.returns) (h5 : s'.c.calls = s.c.calls)
    (ht : ∃ evs, s'.c.trace = s.c.trace ++ evs ∧ ∀ e ∈ evs, e.doneNo = none)
    (hw : ∀ i, A'.countP (Act.isWait i) = A.countP (Act.isWait i)) (hv : ∀ i st, Act.setValue i st ∈ A → Act.setValue i st ∈ A') : Frames A' s' := by
  obtain ⟨evs, ht, he⟩ := ht
  have hd : ∀ i, dones i s'.c.trace = dones i s.c.trace := by
    intro i
    rw [ht]
    simp only [dones, List.countP_append]
    have h0 : evs.countP (fun e => e.doneNo == some i) = 0 := List.countP_eq_zero.mpr (fun e hm => by rw [he e hm]; simp)
    rw [h0, Nat.add_zero]
  have hmem : ∀ e, e ∈ s.c.trace → e ∈ s'.c.trace := fun e hm => by rw [ht]; exact List.mem_append_left _ hm
  refine ⟨?_, ?_, ?_, ?_, ?_, ?_, ?_, ?_, ?_, ?_, ?_, ?_⟩
  · rw [h1]; exact f.nodup
  · intro i; rw [hw, h1]; exact f.waits i
  · rw [h1, h2]; exact f.known
  · rw [h2, h5]; exact f.lt
  · intro i hi; rw [hd, h1]; exact f.live i (h2 ▸ hi)
  · intro i hi; rw [hd]; exact f.unset i (h1 ▸ hi)
  · intro i hi
    rw [h3]
    exact (f.moved i (h1 ▸ hi)).imp (fun ⟨st, h⟩ => ⟨st, hv i st h⟩) id
  · intro i st hi
    obtain ⟨c, r, v, h⟩ := f.vals i st (h3 ▸ hi)
    exact ⟨c, r, v, hmem _ h⟩
  · intro i st hi
    rw [h2]
    obtain ⟨h0, c, r, v, h⟩ := f.rets i st (h4 ▸ hi)
    exact ⟨h0, c, r, v, hmem _ h⟩
  · rw [h4]; exact f.once
  · rw [h4, h1]; exact f.gone
  · rw [h4, h1, h2]; exact f.back

/-- It neither holds a lock, nor waits, nor destroys. -/
def Act.bland : Act D → Bool
  | .calling _ | .after _ _ | .destroy _ | .wait _ => false
  | _ => true

theorem Act.bland_holds {a : Act D} (h : a.bland = true) (k : Kind) : a.holds k = false := by cases a <;> first | rfl | cases h
theorem Act.bland_destroy {a : Act D} (h : a.bland = true) : a.isDestroy = false := by cases a <;> first | rfl | cases h
theorem Act.bland_wait {a : Act D} (h : a.bland = true) (i : Nat) : a.isWait i = false := by cases a <;> first | rfl | cases h

theorem countP_swap {P : Act D → Bool} {a : Act D} {new R : List (Act D)} (h : new.countP P = [a].countP P) :
    (new ++ R).countP P = (a :: R).countP P := by
  rw [List.countP_append, h, ← List.countP_append]
  rfl

theorem countP_none {P : Act D → Bool} {l : List (Act D)} (h : ∀ a ∈ l, P a = false) : l.countP P = 0 :=
  List.countP_eq_zero.mpr (fun a ha => by rw [h a ha]; simp)

/-- A step that has nothing to do with locks, waiting and destruction. -/
theorem Life.bland {a : Act D} {new R : List (Act D)} {s s' : Sys D} (l : Life (a :: R) s) (h1 : s'.cb = s.cb) (h2 : s'.lk = s.lk)
    (h3 : s'.dying = s.dying) (h4 : s'.c.alive = s.c.alive) (ha : a.bland = true) (hn : ∀ b ∈ new, b.bland = true)
    (hp : a.api = true ∨ ∀ b ∈ new, b.api = false) : Life (new ++ R) s' := by
  refine l.change h1 h2 h3 h4 ?_ ?_ ?_ ?_ ?_
  · intro k
    refine countP_swap ?_
    rw [countP_none (fun b hb => Act.bland_holds (hn b hb) k), countP_none]
    intro b hb; rw [List.mem_singleton] at hb; subst hb; exact Act.bland_holds ha k
  · refine countP_swap ?_
    rw [countP_none (fun b hb => Act.bland_destroy (hn b hb)), countP_none]
    intro b hb; rw [List.mem_singleton] at hb; subst hb; exact Act.bland_destroy ha
  · intro b hb hbp
    rcases List.mem_append.mp hb with hb | hb
    · rcases hp with hp | hp
      · exact ⟨a, List.mem_cons_self, hp⟩
      · rw [hp b hb] at hbp; cases hbp
    · exact ⟨b, List.mem_cons_of_mem _ hb, hbp⟩
  · intro k xs hm hx
    rcases List.mem_append.mp hm with hm | hm
    · have := hn _ hm; cases this
    · exact ⟨xs, hx, List.mem_cons_of_mem _ hm⟩
  · intro n hm
    rcases List.mem_append.mp hm with hm | hm
    · have := hn _ hm; cases this
    · exact List.mem_cons_of_mem _ hm

def Act.isSet : Act D → Bool
  | .setValue _ _ => true
  | _ => false

theorem Frames.bland {a : Act D} {new R : List (Act D)} {s s' : Sys D} (f : Frames (a :: R) s) (h1 : s'.frames = s.frames)
    (h2 : s'.syncs = s.syncs) (h3 : s'.values = s.values) (h4 : s'.returns = s.returns) (h5 : s'.c.calls = s.c.calls)
    (ht : ∃ evs, s'.c.trace = s.c.trace ++ evs ∧ ∀ e ∈ evs, e.doneNo = none)
    (ha : ∀ i, a.isWait i = false) (hs : a.isSet = false) (hn : ∀ b ∈ new, ∀ i, b.isWait i = false) : Frames (new ++ R) s' := by
  refine f.change h1 h2 h3 h4 h5 ht ?_ ?_
  · intro i
    refine countP_swap ?_
    rw [countP_none (fun b hb => hn b hb i), countP_none]
    intro b hb; rw [List.mem_singleton] at hb; subst hb; exact ha i
  · intro i st hm
    rcases List.mem_cons.mp hm with hm | hm
    · subst hm; cases hs
    · exact List.mem_append_right _ hm

theorem Inv.next {a : Act D} {new R : List (Act D)} {s s' : Sys D} (i : Inv (a :: R) s)
    (hb : Books (opensOf (new ++ R)) (ownOf (new ++ R)) (owedOf (new ++ R)) s'.c) (hok : ∀ b ∈ new, b.Ok s'.c.trace)
    (ht : ∀ e ∈ s.c.trace, e ∈ s'.c.trace) (hl : Life (new ++ R) s') (hf : Frames (new ++ R) s') : Inv (new ++ R) s' := by
  refine ⟨hb, ?_, hl, hf⟩
  intro b hm
  rcases List.mem_append.mp hm with hm | hm
  · exact hok b hm
  · exact (i.acts b (List.mem_cons_of_mem _ hm)).mono ht

/-! ### The aggregators -/

section
variable [DoubleOps D] {K : Setup} {stops : Bool}

theorem aggC_ok {x : Check.Call D} {s s' : Sys D} {out : Check.Out} {fl : List (Act D)} (h : aggC K x s = .ok (s', out, fl)) :
    ∃ a rs, s' = { s with c := { s.c with check := a } } ∧ fl = rs.map (fun r => Act.flush (.check r)) ∧
      Check.step K.envC K.cfgC x s.c.check = .ok (a, out, rs) := by
  unfold aggC at h
  cases hx : Check.step K.envC K.cfgC x s.c.check with
  | error e => rw [hx] at h; cases h
  | ok y =>
    obtain ⟨a, o, rs⟩ := y
    rw [hx] at h
    cases h
    exact ⟨a, rs, rfl, rfl, rfl⟩

theorem aggQ_ok {x : Quota.Call D} {s s' : Sys D} {out : Quota.Out} {fl : List (Act D)} (h : aggQ K x s = .ok (s', out, fl)) :
    ∃ a rs, s' = { s with c := { s.c with quota := a } } ∧ fl = rs.map (fun r => Act.flush (.quota r)) ∧
      Quota.step K.envQ K.cfgQ (K.depth + 1) x s.c.quota = .ok (a, out, rs) := by
  unfold aggQ at h
  cases hx : Quota.step K.envQ K.cfgQ (K.depth + 1) x s.c.quota with
  | error e => rw [hx] at h; cases h
  | ok y =>
    obtain ⟨a, o, rs⟩ := y
    rw [hx] at h
    cases h
    exact ⟨a, rs, rfl, rfl, rfl⟩

theorem aggR_ok {x : Report.Call D} {s s' : Sys D} {out : Status} {fl : List (Act D)} (h : aggR K x s = .ok (s', out, fl)) :
    ∃ a rs, s' = { s with c := { s.c with report := a } } ∧ fl = rs.map (fun r => Act.flush (.report r)) ∧
      Report.step K.envR K.cfgR x s.c.report = .ok (a, out, rs) := by
  unfold aggR at h
  cases hx : Report.step K.envR K.cfgR x s.c.report with
  | error e => rw [hx] at h; cases h
  | ok y =>
    obtain ⟨a, o, rs⟩ := y
    rw [hx] at h
    cases h
    exact ⟨a, rs, rfl, rfl, rfl⟩

theorem Flushes.map {R : Type} (f : R → Call D) (rs : List R) : Flushes (rs.map (fun r => Act.flush (f r))) := by
  intro a ha
  obtain ⟨r, _, rfl⟩ := List.mem_map.mp ha
  exact ⟨_, rfl⟩

/-- Only the aggregators changed. -/
structure AggOnly (s s' : Sys D) : Prop where
  eq : s' = { s with c := { s.c with check := s'.c.check, quota := s'.c.quota, report := s'.c.report } }

theorem AggOnly.inv {s s' : Sys D} (h : AggOnly s s') {a : Act D} {fl new R : List (Act D)} (i : Inv (a :: R) s) (hfl : Flushes fl)
    (h1 : opensOf (new ++ R) = opensOf (a :: R)) (h2 : ownOf (new ++ R) = ownOf (a :: R)) (h3 : owedOf (new ++ R) = owedOf (a :: R))
    (hok : ∀ b ∈ new, b.Ok s.c.trace) (ha : a.bland = true) (hn : ∀ b ∈ new, b.bland = true) (hs : a.isSet = false)
    (hp : a.api = true ∨ ∀ b ∈ new, b.api = false) : Inv (fl ++ new ++ R) s' := by
  have e := h.eq
  have hb : ∀ b ∈ fl ++ new, b.bland = true := by
    intro b hb
    rcases List.mem_append.mp hb with hb | hb
    · obtain ⟨c, rfl⟩ := hfl b hb; rfl
    · exact hn b hb
  refine i.next ?_ ?_ ?_ ?_ ?_
  · rw [List.append_assoc, hfl.opens, hfl.own, hfl.owed, h1, h2, h3]
    exact i.books.congr (by rw [e]) (by rw [e]) (by rw [e]) (by rw [e]) (by rw [e]) (by rw [e]) (by rw [e])
  · intro b hm
    have ht : s'.c.trace = s.c.trace := by rw [e]
    rw [ht]
    rcases List.mem_append.mp hm with hm | hm
    · obtain ⟨c, rfl⟩ := hfl b hm; trivial
    · exact hok b hm
  · intro x hx; rw [e]; exact hx
  · refine i.life.bland (by rw [e]) (by rw [e]) (by rw [e]) (by rw [e]) ha hb ?_
    refine hp.imp id (fun hp b hm => ?_)
    rcases List.mem_append.mp hm with hm | hm
    · obtain ⟨c, rfl⟩ := hfl b hm; rfl
    · exact hp b hm
  · exact i.frames.bland (by rw [e]) (by rw [e]) (by rw [e]) (by rw [e]) (by rw [e]) ⟨[], by rw [e]; simp, by simp⟩
      (Act.bland_wait ha) hs (fun b hm => Act.bland_wait (hb b hm))

theorem runCall_inv {j : Nat} {c : Call D} {s s' : Sys D} {new R : List (Act D)} (i : Inv (.agg j c :: R) s)
    (h : runCall K j c s = .ok (s', new)) : Inv (new ++ R) s' := by
  cases c with
  | check r =>
    simp only [runCall, bind, Except.bind] at h
    cases hx : aggC K (.check r) s with
    | error e => rw [hx] at h; cases h
    | ok y =>
      obtain ⟨s1, out, fl⟩ := y
      rw [hx] at h; cases h
      obtain ⟨a, rs, rfl, rfl, _⟩ := aggC_ok hx
      exact AggOnly.inv ⟨rfl⟩ i (Flushes.map _ rs) rfl rfl rfl (by simp [Act.Ok]) rfl (by simp [Act.bland]) rfl (.inl rfl)
  | quota r =>
    simp only [runCall, bind, Except.bind] at h
    cases hx : aggQ K (.quota r) s with
    | error e => rw [hx] at h; cases h
    | ok y =>
      obtain ⟨s1, out, fl⟩ := y
      rw [hx] at h; cases h
      obtain ⟨a, rs, rfl, rfl, _⟩ := aggQ_ok hx
      exact AggOnly.inv ⟨rfl⟩ i (Flushes.map _ rs) rfl rfl rfl (by simp [Act.Ok]) rfl (by simp [Act.bland]) rfl (.inl rfl)
  | report r =>
    simp only [runCall, bind, Except.bind] at h
    cases hx : aggR K (.report r) s with
    | error e => rw [hx] at h; cases h
    | ok y =>
      obtain ⟨s1, out, fl⟩ := y
      rw [hx] at h; cases h
      obtain ⟨a, rs, rfl, rfl, _⟩ := aggR_ok hx
      exact AggOnly.inv ⟨rfl⟩ i (Flushes.map _ rs) rfl rfl rfl (by simp [Act.Ok]) rfl (by simp [Act.bland]) rfl (.inl rfl)

theorem runTimer_inv {n : Nat} {s s' : Sys D} {new R : List (Act D)} (i : Inv (.timer n :: R) s)
    (h : runTimer K n s = .ok (s', new)) : Inv (new ++ R) s' := by
  match n with
  | 0 =>
    simp only [runTimer, bind, Except.bind] at h
    cases hx : aggC K .flush s with
    | error e => rw [hx] at h; cases h
    | ok y =>
      obtain ⟨s1, out, fl⟩ := y
      rw [hx] at h; cases h
      obtain ⟨a, rs, rfl, rfl, _⟩ := aggC_ok hx
      exact AggOnly.inv ⟨rfl⟩ i (Flushes.map _ rs) rfl rfl rfl (by simp [Act.Ok]) rfl (by simp [Act.bland]) rfl (.inr (by simp [Act.api]))
  | 1 =>
    simp only [runTimer, bind, Except.bind] at h
    cases hx : aggQ K .flush s with
    | error e => rw [hx] at h; cases h
    | ok y =>
      obtain ⟨s1, out, fl⟩ := y
      rw [hx] at h; cases h
      obtain ⟨a, rs, rfl, rfl, _⟩ := aggQ_ok hx
      exact AggOnly.inv ⟨rfl⟩ i (Flushes.map _ rs) rfl rfl rfl (by simp [Act.Ok]) rfl (by simp [Act.bland]) rfl (.inr (by simp [Act.api]))
  | 2 =>
    simp only [runTimer, bind, Except.bind] at h
    cases hx : aggR K .flush s with
    | error e => rw [hx] at h; cases h
    | ok y =>
      obtain ⟨s1, out, fl⟩ := y
      rw [hx] at h; cases h
      obtain ⟨a, rs, rfl, rfl, _⟩ := aggR_ok hx
      exact AggOnly.inv ⟨rfl⟩ i (Flushes.map _ rs) rfl rfl rfl (by simp [Act.Ok]) rfl (by simp [Act.bland]) rfl (.inr (by simp [Act.api]))
  | n + 3 =>
    simp only [runTimer] at h
    cases h
    refine i.next ?_ (by simp) (fun _ h => h) (i.life.bland rfl rfl rfl rfl rfl (by simp) (.inr (by simp)))
      (i.frames.bland rfl rfl rfl rfl rfl ⟨[], by simp, by simp⟩ (fun _ => rfl) rfl (by simp))
    have := i.books
    rw [owedOf_cons] at this
    simpa [opensOf_cons, ownOf_cons, Act.opens, Act.own, Act.owed, Stats.zero_add] using this


theorem runFin_inv {p : Pend D} {a : Answer} {s s' : Sys D} {new R : List (Act D)} (i : Inv (.fin p a :: R) s)
    (h : runFin K p a s = .ok (s', new)) : Inv (new ++ R) s' := by
  have hok : Ev.completed p.id p.by_ p.req a ∈ s.c.trace := i.acts _ List.mem_cons_self
  obtain ⟨id, by_, req, own⟩ := p
  simp only at hok
  have plain : ∀ {new : List (Act D)} {s' : Sys D} {fl : List (Act D)}, AggOnly s s' → Flushes fl →
      opensOf (new ++ R) = opensOf (.fin ⟨id, by_, req, own⟩ a :: R) → ownOf (new ++ R) = ownOf (.fin ⟨id, by_, req, own⟩ a :: R) →
      owedOf (new ++ R) = owedOf (.fin ⟨id, by_, req, own⟩ a :: R) → (∀ b ∈ new, b.Ok s.c.trace) → (∀ b ∈ new, b.bland = true) →
      (∀ b ∈ new, b.api = false) → Inv (fl ++ new ++ R) s' :=
    fun he hfl h1 h2 h3 h4 h5 h6 => he.inv i hfl h1 h2 h3 h4 rfl h5 rfl (.inr h6)
  have own1 : ∀ (th : Bool) (j : Nat) (c : Call D) (st : Status) (rep : Reply),
      ownOf ([.free own th, .finish j c st rep (some id)] ++ R) = ownOf (.fin ⟨id, by_, req, own⟩ a :: R) := fun _ _ _ _ _ => by
    simp [ownOf, Act.own]
  have owed1 : ∀ (th : Bool) (j : Nat) (c : Call D) (st : Status) (rep : Reply),
      owedOf ([.free own th, .finish j c st rep (some id)] ++ R) = owedOf (.fin ⟨id, by_, req, own⟩ a :: R) := fun _ _ _ _ _ => by
    show Stats.add .zero (Stats.add .zero (owedOf R)) = Stats.add .zero (owedOf R)
    rw [Stats.zero_add, Stats.zero_add]
  have own2 : ∀ (th : Bool), ownOf ([.free own th] ++ R) = ownOf (.fin ⟨id, by_, req, own⟩ a :: R) := fun _ => by
    simp [ownOf, Act.own]
  have fok : ∀ (th : Bool) (j : Nat) (c : Call D) (rep : Reply), by_ = some j → req = c → rep = replyOf c a →
      ∀ b ∈ [Act.free own th, .finish j c a.status rep (some id)], b.Ok s.c.trace := by
    intro th j c rep h1 h2 h3 b hb
    simp only [List.mem_cons, List.not_mem_nil, or_false] at hb
    rcases hb with rfl | rfl
    · trivial
    · intro id' hid
      cases hid
      exact ⟨a, by rw [h1, h2] at hok; exact hok, rfl, h3⟩
  cases req with
  | check r =>
    cases by_ with
    | some j =>
      simp only [runFin, bind, Except.bind] at h
      split at h
      · cases ht : s.c.touch own with
        | error e => rw [ht] at h; cases h
        | ok u =>
          rw [ht] at h
          simp only at h
          cases hx : aggC K (.cacheResponse r a.check) s with
          | error e => rw [hx] at h; cases h
          | ok y =>
            obtain ⟨s1, out, fl⟩ := y
            rw [hx] at h; cases h
            obtain ⟨a', rs, rfl, rfl, _⟩ := aggC_ok hx
            exact plain ⟨rfl⟩ (Flushes.map _ rs) rfl (own1 _ _ _ _ _) (owed1 _ _ _ _ _) (fok _ _ _ _ rfl rfl rfl) (by simp [Act.bland]) (by simp [Act.api])
      · cases h
        exact plain (fl := []) ⟨rfl⟩ (by simp [Flushes]) rfl (own1 _ _ _ _ _) (owed1 _ _ _ _ _) (fok _ _ _ _ rfl rfl rfl) (by simp [Act.bland]) (by simp [Act.api])
    | none =>
      simp only [runFin] at h
      cases h
      exact plain (fl := []) ⟨rfl⟩ (by simp [Flushes]) rfl (own2 _) rfl (by simp [Act.Ok]) (by simp [Act.bland]) (by simp [Act.api])
  | quota r =>
    cases by_ with
    | some j =>
      simp only [runFin, bind, Except.bind] at h
      cases ht : s.c.touch own with
      | error e => rw [ht] at h; cases h
      | ok u =>
        rw [ht] at h
        simp only at h
        cases hx : aggQ K (.cacheResponse r (if a.status = .ok then a.quota else .default)) s with
        | error e => rw [hx] at h; cases h
        | ok y =>
          obtain ⟨s1, out, fl⟩ := y
          rw [hx] at h; cases h
          obtain ⟨a', rs, rfl, rfl, _⟩ := aggQ_ok hx
          exact plain ⟨rfl⟩ (Flushes.map _ rs) rfl (own1 _ _ _ _ _) (owed1 _ _ _ _ _) (fok _ _ _ _ rfl rfl rfl) (by simp [Act.bland]) (by simp [Act.api])
    | none =>
      simp only [runFin, bind, Except.bind] at h
      split at h
      · cases h
      · cases ht : s.c.touch own with
        | error e => rw [ht] at h; cases h
        | ok u =>
          rw [ht] at h
          simp only at h
          cases hx : aggQ K (.cacheResponse r (if a.status = .ok then a.quota else .default)) s with
          | error e => rw [hx] at h; cases h
          | ok y =>
            obtain ⟨s1, out, fl⟩ := y
            rw [hx] at h; cases h
            obtain ⟨a', rs, rfl, rfl, _⟩ := aggQ_ok hx
            exact plain ⟨rfl⟩ (Flushes.map _ rs) rfl (own2 _) rfl (by simp [Act.Ok]) (by simp [Act.bland]) (by simp [Act.api])
  | report r =>
    cases by_ with
    | some j =>
      simp only [runFin] at h
      cases h
      exact plain (fl := []) ⟨rfl⟩ (by simp [Flushes]) rfl (own1 _ _ _ _ _) (owed1 _ _ _ _ _) (fok _ _ _ _ rfl rfl rfl) (by simp [Act.bland]) (by simp [Act.api])
    | none =>
      simp only [runFin] at h
      cases h
      exact plain (fl := []) ⟨rfl⟩ (by simp [Flushes]) rfl (own2 _) rfl (by simp [Act.Ok]) (by simp [Act.bland]) (by simp [Act.api])

/-- The destructor goes on; a callback may be unset. -/
theorem Life.destroy {n m : Nat} {fl R : List (Act D)} {s s' : Sys D} (l : Life (.destroy n :: R) s) (hfl : Flushes fl)
    (h2 : s'.lk = s.lk) (h3 : s'.dying = s.dying) (h4 : s'.c.alive = s.c.alive)
    (hcb : ∀ k, s'.cb k = s.cb k ∨ s.lk k = false ∧ s'.cb k = false)
    (hm : (6 ≤ m → s'.cb .check = false) ∧ (7 ≤ m → s'.cb .quota = false) ∧ (8 ≤ m → s'.cb .report = false)) :
    Life (fl ++ [.destroy m] ++ R) s' := by
  have hd0 : s.dying = true := by
    have h := l.destr
    rw [List.countP_cons, if_pos (by rfl)] at h
    cases hdy : s.dying with
    | true => rfl
    | false => rw [hdy] at h; simp at h
  have hle : R.countP Act.isDestroy = 0 := by
    have h := l.destr
    rw [List.countP_cons, if_pos (by rfl)] at h
    split at h <;> omega
  have mono : ∀ k, s.cb k = false → s'.cb k = false := by
    intro k hk
    rcases hcb k with h | ⟨_, h⟩
    · rw [h]; exact hk
    · exact h
  rw [List.append_assoc]
  refine ⟨?_, ?_, ?_, ?_, ?_, ?_, ?_⟩
  · intro k
    rw [hfl.countP _ (fun _ => rfl), h2]
    exact l.locks k
  · rw [hfl.countP _ (fun _ => rfl), h3, h4]
    exact l.destr
  · intro _ a ha
    rcases List.mem_append.mp ha with ha | ha
    · obtain ⟨c, rfl⟩ := hfl a ha; rfl
    · rcases List.mem_cons.mp ha with rfl | ha
      · rfl
      · exact l.api hd0 a (List.mem_cons_of_mem _ ha)
  · intro k xs ha hx
    have ha' : Act.after k xs ∈ R := by
      rcases List.mem_append.mp ha with ha | ha
      · obtain ⟨c, h⟩ := hfl _ ha; cases h
      · rcases List.mem_cons.mp ha with h | ha
        · cases h
        · exact ha
    rcases hcb k with h | ⟨h, _⟩
    · rw [h]; exact l.after k xs (List.mem_cons_of_mem _ ha') hx
    · have := l.locks k
      rw [h] at this
      have hp := List.countP_eq_zero.mp (by simpa using this) _ (List.mem_cons_of_mem _ ha')
      simp [Act.holds] at hp
  · intro n' ha
    rcases List.mem_append.mp ha with ha | ha
    · obtain ⟨c, h⟩ := hfl _ ha; cases h
    · rcases List.mem_cons.mp ha with h | ha
      · cases h; exact hm
      · have := List.countP_eq_zero.mp hle _ ha
        simp [Act.isDestroy] at this
  · intro ha
    rw [h4] at ha
    obtain ⟨h5, h6⟩ := l.dead ha
    exact ⟨by rw [h3]; exact h5, fun k => mono k (h6 k)⟩
  · intro hb
    rw [h3, hd0] at hb; cases hb

theorem destroy_inv {n m : Nat} {fl R : List (Act D)} {s s' : Sys D} (i : Inv (.destroy n :: R) s) (hfl : Flushes fl)
    (he : s' = { s with c := { s.c with check := s'.c.check, quota := s'.c.quota, report := s'.c.report, timer := s'.c.timer }, cb := s'.cb })
    (hcb : ∀ k, s'.cb k = s.cb k ∨ s.lk k = false ∧ s'.cb k = false)
    (hm : (6 ≤ m → s'.cb .check = false) ∧ (7 ≤ m → s'.cb .quota = false) ∧ (8 ≤ m → s'.cb .report = false)) :
    Inv (fl ++ [.destroy m] ++ R) s' := by
  refine i.next ?_ ?_ ?_ ?_ ?_
  · rw [List.append_assoc, hfl.opens, hfl.own, hfl.owed]
    exact i.books.congr (by rw [he]) (by rw [he]) (by rw [he]) (by rw [he]) (by rw [he]) (by rw [he]) (by rw [he])
  · intro b hb
    rcases List.mem_append.mp hb with hb | hb
    · obtain ⟨c, rfl⟩ := hfl b hb; trivial
    · rw [List.mem_singleton] at hb; subst hb; trivial
  · intro x hx; rw [he]; exact hx
  · exact i.life.destroy hfl (by rw [he]) (by rw [he]) (by rw [he]) hcb hm
  · refine i.frames.bland (by rw [he]) (by rw [he]) (by rw [he]) (by rw [he]) (by rw [he]) ⟨[], by rw [he]; simp, by simp⟩ (fun _ => rfl) rfl ?_
    intro b hb j
    rcases List.mem_append.mp hb with hb | hb
    · obtain ⟨c, rfl⟩ := hfl b hb; rfl
    · rw [List.mem_singleton] at hb; subst hb; rfl

theorem unset_inv {k : Kind} {n : Nat} {s s' : Sys D} {new R : List (Act D)} (i : Inv (.destroy n :: R) s)
    (hk : (k = .check ∧ n = 5) ∨ (k = .quota ∧ n = 6) ∨ (k = .report ∧ n = 7))
    (h : unset k (n + 1) s = some (.ok (s', new))) : Inv (new ++ R) s' := by
  unfold unset at h
  cases hl : s.lk k with
  | true => rw [hl] at h; simp at h
  | false =>
    rw [hl] at h
    simp only [Bool.false_eq_true, if_false, Option.some.injEq, Except.ok.injEq, Prod.mk.injEq] at h
    obtain ⟨rfl, rfl⟩ := h
    have hp := i.life.phase n List.mem_cons_self
    refine destroy_inv (fl := []) i (by simp [Flushes]) rfl ?_ ?_
    · intro j
      by_cases hj : j = k
      · subst hj; exact .inr ⟨hl, by simp [set]⟩
      · exact .inl (by simp [set, hj])
    · rcases hk with ⟨rfl, rfl⟩ | ⟨rfl, rfl⟩ | ⟨rfl, rfl⟩
      · simp [set]
      · simp only [set]; refine ⟨fun _ => ?_, fun _ => ?_, fun h => by omega⟩
        · simpa using hp.1 (by omega)
        · simp
      · simp only [set]; refine ⟨fun _ => ?_, fun _ => ?_, fun h => by simp⟩
        · simpa using hp.1 (by omega)
        · simpa using hp.2.1 (by omega)

theorem runDestroy_inv {n : Nat} {s s' : Sys D} {new R : List (Act D)} (i : Inv (.destroy n :: R) s)
    (h : runDestroy K stops n s = some (.ok (s', new))) : Inv (new ++ R) s' := by
  have hp := i.life.phase n List.mem_cons_self
  match n with
  | 0 =>
    simp only [runDestroy, bind, Except.bind, Option.some.injEq] at h
    cases hx : aggC K .flushAll s with
    | error e => rw [hx] at h; cases h
    | ok y =>
      obtain ⟨s1, out, fl⟩ := y
      rw [hx] at h; cases h
      obtain ⟨a, rs, rfl, rfl, _⟩ := aggC_ok hx
      exact destroy_inv i (Flushes.map _ rs) rfl (fun _ => .inl rfl) (by omega)
  | 1 =>
    simp only [runDestroy, bind, Except.bind, Option.some.injEq] at h
    cases hx : aggQ K .flushAll s with
    | error e => rw [hx] at h; cases h
    | ok y =>
      obtain ⟨s1, out, fl⟩ := y
      rw [hx] at h; cases h
      obtain ⟨a, rs, rfl, rfl, _⟩ := aggQ_ok hx
      exact destroy_inv i (Flushes.map _ rs) rfl (fun _ => .inl rfl) (by omega)
  | 2 =>
    simp only [runDestroy, bind, Except.bind, Option.some.injEq] at h
    cases hx : aggR K .flushAll s with
    | error e => rw [hx] at h; cases h
    | ok y =>
      obtain ⟨s1, out, fl⟩ := y
      rw [hx] at h; cases h
      obtain ⟨a, rs, rfl, rfl, _⟩ := aggR_ok hx
      exact destroy_inv i (Flushes.map _ rs) rfl (fun _ => .inl rfl) (by omega)
  | 3 =>
    simp only [runDestroy] at h
    split at h
    · cases h; exact destroy_inv (fl := []) i (by simp [Flushes]) rfl (fun _ => .inl rfl) (by omega)
    · cases h; exact destroy_inv (fl := []) i (by simp [Flushes]) rfl (fun _ => .inl rfl) (by omega)
  | 4 =>
    simp only [runDestroy] at h
    split at h
    · cases h
    · cases h; exact destroy_inv (fl := []) i (by simp [Flushes]) rfl (fun _ => .inl rfl) (by omega)
  | 5 => exact unset_inv i (.inl ⟨rfl, rfl⟩) h
  | 6 => exact unset_inv i (.inr (.inl ⟨rfl, rfl⟩)) h
  | 7 => exact unset_inv i (.inr (.inr ⟨rfl, rfl⟩)) h
  | n + 8 =>
    simp only [runDestroy, Option.some.injEq, Except.ok.injEq, Prod.mk.injEq] at h
    obtain ⟨rfl, rfl⟩ := h
    have hd : s.dying = true ∧ R.countP Act.isDestroy = 0 := by
      have h := i.life.destr
      rw [List.countP_cons, if_pos (by rfl)] at h
      cases hdy : s.dying with
      | true => refine ⟨rfl, ?_⟩; split at h <;> omega
      | false => rw [hdy] at h; simp at h
    refine i.next ?_ (by simp) (fun e he => by simp [Client.log, he]) ?_ ?_
    · have b := i.books
      have h0 : owedOf (.destroy (n + 8) :: R) = owedOf R := Stats.zero_add _
      rw [h0] at b
      exact (b.mark .destroyed (.inr rfl)).congr rfl rfl rfl rfl rfl rfl rfl
    · have l := i.life
      refine ⟨?_, ?_, ?_, ?_, ?_, ?_, ?_⟩
      · intro k
        have := l.locks k
        rw [List.countP_cons, if_neg (by simp [Act.holds])] at this
        exact this
      · simpa using hd.2
      · exact fun _ a ha => l.api hd.1 a (List.mem_cons_of_mem _ ha)
      · exact fun k xs ha => l.after k xs (List.mem_cons_of_mem _ ha)
      · exact fun n ha => l.phase n (List.mem_cons_of_mem _ ha)
      · intro _
        refine ⟨hd.1, fun k => ?_⟩
        cases k
        · exact hp.1 (by omega)
        · exact hp.2.1 (by omega)
        · exact hp.2.2 (by omega)
      · intro hb; rw [show s.dying = false from hb] at hd; cases hd.1
    · exact i.frames.bland rfl rfl rfl rfl rfl ⟨[.destroyed], rfl, by simp [Ev.doneNo]⟩ (fun _ => rfl) rfl (by simp)

end
end Verif.Threads
