import Verif.Lemmas.ThreadShut
import Verif.Spec.Threads
import Mathlib.Logic.Hydra
/-
How the pieces of code of a thread lie upon each other while transports called by flush callbacks are calm; and why
threads left alone come to an end.
-/
set_option linter.unusedSectionVars false
namespace Verif.Threads
open Client
variable {D : Type}

/-! ### Stacks -/

/-- It runs, or waits, outside of the client. -/
def Act.low : Act D → Bool
  | .user | .count _ _ _ | .wait _ => true
  | _ => false

def Act.isFinish : Act D → Bool
  | .finish _ _ _ _ _ => true
  | _ => false

/-- What may lie directly below. -/
def Act.over : Act D → Act D → Bool
  | .calling _, y | .after _ _, y | .flush _, y => !y.locked
  | .free _ _, y => y.low || y.isFinish
  | _, y => y.low

def Desc : List (Act D) → Prop
  | [] => True
  | [_] => True
  | x :: y :: v => x.over y = true ∧ Desc (y :: v)

theorem Desc.tail {x : Act D} {v : List (Act D)} (h : Desc (x :: v)) : Desc v := by
  cases v with
  | nil => trivial
  | cons y v => exact h.2

theorem Act.over_low {x y : Act D} (h : x.low = true) (ho : x.over y = true) : y.low = true := by
  cases x <;> first | exact ho | cases h

theorem Act.low_unlocked {x : Act D} (h : x.low = true) : x.locked = false := by
  cases x <;> first | rfl | cases h

theorem Act.over_unlocked {x y : Act D} (ho : x.over y = true) : y.locked = false := by
  cases x <;> first
    | exact Act.low_unlocked ho
    | (simp only [Act.over, Bool.not_eq_true'] at ho; exact ho)
    | (cases y <;> first | rfl | cases ho)

theorem Desc.low {x : Act D} {v : List (Act D)} (h : Desc (x :: v)) (hx : ∀ y, x.over y = true → y.low = true) :
    ∀ a ∈ v, a.low = true := by
  induction v generalizing x with
  | nil => intro a ha; cases ha
  | cons y v ih =>
    have hy := hx y h.1
    intro a ha
    rcases List.mem_cons.mp ha with rfl | ha
    · exact hy
    · exact ih h.2 (fun z hz => Act.over_low hy hz) a ha

theorem Desc.of_low {x : Act D} {v : List (Act D)} (h : ∀ a ∈ v, a.low = true) (hx : ∀ y : Act D, y.low = true → x.over y = true) :
    Desc (x :: v) := by
  induction v generalizing x with
  | nil => trivial
  | cons y v ih =>
    have hy := h y List.mem_cons_self
    refine ⟨hx y hy, ih (fun a ha => h a (List.mem_cons_of_mem _ ha)) (fun z hz => ?_)⟩
    cases y <;> first | exact hz | cases hy

/-- A lock is held only by the first piece. -/
theorem Desc.locked {x : Act D} {v : List (Act D)} (h : Desc (x :: v)) : ∀ a ∈ v, a.locked = false := by
  induction v generalizing x with
  | nil => intro a ha; cases ha
  | cons y v ih =>
    intro a ha
    rcases List.mem_cons.mp ha with rfl | ha
    · exact Act.over_unlocked h.1
    · exact ih h.2 a ha

theorem Desc.flushes {fl : List (Act D)} {v : List (Act D)} (hf : Flushes fl) (h : Desc v) (hl : ∀ a ∈ v, a.locked = false) :
    Desc (fl ++ v) ∧ ∀ a ∈ fl ++ v, a.locked = false := by
  induction fl with
  | nil => exact ⟨h, hl⟩
  | cons x fl ih =>
    obtain ⟨c, rfl⟩ := hf x List.mem_cons_self
    obtain ⟨h1, h2⟩ := ih (fun b hb => hf b (List.mem_cons_of_mem _ hb))
    refine ⟨?_, ?_⟩
    · cases hv : fl ++ v with
      | nil => simp [hv, Desc]
      | cons y w =>
        rw [List.cons_append, hv]
        refine ⟨?_, hv ▸ h1⟩
        have := h2 y (by rw [hv]; exact List.mem_cons_self)
        simp [Act.over, this]
    · intro a ha
      rcases List.mem_cons.mp ha with rfl | ha
      · rfl
      · exact h2 a ha

/-- The code of a thread. -/
def Shape (t : List (Act D)) : Prop :=
  Desc t ∨ ∃ x v, x.locked = true ∧ Desc (x :: v) ∧
    (t = .user :: x :: v ∨ (∃ p a, (Act.fin p a).harmless = true ∧ t = .fin p a :: .user :: x :: v) ∨
      ∃ own, t = .free own false :: .user :: x :: v)

theorem Shape.calm {t : List (Act D)} (h : Shape t) : ∀ u x v, t = u ++ x :: v → x.locked = true → ∀ a ∈ u, a.harmless = true := by
  intro u x v he hx
  rcases h with h | ⟨y, w, hy, hd, ho⟩
  · cases u with
    | nil => intro a ha; cases ha
    | cons b u =>
      rw [he] at h
      have := Desc.locked h x (by simp)
      rw [hx] at this; cases this
  · have hw := hd.locked
    have key : ∀ (pre : List (Act D)) (u : List (Act D)), (∀ a ∈ pre, a.harmless = true) → pre ++ y :: w = u ++ x :: v → ∀ a ∈ u, a.harmless = true := by
      intro pre
      induction pre with
      | nil =>
        intro u _ he
        cases u with
        | nil => intro a ha; cases ha
        | cons b u =>
          injection he with _ he
          have := hw x (by rw [he]; simp)
          rw [hx] at this; cases this
      | cons p pre ih =>
        intro u hp he
        cases u with
        | nil => intro a ha; cases ha
        | cons b u =>
          injection he with h1 he
          subst h1
          intro a ha
          rcases List.mem_cons.mp ha with rfl | ha
          · exact hp _ List.mem_cons_self
          · exact ih u (fun c hc => hp c (List.mem_cons_of_mem _ hc)) he a ha
    rcases ho with ho | ⟨p, a, hp, ho⟩ | ⟨own, ho⟩
    · exact key [.user] u (by simp [Act.harmless]) (by rw [← he, ho]; rfl)
    · exact key [.fin p a, .user] u (by simp [Act.harmless] at hp ⊢; exact hp) (by rw [← he, ho]; rfl)
    · exact key [.free own false, .user] u (by simp [Act.harmless]) (by rw [← he, ho]; rfl)

section
variable [DoubleOps D] {K : Setup} {stops : Bool}

/-- Pieces below which there are only low ones. -/
def Act.plain : Act D → Bool
  | .calling _ | .after _ _ | .flush _ | .free _ _ => false
  | _ => true

theorem Act.plain_over {x : Act D} (h : x.plain = true) (y : Act D) : x.over y = y.low := by
  cases x <;> first | rfl | cases h

theorem Desc.swap {x : Act D} {new v : List (Act D)} (h : Desc (x :: v)) (hx : x.plain = true) (hn : Desc new)
    (hl : ∀ a ∈ new.getLast?, ∀ y : Act D, y.low = true → a.over y = true) : Desc (new ++ v) := by
  have hv := h.low (fun y hy => by rw [Act.plain_over hx] at hy; exact hy)
  induction new with
  | nil => exact h.tail
  | cons a new ih =>
    cases new with
    | nil => exact Desc.of_low hv (hl a (by simp))
    | cons b new => exact ⟨hn.1, ih hn.2 (fun c hc => hl c (by simpa using hc))⟩

theorem exec_shape {a : Act D} {s s' : Sys D} {new v : List (Act D)} (h : exec K stops a s = some (.ok (s', new)))
    (hd : Desc (a :: v)) : Shape (new ++ v) := by
  have fl1 : ∀ {fl : List (Act D)} {b : Act D}, Flushes fl → a.plain = true → b.plain = true → Shape ((fl ++ [b]) ++ v) := by
    intro fl b hf ha hb
    left
    rw [List.append_assoc]
    have h1 : Desc ([b] ++ v) := hd.swap ha trivial (fun c hc y hy => by simp at hc; subst hc; rw [Act.plain_over hb]; exact hy)
    refine (Desc.flushes hf h1 ?_).1
    intro c hc
    rcases List.mem_cons.mp hc with rfl | hc
    · cases c <;> first | rfl | cases hb
    · exact hd.locked c hc
  have one : ∀ {b : Act D}, a.plain = true → b.plain = true → Shape ([b] ++ v) := fun ha hb => fl1 (fl := []) (fun _ h => by cases h) ha hb
  have fC : ∀ {x : Check.Call D} {s s' : Sys D} {o fl}, aggC K x s = .ok (s', o, fl) → Flushes fl := by
    intro x s s' o fl h
    obtain ⟨_, rs, _, rfl, _⟩ := aggC_ok h
    intro b hb; obtain ⟨r, _, rfl⟩ := List.mem_map.mp hb; exact ⟨_, rfl⟩
  have fQ : ∀ {x : Quota.Call D} {s s' : Sys D} {o fl}, aggQ K x s = .ok (s', o, fl) → Flushes fl := by
    intro x s s' o fl h
    obtain ⟨_, rs, _, rfl, _⟩ := aggQ_ok h
    intro b hb; obtain ⟨r, _, rfl⟩ := List.mem_map.mp hb; exact ⟨_, rfl⟩
  have fR : ∀ {x : Report.Call D} {s s' : Sys D} {o fl}, aggR K x s = .ok (s', o, fl) → Flushes fl := by
    intro x s s' o fl h
    obtain ⟨_, rs, _, rfl, _⟩ := aggR_ok h
    intro b hb; obtain ⟨r, _, rfl⟩ := List.mem_map.mp hb; exact ⟨_, rfl⟩
  have none' : Shape ([] ++ v) := .inl hd.tail
  have two : ∀ {b c : Act D} {fl : List (Act D)}, Flushes fl → a.plain = true → (b.over c = true) → b.locked = false → c.plain = true → Shape ((fl ++ [b, c]) ++ v) := by
    intro b c fl hf ha hb hbl hc
    left
    rw [List.append_assoc]
    have h1 : Desc ([b, c] ++ v) := hd.swap ha ⟨hb, trivial⟩ (fun e he y hy => by simp at he; subst he; rw [Act.plain_over hc]; exact hy)
    refine (Desc.flushes hf h1 ?_).1
    intro e he
    rcases List.mem_cons.mp he with rfl | he
    · exact hbl
    rcases List.mem_cons.mp he with rfl | he
    · cases e <;> first | rfl | cases hc
    · exact hd.locked e he
  have lone : ∀ {own th} {fl : List (Act D)}, Flushes fl → a.plain = true → Shape ((fl ++ [.free own th]) ++ v) := by
    intro own th fl hf ha
    left
    rw [List.append_assoc]
    have h1 : Desc ([.free own th] ++ v) := hd.swap ha trivial (fun e he y hy => by simp at he; subst he; simp [Act.over, hy])
    refine (Desc.flushes hf h1 ?_).1
    intro e he
    rcases List.mem_cons.mp he with rfl | he
    · rfl
    · exact hd.locked e he
  have nil : Flushes ([] : List (Act D)) := fun _ h => by cases h
  have hthis : ∀ {r : Res (Sys D × List (Act D))} {x}, this s r = some (.ok x) → r = .ok x := by
    intro r x hh
    unfold this at hh
    split at hh
    · cases hh
    · cases hh; rfl
  cases a with
  | user => cases h; exact none'
  | start i c t =>
    have h := hthis h
    cases h
    cases t
    · exact one rfl rfl
    · exact one rfl rfl
  | agg i c =>
    have h := hthis h
    cases c with
    | check r =>
      simp only [runCall, bind, Except.bind] at h
      split at h
      · cases h
      · rename_i e; cases h; exact fl1 (fC e) rfl rfl
    | quota r =>
      simp only [runCall, bind, Except.bind] at h
      split at h
      · cases h
      · rename_i e; cases h; exact fl1 (fQ e) rfl rfl
    | report r =>
      simp only [runCall, bind, Except.bind] at h
      split at h
      · cases h
      · rename_i e; cases h; exact fl1 (fR e) rfl rfl
  | result i c st reply =>
    have h := hthis h
    split at h
    · cases h; exact two (fl := []) nil rfl rfl rfl rfl
    · cases h; exact one rfl rfl
  | count i' c' xs =>
    cases xs with
    | nil => cases h; exact none'
    | cons x xs => have h := hthis h; cases h; exact one rfl rfl
  | finish i c st reply via =>
    simp only [exec] at h
    split at h
    · split at h
      · cases h
      · cases h
      · cases h; exact one rfl rfl
    · cases h; exact one rfl rfl
  | setValue i st => cases h; exact none'
  | wait i =>
    simp only [exec] at h
    split at h
    · cases h
    · cases h; exact none'
  | fin p ans =>
    have h : runFin K p ans s = .ok (s', new) := by simpa only [exec, Option.some.injEq] using h
    unfold runFin at h
    split at h
    · split at h
      · simp only [bind, Except.bind] at h
        split at h
        · cases h
        · split at h
          · cases h
          · rename_i e; cases h; exact two (fC e) rfl rfl rfl rfl
      · cases h; exact two (fl := []) nil rfl rfl rfl rfl
    · simp only [bind, Except.bind] at h
      split at h
      · cases h
      · split at h
        · cases h
        · rename_i e; cases h; exact two (fQ e) rfl rfl rfl rfl
    · cases h; exact two (fl := []) nil rfl rfl rfl rfl
    · split at h
      · cases h
      · simp only [bind, Except.bind] at h
        split at h
        · cases h
        · split at h
          · cases h
          · rename_i e; cases h; exact lone (fQ e) rfl
    · cases h; exact lone (fl := []) nil rfl
  | free own th =>
    have h : (if th && !s.c.alive then Except.error Fault.useAfterFree
      else do
        let c ← s.c.freeAll own
        Except.ok ({ s with c := c }, ([] : List (Act D)))) = .ok (s', new) := by simpa only [exec, Option.some.injEq] using h
    split at h
    · cases h
    · simp only [bind, Except.bind] at h
      split at h
      · cases h
      · cases h; exact none'
  | timer n =>
    have h : runTimer K n s = .ok (s', new) := by simpa only [exec, Option.some.injEq] using h
    unfold runTimer at h
    split at h
    · simp only [bind, Except.bind] at h
      split at h
      · cases h
      · rename_i e; cases h; exact fl1 (fC e) rfl rfl
    · simp only [bind, Except.bind] at h
      split at h
      · cases h
      · rename_i e; cases h; exact fl1 (fQ e) rfl rfl
    · simp only [bind, Except.bind] at h
      split at h
      · cases h
      · rename_i e; cases h; exact fl1 (fR e) rfl rfl
    · cases h; exact none'
  | destroy n =>
    simp only [exec] at h
    unfold runDestroy at h
    split at h
    · simp only [bind, Except.bind] at h
      split at h
      · cases h
      · rename_i e; cases h; exact fl1 (fC e) rfl rfl
    · simp only [bind, Except.bind] at h
      split at h
      · cases h
      · rename_i e; cases h; exact fl1 (fQ e) rfl rfl
    · simp only [bind, Except.bind] at h
      split at h
      · cases h
      · rename_i e; cases h; exact fl1 (fR e) rfl rfl
    · split at h
      · cases h; exact one rfl rfl
      · cases h; exact one rfl rfl
    · split at h
      · cases h
      · cases h; exact one rfl rfl
    · unfold unset at h
      split at h
      · cases h
      · cases h; exact one rfl rfl
    · unfold unset at h
      split at h
      · cases h
      · cases h; exact one rfl rfl
    · unfold unset at h
      split at h
      · cases h
      · cases h; exact one rfl rfl
    · cases h; exact none'
  | flush c =>
    simp only [exec] at h
    split at h
    · cases h
    · cases h
      left
      cases v with
      | nil => trivial
      | cons y v => exact ⟨hd.1, hd.2⟩
  | calling c =>
    have sw : ∀ {k xs}, Desc (.after k xs :: v) := by
      intro k xs
      cases v with
      | nil => trivial
      | cons y v => exact ⟨hd.1, hd.2⟩
    simp only [exec] at h
    split at h
    · cases h; exact .inl sw
    · have h := hthis h
      split at h
      · cases h
      · cases h; exact .inr ⟨_, _, rfl, sw, .inl rfl⟩
  | after k xs =>
    cases xs with
    | nil => cases h; exact none'
    | cons x xs =>
      have h := hthis h
      cases h
      left
      cases v with
      | nil => trivial
      | cons y v => exact ⟨hd.1, hd.2⟩

/-- In a calm transport too. -/
theorem exec_shape_any {a : Act D} {s s' : Sys D} {new v : List (Act D)} (h : exec K stops a s = some (.ok (s', new)))
    (hd : Shape (a :: v)) : Shape (new ++ v) := by
  rcases hd with hd | ⟨x, w, hx, hd, ho⟩
  · exact exec_shape h hd
  rcases ho with ho | ⟨p, b, hp, ho⟩ | ⟨own, ho⟩
  · injection ho with h1 h2
    subst h1; subst h2
    cases h
    exact .inl hd
  · injection ho with h1 h2
    subst h1; subst h2
    have h : runFin K p b s = .ok (s', new) := by simpa only [exec, Option.some.injEq] using h
    have e : new = [.free p.own false] := by
      unfold runFin at h
      simp only [Act.harmless] at hp
      split at hp
      · cases hp
      · cases hp
      · rename_i hby hq
        split at h
        · rename_i h1; rw [hby] at h1; cases h1
        · rename_i h1; rw [hby] at h1; cases h1
        · rename_i h1; rw [hby] at h1; cases h1
        · rename_i r h1 _; exact absurd h1 (hq r)
        · cases h; rfl
    rw [e]
    exact .inr ⟨x, w, hx, hd, .inr (.inr ⟨_, rfl⟩)⟩
  · injection ho with h1 h2
    subst h1; subst h2
    have h : (if false && !s.c.alive then Except.error Fault.useAfterFree
      else do
        let c ← s.c.freeAll own
        Except.ok ({ s with c := c }, ([] : List (Act D)))) = .ok (s', new) := by simpa only [exec, Option.some.injEq] using h
    simp only [bind, Except.bind, Bool.false_and] at h
    split at h
    · cases h
    · split at h
      · cases h
      · cases h; exact .inr ⟨x, w, hx, hd, .inl rfl⟩

theorem shape_push {t new : List (Act D)} (hf : Free t) (hs : Shape t) {x : Act D} (hx : x.plain = true) (hd : Desc (new ++ [x]))
    (hc : ∀ u y v, new ++ x :: t = u ++ y :: v → y.locked = true → ∀ a ∈ u, a.harmless = true)
    (ho : x.harmless = false ∨ (new = [] ∧ ∃ p a, x = .fin p a)) : Shape (new ++ x :: t) := by
  have low : (∀ a ∈ t, a.low = true) → Shape (new ++ x :: t) := by
    intro hl
    left
    have h1 : Desc (x :: t) := Desc.of_low hl (fun y hy => by rw [Act.plain_over hx]; exact hy)
    clear hc ho
    induction new with
    | nil => exact h1
    | cons b new ih =>
      cases new with
      | nil => exact ⟨hd.1, h1⟩
      | cons b2 new => exact ⟨hd.1, ih hd.2⟩
  rcases hf with rfl | ⟨t', rfl⟩
  · exact low (by simp)
  rcases hs with hs | ⟨y, w, hy, hd2, h⟩
  · refine low ?_
    intro a ha
    rcases List.mem_cons.mp ha with rfl | ha
    · rfl
    · exact hs.low (fun y hy => hy) a ha
  · have e : t' = y :: w := by
      rcases h with h | ⟨_, _, _, h⟩ | ⟨_, h⟩
      · injection h
      · cases h
      · cases h
    subst e
    have hh := hc (new ++ [x, .user]) y w (by simp) hy x (by simp)
    rcases ho with ho | ⟨rfl, p, a, rfl⟩
    · rw [hh] at ho; cases ho
    · exact .inr ⟨y, w, hy, hd2, .inr (.inl ⟨p, a, hh, rfl⟩)⟩

theorem step_shape {s s' : Sys D} (h : Step K stops s s') (hc : Calm s') (hs : ∀ t ∈ s.threads, Shape t) : ∀ t ∈ s'.threads, Shape t := by
  have place : ∀ {l1 l2 : List (List (Act D))} {t t' : List (Act D)}, s.threads = l1 ++ t :: l2 → Shape t' → ∀ x ∈ l1 ++ t' :: l2, Shape x := by
    intro l1 l2 t t' he ht x hx
    rcases List.mem_append.mp hx with hx | hx
    · exact hs x (by rw [he]; exact List.mem_append_left _ hx)
    · rcases List.mem_cons.mp hx with rfl | hx
      · exact ht
      · exact hs x (by rw [he]; exact List.mem_append_right _ (List.mem_cons_of_mem _ hx))
  cases h with
  | work hth hex => exact place hth (exec_shape_any hex (hs _ (by rw [hth]; simp)))
  | @call l1 t l2 c tr hth hf _ =>
    exact place hth (shape_push (new := []) hf (hs _ (by rw [hth]; simp)) rfl trivial (hc _ (by simp)) (.inl rfl))
  | @sync l1 t l2 c hth hf _ =>
    exact place hth (shape_push (new := [.start _ _ _]) hf (hs _ (by rw [hth]; simp)) rfl ⟨rfl, trivial⟩ (hc _ (by simp)) (.inl rfl))
  | @complete l1 t l2 id a p c' hth hf _ =>
    exact place hth (shape_push (new := []) hf (hs _ (by rw [hth]; simp)) rfl trivial (hc _ (by simp)) (.inr ⟨rfl, _, _, rfl⟩))
  | @fire l1 t l2 hth hf _ =>
    exact place hth (shape_push (new := []) hf (hs _ (by rw [hth]; simp)) rfl trivial (hc _ (by simp)) (.inl rfl))
  | @destroy l1 t l2 hth hf _ _ =>
    exact place hth (shape_push (new := []) hf (hs _ (by rw [hth]; simp)) rfl trivial (hc _ (by simp)) (.inl rfl))
  | spawn =>
    intro t ht
    rcases List.mem_append.mp ht with ht | ht
    · exact hs t ht
    · simp at ht; subst ht; exact .inl trivial

theorem CalmReach.reach {s : Sys D} (r : CalmReach K stops s) : Reach K stops s := by
  induction r with
  | new h => exact .new h
  | step _ h _ ih => exact .step ih h

theorem CalmReach.shape {s : Sys D} (r : CalmReach K stops s) : ∀ t ∈ s.threads, Shape t := by
  induction r with
  | new h => intro t ht; cases ht
  | step _ h hc ih => exact step_shape h hc ih

/-- A thread that goes on stays calm. -/
theorem CalmReach.work {s s' : Sys D} (r : CalmReach K stops s) (w : Work K stops s s') : CalmReach K stops s' := by
  obtain ⟨l1, a, t, l2, s1, new, hth, hex, rfl⟩ := w
  refine .step r (.work hth hex) ?_
  intro x hx
  refine Shape.calm ?_
  rcases List.mem_append.mp hx with hx | hx
  · exact r.shape x (by rw [hth]; exact List.mem_append_left _ hx)
  · rcases List.mem_cons.mp hx with rfl | hx
    · exact exec_shape_any hex (r.shape _ (by rw [hth]; simp))
    · exact r.shape x (by rw [hth]; exact List.mem_append_right _ (List.mem_cons_of_mem _ hx))

/-! ### Threads left alone come to an end -/

/-- What a piece of code leads to is less. -/
def Act.rank : Act D → Nat
  | .user => 0
  | .setValue _ _ => 1
  | .wait _ => 1
  | .free _ _ => 1
  | .count _ _ xs => 1 + xs.length
  | .after _ xs => 1 + xs.length
  | .calling _ => 10
  | .flush _ => 11
  | .finish _ _ _ _ _ => 12
  | .result _ _ _ _ => 20
  | .agg _ _ => 21
  | .start _ _ _ => 22
  | .fin _ _ => 30
  | .timer n => 20 + (4 - n)
  | .destroy n => 20 + (9 - n)

theorem exec_rank {a : Act D} {s s' : Sys D} {new : List (Act D)} (h : exec K stops a s = some (.ok (s', new))) :
    ∀ b ∈ new, b.rank < a.rank := by
  have fC : ∀ {x : Check.Call D} {s s' : Sys D} {o fl}, aggC K x s = .ok (s', o, fl) → ∀ b ∈ fl, b.rank = 11 := by
    intro x s s' o fl h
    obtain ⟨_, rs, _, rfl, _⟩ := aggC_ok h
    intro b hb; obtain ⟨r, _, rfl⟩ := List.mem_map.mp hb; rfl
  have fQ : ∀ {x : Quota.Call D} {s s' : Sys D} {o fl}, aggQ K x s = .ok (s', o, fl) → ∀ b ∈ fl, b.rank = 11 := by
    intro x s s' o fl h
    obtain ⟨_, rs, _, rfl, _⟩ := aggQ_ok h
    intro b hb; obtain ⟨r, _, rfl⟩ := List.mem_map.mp hb; rfl
  have fR : ∀ {x : Report.Call D} {s s' : Sys D} {o fl}, aggR K x s = .ok (s', o, fl) → ∀ b ∈ fl, b.rank = 11 := by
    intro x s s' o fl h
    obtain ⟨_, rs, _, rfl, _⟩ := aggR_ok h
    intro b hb; obtain ⟨r, _, rfl⟩ := List.mem_map.mp hb; rfl
  have app : ∀ {fl tl : List (Act D)} {n : Nat}, (∀ b ∈ fl, b.rank = 11) → 11 < n → (∀ b ∈ tl, b.rank < n) → ∀ b ∈ fl ++ tl, b.rank < n := by
    intro fl tl n h1 h2 h3 b hb
    rcases List.mem_append.mp hb with hb | hb
    · rw [h1 b hb]; exact h2
    · exact h3 b hb
  have hthis : ∀ {r : Res (Sys D × List (Act D))} {x}, this s r = some (.ok x) → r = .ok x := by
    intro r x hh
    unfold this at hh
    split at hh
    · cases hh
    · cases hh; rfl
  cases a with
  | user => cases h; simp
  | start i c t =>
    have h := hthis h
    cases h
    cases t <;> simp [Act.rank]
  | agg i c =>
    have h := hthis h
    cases c with
    | check r =>
      simp only [runCall, bind, Except.bind] at h
      split at h
      · cases h
      · rename_i e; cases h; exact app (fC e) (by simp [Act.rank]) (by simp [Act.rank])
    | quota r =>
      simp only [runCall, bind, Except.bind] at h
      split at h
      · cases h
      · rename_i e; cases h; exact app (fQ e) (by simp [Act.rank]) (by simp [Act.rank])
    | report r =>
      simp only [runCall, bind, Except.bind] at h
      split at h
      · cases h
      · rename_i e; cases h; exact app (fR e) (by simp [Act.rank]) (by simp [Act.rank])
  | result i c st reply =>
    have h := hthis h
    split at h
    · cases h; cases c <;> simp [Act.rank, inFlight]
    · cases h; simp [Act.rank]
  | count i' c' xs =>
    cases xs with
    | nil => cases h; simp
    | cons x xs => have h := hthis h; cases h; simp [Act.rank]
  | finish i c st reply via =>
    simp only [exec] at h
    split at h
    · split at h
      · cases h
      · cases h
      · cases h; simp [Act.rank]
    · cases h; simp [Act.rank]
  | setValue i st => cases h; simp
  | wait i =>
    simp only [exec] at h
    split at h
    · cases h
    · cases h; simp
  | fin p ans =>
    have h : runFin K p ans s = .ok (s', new) := by simpa only [exec, Option.some.injEq] using h
    unfold runFin at h
    split at h
    · split at h
      · simp only [bind, Except.bind] at h
        split at h
        · cases h
        · split at h
          · cases h
          · rename_i e; cases h; exact app (fC e) (by simp [Act.rank]) (by simp [Act.rank])
      · cases h; simp [Act.rank]
    · simp only [bind, Except.bind] at h
      split at h
      · cases h
      · split at h
        · cases h
        · rename_i e; cases h; exact app (fQ e) (by simp [Act.rank]) (by simp [Act.rank])
    · cases h; simp [Act.rank]
    · split at h
      · cases h
      · simp only [bind, Except.bind] at h
        split at h
        · cases h
        · split at h
          · cases h
          · rename_i e; cases h; exact app (fQ e) (by simp [Act.rank]) (by simp [Act.rank])
    · cases h; simp [Act.rank]
  | free own th =>
    have h : (if th && !s.c.alive then Except.error Fault.useAfterFree
      else do
        let c ← s.c.freeAll own
        Except.ok ({ s with c := c }, ([] : List (Act D)))) = .ok (s', new) := by simpa only [exec, Option.some.injEq] using h
    split at h
    · cases h
    · simp only [bind, Except.bind] at h
      split at h
      · cases h
      · cases h; simp
  | timer n =>
    have h : runTimer K n s = .ok (s', new) := by simpa only [exec, Option.some.injEq] using h
    unfold runTimer at h
    split at h
    · simp only [bind, Except.bind] at h
      split at h
      · cases h
      · rename_i e; cases h; exact app (fC e) (by simp [Act.rank]) (by simp [Act.rank])
    · simp only [bind, Except.bind] at h
      split at h
      · cases h
      · rename_i e; cases h; exact app (fQ e) (by simp [Act.rank]) (by simp [Act.rank])
    · simp only [bind, Except.bind] at h
      split at h
      · cases h
      · rename_i e; cases h; exact app (fR e) (by simp [Act.rank]) (by simp [Act.rank])
    · cases h; simp
  | destroy n =>
    simp only [exec] at h
    unfold runDestroy at h
    split at h
    · simp only [bind, Except.bind] at h
      split at h
      · cases h
      · rename_i e; cases h; exact app (fC e) (by simp [Act.rank]) (by simp [Act.rank])
    · simp only [bind, Except.bind] at h
      split at h
      · cases h
      · rename_i e; cases h; exact app (fQ e) (by simp [Act.rank]) (by simp [Act.rank])
    · simp only [bind, Except.bind] at h
      split at h
      · cases h
      · rename_i e; cases h; exact app (fR e) (by simp [Act.rank]) (by simp [Act.rank])
    · split at h
      · cases h; simp [Act.rank]
      · cases h; simp [Act.rank]
    · split at h
      · cases h
      · cases h; simp [Act.rank]
    · unfold unset at h
      split at h
      · cases h
      · cases h; simp [Act.rank]
    · unfold unset at h
      split at h
      · cases h
      · cases h; simp [Act.rank]
    · unfold unset at h
      split at h
      · cases h
      · cases h; simp [Act.rank]
    · cases h; simp
  | flush c =>
    simp only [exec] at h
    split at h
    · cases h
    · cases h; simp [Act.rank]
  | calling c =>
    simp only [exec] at h
    split at h
    · cases h; simp [Act.rank]
    · have h := hthis h
      split at h
      · cases h
      · cases h; cases c <;> simp [Act.rank, byFlush]
  | after k xs =>
    cases xs with
    | nil => cases h; simp
    | cons x xs => have h := hthis h; cases h; simp [Act.rank]

theorem work_ends : WellFounded (fun s' s : Sys D => Work K stops s s') := by
  refine Subrelation.wf (r := InvImage (Relation.CutExpand (· < · : Nat → Nat → Prop)) (fun s : Sys D => ((s.acts.map Act.rank : List Nat) : Multiset Nat)))
    ?_ (InvImage.wf _ Nat.lt_wfRel.wf.cutExpand)
  rintro s' s ⟨l1, a, t, l2, s1, new, hth, hex, rfl⟩
  refine ⟨(new.map Act.rank : List Nat), a.rank, ?_, ?_⟩
  · intro n hn
    obtain ⟨b, hb, rfl⟩ := List.mem_map.mp (Multiset.mem_coe.mp hn)
    exact exec_rank hex b hb
  · have h1 : s.acts.Perm (a :: (t ++ (l1 ++ l2).flatten)) := by
      unfold Sys.acts; rw [hth]
      exact acts_at (t := a :: t)
    have h2 : (Sys.acts { s1 with threads := l1 ++ (new ++ t) :: l2 }).Perm (new ++ (t ++ (l1 ++ l2).flatten)) := by
      rw [← List.append_assoc]
      exact acts_at (t := new ++ t)
    have e1 := Multiset.coe_eq_coe.mpr (h1.map Act.rank)
    have e2 := Multiset.coe_eq_coe.mpr (h2.map Act.rank)
    show ((List.map Act.rank (Sys.acts _) : List Nat) : Multiset Nat) + {a.rank} = ((s.acts.map Act.rank : List Nat) : Multiset Nat) + _
    rw [e1, e2, List.map_append, List.map_cons, ← Multiset.coe_add, ← Multiset.cons_coe, ← Multiset.singleton_add]
    ac_rfl

end
end Verif.Threads
