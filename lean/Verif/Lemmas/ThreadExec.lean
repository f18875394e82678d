import Verif.Lemmas.ThreadInv
/-
Every piece of code keeps the invariant, and so does every step of the system.
-/
set_option linter.unusedSectionVars false
namespace Verif.Threads
open Client
variable {D : Type} [DoubleOps D] {K : Setup} {stops : Bool}

omit [DoubleOps D] in
theorem total_eq (i : Nat) (c : Call D) (t : Bool) : total c = Stats.ofTrace [Ev.called i c t] := by cases c <;> rfl

omit [DoubleOps D] in
theorem inFlight_eq (id i : Nat) (c : Call D) : sumStats (inFlight c) = Stats.ofTrace [Ev.sent id (some i) c] := by
  cases c <;> simp [sumStats, inFlight, Stats.ofTrace, Stats.add, Stats.zero]

omit [DoubleOps D] in
theorem byFlush_eq (id : Nat) (c : Call D) : sumStats (byFlush c) = Stats.ofTrace [Ev.sent id none c] := by
  cases c <;> simp [sumStats, byFlush, Stats.ofTrace, Stats.add, Stats.zero]

/-- Only the heap grew. -/
structure Allocated (s x : Client D) (ps : List Nat) : Prop where
  eq : x = { s with heap := x.heap, nextAddr := x.nextAddr }
  books : ∀ {os : Opens D} {own : List Nat} {owed : Stats}, Books os own owed s → Books os (ps ++ own) owed x

omit [DoubleOps D] in
theorem allocated_one (s : Client D) : Allocated s s.alloc.2 [s.alloc.1] := ⟨rfl, fun b => b.alloc⟩

omit [DoubleOps D] in
theorem allocCall_ok (c : Call D) (s : Client D) : Allocated s (allocCall c s).2 (allocCall c s).1 := by
  cases c with
  | check r => exact allocated_one s
  | quota r => exact allocated_one s
  | report r => exact ⟨rfl, fun b => b⟩

omit [DoubleOps D] in
theorem allocFlush_ok (c : Call D) (s : Client D) : Allocated s (allocFlush c s).2 (allocFlush c s).1 := by
  cases c with
  | check r => exact allocated_one s
  | report r => exact allocated_one s
  | quota r => exact ⟨rfl, fun b => (b.alloc.alloc).perm (.refl _) (List.Perm.swap _ _ _)⟩

omit [DoubleOps D] in
theorem Inv.dones_zero {A : List (Act D)} {s : Sys D} (i : Inv A s) {j : Nat} {c : Call D} {u : Bool} (h : (j, c, u) ∈ opensOf A) :
    dones j s.c.trace = 0 ∧ outstandingFor j s.c.trace = 0 ∧ openN j (opensOf A) = 1 ∧ j < s.c.calls := by
  have h0 := i.books.account j
  have h1 : 0 < openN j (opensOf A) := List.countP_pos_iff.mpr ⟨_, h, by simp⟩
  unfold issued at h0
  split at h0 <;> omega

/-- The frame of a call that is not answered. -/
theorem Frames.find {A : List (Act D)} {s : Sys D} (f : Frames A s) {j : Nat} {b : Bool} (h : (j, b) ∈ s.frames) :
    s.frames.find? (·.1 == j) = some (j, b) := by
  have hn := f.nodup
  revert hn h
  generalize s.frames = l
  induction l with
  | nil => intro h; cases h
  | cons x l ih =>
    intro h hn
    rw [List.map_cons, List.nodup_cons] at hn
    rw [List.find?_cons]
    by_cases hx : x.1 = j
    · rcases List.mem_cons.mp h with h | h
      · subst h; simp
      · exact absurd (by rw [hx]; exact List.mem_map_of_mem (f := (·.1)) h) hn.1
    · rw [show (x.1 == j) = false by simpa using hx]
      rcases List.mem_cons.mp h with h | h
      · subst h; exact absurd rfl hx
      · exact ih h hn.2

omit [DoubleOps D] in
theorem dones_done (i j : Nat) (c : Call D) (st : Status) (r : Reply) (via : Option Nat) (tr : List (Ev D)) :
    dones j (tr ++ [Ev.done i c st r via]) = dones j tr + if i = j then 1 else 0 := by
  simp [dones, List.countP_append, Ev.doneNo, List.countP_cons]

theorem finish_inv {j : Nat} {c : Call D} {st : Status} {reply : Reply} {via : Option Nat} {s s' : Sys D} {new R : List (Act D)}
    (i : Inv (.finish j c st reply via :: R) s) (h : exec K stops (.finish j c st reply via) s = some (.ok (s', new))) :
    Inv (new ++ R) s' := by
  have hz := i.dones_zero (j := j) (c := c) (u := via.isNone) (by simp [opensOf_cons, Act.opens])
  have hb : Books (opensOf R) (ownOf R) (owedOf R) (s.c.done j c st reply via) := by
    have b := i.books
    have h0 : owedOf (.finish j c st reply via :: R) = owedOf R := Stats.zero_add _
    rw [h0] at b
    exact Books.done (os := opensOf R) b st reply (i.acts _ List.mem_cons_self)
  have ht : ∀ e ∈ s.c.trace, e ∈ (s.c.done j c st reply via).trace := fun e he => by simp [Client.done, Client.log, he]
  have hdone : Ev.done j c st reply via ∈ (s.c.done j c st reply via).trace := by simp [Client.done, Client.log]
  have hd : ∀ k, dones k (s.c.done j c st reply via).trace = dones k s.c.trace + if j = k then 1 else 0 :=
    fun k => dones_done j k c st reply via _
  simp only [exec] at h
  have f := i.frames
  by_cases hj : j ∈ s.syncs
  · rw [if_pos hj] at h
    have hfr := f.live j hj hz.1
    rw [f.find hfr] at h
    simp only [Option.some.injEq, Except.ok.injEq, Prod.mk.injEq] at h
    obtain ⟨rfl, rfl⟩ := h
    refine i.next (by simpa [opensOf_cons, ownOf_cons, owedOf_cons, Act.opens, Act.own, Act.owed, Stats.zero_add] using hb) ?_ ht ?_ ?_
    · intro b hm
      rw [List.mem_singleton] at hm; subst hm
      exact ⟨c, reply, via, hdone⟩
    · refine i.life.bland rfl rfl rfl rfl rfl (by simp [Act.bland]) (.inr (by simp [Act.api]))
    · have hkeys : (s.frames.map (fun f => if f.1 = j then (j, false) else f)).map (·.1) = s.frames.map (·.1) := by
        rw [List.map_map]
        refine List.map_congr_left (fun x _ => ?_)
        simp only [Function.comp]
        split
        · rename_i h; exact h.symm
        · rfl
      have hmem : ∀ {k b}, (k, b) ∈ s.frames.map (fun f => if f.1 = j then (j, false) else f) → (k = j ∧ b = false) ∨ (k ≠ j ∧ (k, b) ∈ s.frames) := by
        intro k b hm
        obtain ⟨x, hx, he⟩ := List.mem_map.mp hm
        split at he
        · cases he; exact .inl ⟨rfl, rfl⟩
        · subst he; exact .inr ⟨by assumption, hx⟩
      refine ⟨?_, ?_, ?_, f.lt, ?_, ?_, ?_, ?_, ?_, f.once, ?_, ?_⟩
      · rw [hkeys]; exact f.nodup
      · intro k
        have h1 := f.waits k
        rw [List.countP_cons, if_neg (by simp [Act.isWait])] at h1
        rw [List.countP_append, show [Act.setValue j st].countP (Act.isWait (D := D) k) = 0 from rfl, Nat.zero_add]
        rw [Nat.add_zero] at h1
        rw [h1]
        show _ = (s.frames.map _).countP _
        rw [List.countP_map]
        refine List.countP_congr (fun x _ => ?_)
        simp only [Function.comp]
        split
        · rename_i h; rw [h]
        · rfl
      · rintro ⟨k, b⟩ hm
        rcases hmem hm with ⟨rfl, _⟩ | ⟨_, hm⟩
        · exact hj
        · exact f.known _ hm
      · intro k hk h0
        rw [hd] at h0
        have hne : ¬ j = k := fun h => by rw [if_pos h] at h0; omega
        rw [if_neg hne, Nat.add_zero] at h0
        exact List.mem_map.mpr ⟨(k, true), f.live k hk h0, by simp [Ne.symm hne]⟩
      · intro k hk
        rcases hmem hk with ⟨_, h⟩ | ⟨hne, hm⟩
        · cases h
        · rw [hd, if_neg (Ne.symm hne), Nat.add_zero]; exact f.unset k hm
      · intro k hk
        rcases hmem hk with ⟨rfl, _⟩ | ⟨hne, hm⟩
        · exact .inl ⟨st, by simp⟩
        · rcases f.moved k hm with ⟨st', h⟩ | h
          · refine .inl ⟨st', ?_⟩
            rcases List.mem_cons.mp h with h | h
            · cases h
            · exact List.mem_append_right _ h
          · exact .inr h
      · intro k st' hk
        obtain ⟨c', r', v', h⟩ := f.vals k st' hk
        exact ⟨c', r', v', ht _ h⟩
      · intro k st' hk
        obtain ⟨h0, c', r', v', h⟩ := f.rets k st' hk
        exact ⟨h0, c', r', v', ht _ h⟩
      · rw [hkeys]; exact f.gone
      · rw [hkeys]; exact f.back
  · rw [if_neg hj] at h
    cases h
    refine i.next (by simpa [opensOf_cons, ownOf_cons, owedOf_cons, Act.opens, Act.own, Act.owed, Stats.zero_add] using hb) ?_ ht ?_ ?_
    · intro b hm; rw [List.mem_singleton] at hm; subst hm; trivial
    · exact i.life.bland rfl rfl rfl rfl rfl (by simp [Act.bland]) (.inr (by simp [Act.api]))
    · refine ⟨f.nodup, ?_, f.known, f.lt, ?_, ?_, ?_, ?_, ?_, f.once, f.gone, f.back⟩
      · intro k
        have h1 := f.waits k
        rw [List.countP_cons, if_neg (by simp [Act.isWait])] at h1
        rw [List.countP_append, show [Act.user].countP (Act.isWait (D := D) k) = 0 from rfl, Nat.zero_add]
        exact h1
      · intro k hk h0
        rw [hd] at h0
        exact f.live k hk (by omega)
      · intro k hk
        have hne : ¬ j = k := fun h => hj (h ▸ f.known _ hk)
        rw [hd, if_neg hne, Nat.add_zero]; exact f.unset k hk
      · intro k hk
        rcases f.moved k hk with ⟨st', h⟩ | h
        · refine .inl ⟨st', ?_⟩
          rcases List.mem_cons.mp h with h | h
          · cases h
          · exact List.mem_append_right _ h
        · exact .inr h
      · intro k st' hk
        obtain ⟨c', r', v', h⟩ := f.vals k st' hk
        exact ⟨c', r', v', ht _ h⟩
      · intro k st' hk
        obtain ⟨h0, c', r', v', h⟩ := f.rets k st' hk
        exact ⟨h0, c', r', v', ht _ h⟩

theorem setValue_inv {j : Nat} {st : Status} {s : Sys D} {R : List (Act D)} (i : Inv (.setValue j st :: R) s) :
    Inv R { s with values := s.values ++ [(j, st)] } := by
  have f := i.frames
  refine i.next (new := []) ?_ (by simp) (fun _ h => h) (i.life.bland rfl rfl rfl rfl rfl (by simp) (.inr (by simp))) ?_
  · have b := i.books
    have h0 : owedOf (.setValue j st :: R) = owedOf R := Stats.zero_add _
    rw [h0] at b
    exact b
  · refine ⟨f.nodup, ?_, f.known, f.lt, f.live, f.unset, ?_, ?_, f.rets, f.once, f.gone, f.back⟩
    · intro k
      have h1 := f.waits k
      rw [List.countP_cons, if_neg (by simp [Act.isWait])] at h1
      exact h1
    · intro k hk
      rcases f.moved k hk with ⟨st', h⟩ | ⟨st', h⟩
      · rcases List.mem_cons.mp h with h | h
        · cases h; exact .inr ⟨st, by simp⟩
        · exact .inl ⟨st', h⟩
      · exact .inr ⟨st', by simp [h]⟩
    · intro k st' hk
      rcases List.mem_append.mp hk with hk | hk
      · exact f.vals k st' hk
      · rw [List.mem_singleton] at hk; cases hk; exact i.acts _ List.mem_cons_self

theorem wait_inv {j : Nat} {s s' : Sys D} {new R : List (Act D)} (i : Inv (.wait j :: R) s)
    (h : exec K stops (.wait j) s = some (.ok (s', new))) : Inv (new ++ R) s' := by
  simp only [exec] at h
  cases hf : s.values.find? (·.1 == j) with
  | none => rw [hf] at h; cases h
  | some x =>
    obtain ⟨j', st⟩ := x
    rw [hf] at h
    cases h
    have hj' : j' = j := by have := List.find?_some hf; simpa using this
    subst hj'
    have hv := List.mem_of_find?_eq_some hf
    have f := i.frames
    have hw := f.waits j'
    rw [List.countP_cons, if_pos (by simp [Act.isWait])] at hw
    have hle : s.frames.countP (·.1 == j') ≤ 1 := by
      have h1 := List.nodup_iff_count_le_one.mp f.nodup j'
      rw [List.count_eq_countP, List.countP_map] at h1
      exact h1
    have hin : j' ∈ s.frames.map (·.1) := by
      obtain ⟨x, hx, hx2⟩ := List.countP_pos_iff.mp (show 0 < s.frames.countP (·.1 == j') by omega)
      exact List.mem_map.mpr ⟨x, hx, by simpa using hx2⟩
    refine i.next ?_ (by simp) (fun _ h => h) ?_ ?_
    · have b := i.books
      have h0 : owedOf (.wait j' :: R) = owedOf R := Stats.zero_add _
      rw [h0] at b
      exact b
    · refine i.life.change rfl rfl rfl rfl ?_ ?_ ?_ ?_ ?_
      · intro k; rw [List.countP_cons, if_neg (by simp [Act.holds])]; rfl
      · rw [List.countP_cons, if_neg (by simp [Act.isDestroy])]; rfl
      · exact fun a ha hp => ⟨a, List.mem_cons_of_mem _ ha, hp⟩
      · exact fun k xs hm hx => ⟨xs, hx, List.mem_cons_of_mem _ hm⟩
      · exact fun n hm => List.mem_cons_of_mem _ hm
    · refine ⟨?_, ?_, ?_, f.lt, ?_, ?_, ?_, f.vals, ?_, ?_, ?_, ?_⟩
      · exact List.Nodup.sublist (List.Sublist.map _ List.filter_sublist) f.nodup
      · intro k
        have h1 := f.waits k
        rw [List.countP_cons] at h1
        show R.countP _ = (s.frames.filter _).countP _
        rw [List.countP_filter]
        by_cases hk : k = j'
        · subst hk
          have : R.countP (Act.isWait (D := D) k) = 0 := by omega
          rw [this, eq_comm, List.countP_eq_zero]
          intro a _; simp
        · have hk' : ¬ j' = k := fun h => hk h.symm
          rw [if_neg (by simp [Act.isWait, hk']), Nat.add_zero] at h1
          rw [h1]
          refine List.countP_congr (fun x _ => ?_)
          by_cases hx : x.1 = k
          · simp [hx, hk]
          · simp [hx]
      · exact fun x hx => f.known x (List.mem_filter.mp hx).1
      · intro k hk h0
        refine List.mem_filter.mpr ⟨f.live k hk h0, ?_⟩
        obtain ⟨c, r, v, hd⟩ := f.vals _ _ hv
        have : k ≠ j' := by
          rintro rfl
          have hp : 0 < dones k s.c.trace := List.countP_pos_iff.mpr ⟨_, hd, by simp [Ev.doneNo]⟩
          exact absurd h0 (by show dones k s.c.trace ≠ 0; omega)
        simpa using this
      · exact fun k hk => f.unset k (List.mem_filter.mp hk).1
      · intro k hk
        rcases f.moved k (List.mem_filter.mp hk).1 with ⟨st', h⟩ | h
        · rcases List.mem_cons.mp h with h | h
          · cases h
          · exact .inl ⟨st', h⟩
        · exact .inr h
      · intro k st' hk
        rcases List.mem_append.mp hk with hk | hk
        · exact f.rets k st' hk
        · rw [List.mem_singleton] at hk; cases hk
          obtain ⟨x, hx, rfl⟩ := List.mem_map.mp hin
          exact ⟨f.known x hx, f.vals _ _ hv⟩
      · rw [List.map_append, List.nodup_append]
        refine ⟨f.once, by simp, ?_⟩
        intro a ha b hb
        simp only [List.map_cons, List.map_nil, List.mem_singleton] at hb
        subst hb
        rintro rfl
        exact f.gone _ ha hin
      · intro k hk
        rw [List.map_append, List.mem_append] at hk
        rcases hk with hk | hk
        · intro hm
          obtain ⟨x, hx, rfl⟩ := List.mem_map.mp hm
          exact f.gone _ hk (List.mem_map_of_mem (f := (·.1)) (List.mem_filter.mp hx).1)
        · simp only [List.map_cons, List.map_nil, List.mem_singleton] at hk
          subst hk
          intro hm
          obtain ⟨x, hx, h⟩ := List.mem_map.mp hm
          have := (List.mem_filter.mp hx).2
          simp [h] at this
      · intro k hk
        by_cases hkj : k = j'
        · subst hkj; exact .inr (by simp)
        · rcases f.back k hk with hb | hb
          · obtain ⟨x, hx, rfl⟩ := List.mem_map.mp hb
            exact .inl (List.mem_map.mpr ⟨x, List.mem_filter.mpr ⟨hx, by simpa using hkj⟩, rfl⟩)
          · exact .inr (by rw [List.map_append, List.mem_append]; exact .inl hb)

/-! ### Calls and flush callbacks -/

theorem start_inv {j : Nat} {c : Call D} {t : Bool} {s : Sys D} {R : List (Act D)} (i : Inv (.start j c t :: R) s) :
    Inv ((if t then [.agg j c] else [.finish j c .invalidArgument .none none]) ++ R) { s with c := bump s.c (total c) } := by
  have b : Books (opensOf (.start j c t :: R)) (ownOf (.start j c t :: R)) (owedOf R) (bump s.c (total c)) := Books.pay i.books
  have key : ∀ a : Act D, a.opens = [(j, c, true)] → a.own = [] → a.owed = .zero → (∀ tr : List (Ev D), a.Ok tr) → a.bland = true →
      Inv ([a] ++ R) { s with c := bump s.c (total c) } := by
    intro a h1 h2 h3 h4 h5
    refine i.next ?_ (fun b hb => by rw [List.mem_singleton] at hb; subst hb; exact h4 _) (fun _ h => h)
      (i.life.bland rfl rfl rfl rfl rfl (fun b hb => by rw [List.mem_singleton] at hb; subst hb; exact h5) (.inl rfl))
      (i.frames.bland rfl rfl rfl rfl rfl ⟨[], by simp [bump], by simp⟩ (fun _ => rfl) rfl
        (fun b hb => by rw [List.mem_singleton] at hb; subst hb; exact Act.bland_wait h5))
    rw [List.singleton_append, opensOf_cons, ownOf_cons, owedOf_cons, h1, h2, h3, Stats.zero_add]
    exact b
  cases t
  · exact key _ rfl rfl rfl (fun tr id h => by cases h) rfl
  · exact key _ rfl rfl rfl (fun tr => trivial) rfl

theorem result_inv {j : Nat} {c : Call D} {st : Status} {reply : Reply} {s s' : Sys D} {new R : List (Act D)}
    (i : Inv (.result j c st reply :: R) s) (h : exec K stops (.result j c st reply) s = some (.ok (s', new))) :
    Inv (new ++ R) s' := by
  simp only [exec, this, Option.some.injEq] at h
  split at h
  · cases h
  · split at h
    · simp only [Except.ok.injEq, Prod.mk.injEq] at h
      obtain ⟨rfl, rfl⟩ := h
      have al := allocCall_ok c s.c
      have he := al.eq
      have b := al.books i.books
      have h0 : owedOf (.result j c st reply :: R) = owedOf R := Stats.zero_add _
      rw [h0] at b
      have b' := Books.send (os' := opensOf R) (own' := ownOf R) b (some j) c _ rfl (.inr ⟨j, rfl, rfl⟩)
      rw [← inFlight_eq] at b'
      have htr : ((allocCall c s.c).2.send (some j) c (allocCall c s.c).1).trace = s.c.trace ++ [.sent s.c.sends (some j) c] := by
        rw [he]; rfl
      refine i.next ?_ ?_ ?_ ?_ ?_
      · have e1 : owedOf ([.user, .count j c (inFlight c)] ++ R) = (sumStats (inFlight c)).add (owedOf R) := Stats.zero_add _
        rw [e1]
        exact b'
      · intro b hb
        simp only [List.mem_cons, List.not_mem_nil, or_false] at hb
        rcases hb with rfl | rfl
        · trivial
        · exact ⟨s.c.sends, by rw [htr]; simp⟩
      · intro e hm; rw [htr]; exact List.mem_append_left _ hm
      · refine i.life.bland rfl rfl rfl ?_ rfl (by simp [Act.bland]) (.inl rfl)
        show (allocCall c s.c).2.alive = _
        rw [he]
      · refine i.frames.bland rfl rfl rfl rfl ?_ ⟨_, htr, by simp [Ev.doneNo]⟩ (fun _ => rfl) rfl (by simp [Act.isWait])
        show (allocCall c s.c).2.calls = _
        rw [he]
    · cases h
      refine i.next ?_ ?_ (fun _ h => h) (i.life.bland rfl rfl rfl rfl rfl (by simp [Act.bland]) (.inl rfl))
        (i.frames.bland rfl rfl rfl rfl rfl ⟨[], by simp, by simp⟩ (fun _ => rfl) rfl (by simp [Act.isWait]))
      · exact i.books
      · intro b hb
        rw [List.mem_singleton] at hb; subst hb
        intro id hid; cases hid

theorem count_inv {i' : Nat} {c' : Call D} {xs : List Stats} {s s' : Sys D} {new R : List (Act D)}
    (i : Inv (.count i' c' xs :: R) s) (h : exec K stops (.count i' c' xs) s = some (.ok (s', new))) : Inv (new ++ R) s' := by
  cases xs with
  | nil =>
    simp only [exec] at h
    cases h
    refine i.next ?_ (by simp) (fun _ h => h) (i.life.bland rfl rfl rfl rfl rfl (by simp) (.inl rfl))
      (i.frames.bland rfl rfl rfl rfl rfl ⟨[], by simp, by simp⟩ (fun _ => rfl) rfl (by simp))
    have b := i.books
    have h0 : owedOf (.count i' c' [] :: R) = owedOf R := Stats.zero_add _
    rw [h0] at b
    exact b
  | cons x xs =>
    simp only [exec, this, Option.some.injEq] at h
    split at h
    · cases h
    · cases h
      have hok : (Act.count i' c' xs).Ok s.c.trace := i.acts (.count i' c' (x :: xs)) (List.mem_cons_self ..)
      refine i.next ?_ (by rw [List.forall_mem_singleton]; exact hok) (fun _ h => h) (i.life.bland rfl rfl rfl rfl rfl (by simp [Act.bland]) (.inl rfl))
        (i.frames.bland rfl rfl rfl rfl rfl ⟨[], by simp [bump], by simp⟩ (fun _ => rfl) rfl (by simp [Act.isWait]))
      refine Books.pay ?_
      have b := i.books
      have h0 : owedOf (.count i' c' (x :: xs) :: R) = x.add (owedOf (.count i' c' xs :: R)) := Stats.add_assoc _ _ _
      rw [h0] at b
      exact b

theorem free_inv {own : List Nat} {th : Bool} {s s' : Sys D} {new R : List (Act D)}
    (i : Inv (.free own th :: R) s) (h : exec K stops (.free own th) s = some (.ok (s', new))) : Inv (new ++ R) s' := by
  simp only [exec, bind, Except.bind, Option.some.injEq] at h
  have b := i.books
  have h0 : owedOf (.free own th :: R) = owedOf R := Stats.zero_add _
  rw [h0] at b
  obtain ⟨c', h1, h2, h3⟩ := Books.freeAll (os := opensOf R) own (own := ownOf R) b
  split at h
  · cases h
  · rw [h1] at h
    cases h
    refine i.next h2 (by simp) (fun e he => by show e ∈ c'.trace; rw [h3]; exact he)
      (i.life.bland rfl rfl rfl (by show c'.alive = _; rw [h3]) rfl (by simp) (.inr (by simp)))
      (i.frames.bland rfl rfl rfl rfl (by show c'.calls = _; rw [h3]) ⟨[], by show c'.trace = _; rw [h3]; simp, by simp⟩ (fun _ => rfl) rfl (by simp))

theorem flush_inv {c : Call D} {s s' : Sys D} {new R : List (Act D)}
    (i : Inv (.flush c :: R) s) (h : exec K stops (.flush c) s = some (.ok (s', new))) : Inv (new ++ R) s' := by
  simp only [exec] at h
  cases hl : s.lk (kind c) with
  | true => rw [hl] at h; simp at h
  | false =>
    rw [hl] at h
    simp only [Bool.false_eq_true, if_false, Option.some.injEq, Except.ok.injEq, Prod.mk.injEq] at h
    obtain ⟨rfl, rfl⟩ := h
    have l := i.life
    refine i.next i.books (by simp [Act.Ok]) (fun _ h => h) ?_
      (i.frames.bland rfl rfl rfl rfl rfl ⟨[], by simp, by simp⟩ (fun _ => rfl) rfl (by simp [Act.isWait]))
    refine ⟨?_, ?_, ?_, ?_, ?_, l.dead, l.born⟩
    · intro k
      have h1 := l.locks k
      rw [List.countP_cons, if_neg (by simp [Act.holds]), Nat.add_zero] at h1
      rw [List.singleton_append, List.countP_cons, h1]
      by_cases hk : kind c = k
      · subst hk; simp [Act.holds, set, hl]
      · simp [Act.holds, set, hk, Ne.symm hk]
    · have h1 := l.destr
      rw [List.countP_cons, if_neg (by simp [Act.isDestroy]), Nat.add_zero] at h1
      rw [List.singleton_append, List.countP_cons, if_neg (by simp [Act.isDestroy]), Nat.add_zero]
      exact h1
    · intro hd a ha
      rcases List.mem_cons.mp ha with rfl | ha
      · rfl
      · exact l.api hd a (List.mem_cons_of_mem _ ha)
    · intro k xs ha hx
      rcases List.mem_cons.mp ha with h | ha
      · cases h
      · exact l.after k xs (List.mem_cons_of_mem _ ha) hx
    · intro n ha
      rcases List.mem_cons.mp ha with h | ha
      · cases h
      · exact l.phase n (List.mem_cons_of_mem _ ha)

/-- The lock stays held by the same thread. -/
theorem Life.hold {a : Act D} {k : Kind} {xs : List Stats} {us R : List (Act D)} {s s' : Sys D} (l : Life (a :: R) s) (hus : us = [] ∨ us = [.user])
    (h1 : s'.cb = s.cb) (h2 : s'.lk = s.lk) (h3 : s'.dying = s.dying) (h4 : s'.c.alive = s.c.alive)
    (ha : ∀ j, a.holds j = (k == j)) (hd : a.isDestroy = false) (hx : xs ≠ [] → s.cb k = true) : Life (us ++ [.after k xs] ++ R) s' := by
  have hu : ∀ b ∈ us, b = Act.user := by rcases hus with rfl | rfl <;> simp
  have hcu : ∀ P : Act D → Bool, P .user = false → us.countP P = 0 := fun P hP => countP_none (fun b hb => by rw [hu b hb]; exact hP)
  refine ⟨?_, ?_, ?_, ?_, ?_, ?_, ?_⟩
  · intro j
    have h := l.locks j
    rw [List.countP_cons, ha] at h
    rw [List.countP_append, List.countP_append, hcu _ rfl, h2, ← h]
    simp only [List.countP_singleton, Act.holds, Nat.zero_add]
    exact Nat.add_comm _ _
  · have h := l.destr
    rw [List.countP_cons, hd] at h
    rw [List.countP_append, List.countP_append, hcu _ rfl, h3, h4, ← h]
    simp [Act.isDestroy]
  · intro hdy b hb
    rw [h3] at hdy
    simp only [List.mem_append, List.mem_singleton] at hb
    rcases hb with (hb | rfl) | hb
    · rw [hu b hb]; rfl
    · rfl
    · exact l.api hdy b (List.mem_cons_of_mem _ hb)
  · intro j ys hb hy
    rw [h1]
    simp only [List.mem_append, List.mem_singleton] at hb
    rcases hb with (hb | hb) | hb
    · have := hu _ hb; cases this
    · cases hb; exact hx hy
    · exact l.after j ys (List.mem_cons_of_mem _ hb) hy
  · intro n hb
    rw [h1]
    simp only [List.mem_append, List.mem_singleton, reduceCtorEq, or_false] at hb
    rcases hb with hb | hb
    · have := hu _ hb; cases this
    · exact l.phase n (List.mem_cons_of_mem _ hb)
  · rw [h4, h3, h1]; exact l.dead
  · rw [h3, h1]; exact l.born

theorem calling_inv {c : Call D} {s s' : Sys D} {new R : List (Act D)}
    (i : Inv (.calling c :: R) s) (h : exec K stops (.calling c) s = some (.ok (s', new))) : Inv (new ++ R) s' := by
  simp only [exec] at h
  have b := i.books
  have h0 : owedOf (.calling c :: R) = owedOf R := Stats.zero_add _
  rw [h0] at b
  split at h
  · cases h
    refine i.next ?_ (by simp [Act.Ok]) (fun _ h => h)
      (i.life.hold (us := []) (.inl rfl) rfl rfl rfl rfl (fun _ => rfl) rfl (by simp))
      (i.frames.bland rfl rfl rfl rfl rfl ⟨[], by simp, by simp⟩ (fun _ => rfl) rfl (by simp [Act.isWait]))
    have e1 : owedOf ([.after (kind c) []] ++ R) = owedOf R := Stats.zero_add _
    rw [e1]; exact b
  · rename_i hcb
    simp only [this, Option.some.injEq] at h
    split at h
    · cases h
    · split at h
      · cases h
      · simp only [Except.ok.injEq, Prod.mk.injEq] at h
        obtain ⟨rfl, rfl⟩ := h
        have al := allocFlush_ok c s.c
        have he := al.eq
        have b := al.books b
        have b' := Books.send (os' := opensOf R) (own' := ownOf R) b none c _ rfl (.inl ⟨rfl, rfl⟩)
        rw [← byFlush_eq] at b'
        have htr : ((allocFlush c s.c).2.send none c (allocFlush c s.c).1).trace = s.c.trace ++ [.sent s.c.sends none c] := by
          rw [he]; rfl
        refine i.next ?_ ?_ ?_ ?_ ?_
        · have e1 : owedOf ([.user, .after (kind c) (byFlush c)] ++ R) = (sumStats (byFlush c)).add (owedOf R) := Stats.zero_add _
          rw [e1]
          exact b'
        · intro b hb
          simp only [List.mem_cons, List.not_mem_nil, or_false] at hb
          rcases hb with rfl | rfl <;> trivial
        · intro e hm; rw [htr]; exact List.mem_append_left _ hm
        · refine i.life.hold (us := [.user]) (.inr rfl) rfl rfl rfl ?_ (fun _ => rfl) rfl (fun _ => by simpa using hcb)
          show (allocFlush c s.c).2.alive = _
          rw [he]
        · refine i.frames.bland rfl rfl rfl rfl ?_ ⟨_, htr, by simp [Ev.doneNo]⟩ (fun _ => rfl) rfl (by simp [Act.isWait])
          show (allocFlush c s.c).2.calls = _
          rw [he]

theorem after_inv {k : Kind} {xs : List Stats} {s s' : Sys D} {new R : List (Act D)}
    (i : Inv (.after k xs :: R) s) (h : exec K stops (.after k xs) s = some (.ok (s', new))) : Inv (new ++ R) s' := by
  cases xs with
  | nil =>
    simp only [exec] at h
    cases h
    have l := i.life
    have b := i.books
    have h0 : owedOf (.after k [] :: R) = owedOf R := Stats.zero_add _
    rw [h0] at b
    refine i.next b (by simp) (fun _ h => h) ?_
      (i.frames.bland rfl rfl rfl rfl rfl ⟨[], by simp, by simp⟩ (fun _ => rfl) rfl (by simp))
    refine ⟨?_, ?_, fun hd a ha => l.api hd a (List.mem_cons_of_mem _ ha), fun j ys ha => l.after j ys (List.mem_cons_of_mem _ ha),
      fun n ha => l.phase n (List.mem_cons_of_mem _ ha), l.dead, l.born⟩
    · intro j
      have h1 := l.locks j
      rw [List.countP_cons] at h1
      show R.countP _ = if set s.lk k false j = true then 1 else 0
      by_cases hj : j = k
      · subst hj
        rw [if_pos (by simp [Act.holds])] at h1
        simp only [set, if_true, Bool.false_eq_true, if_false]
        split at h1 <;> omega
      · rw [if_neg (by simp [Act.holds]; exact fun h => hj h.symm)] at h1
        simp only [set, hj, if_false]
        exact h1
    · have h1 := l.destr
      rw [List.countP_cons, if_neg (by simp [Act.isDestroy]), Nat.add_zero] at h1
      exact h1
  | cons x xs =>
    simp only [exec, this, Option.some.injEq] at h
    split at h
    · cases h
    · cases h
      refine i.next ?_ (by simp [Act.Ok]) (fun _ h => h)
        (i.life.hold (us := []) (.inl rfl) rfl rfl rfl rfl (fun _ => rfl) rfl (fun _ => i.life.after k (x :: xs) List.mem_cons_self (by simp)))
        (i.frames.bland rfl rfl rfl rfl rfl ⟨[], by simp [bump], by simp⟩ (fun _ => rfl) rfl (by simp [Act.isWait]))
      refine Books.pay ?_
      have b := i.books
      have h0 : owedOf (.after k (x :: xs) :: R) = x.add (owedOf (.after k xs :: R)) := Stats.add_assoc _ _ _
      rw [h0] at b
      exact b

/-! ### All of it -/

theorem exec_inv {a : Act D} {s s' : Sys D} {new R : List (Act D)} (i : Inv (a :: R) s)
    (h : exec K stops a s = some (.ok (s', new))) : Inv (new ++ R) s' := by
  cases a with
  | user =>
    simp only [exec] at h
    cases h
    have b := i.books
    have h0 : owedOf (.user :: R) = owedOf R := Stats.zero_add _
    rw [h0] at b
    exact i.next b (by simp) (fun _ h => h) (i.life.bland rfl rfl rfl rfl rfl (by simp) (.inr (by simp)))
      (i.frames.bland rfl rfl rfl rfl rfl ⟨[], by simp, by simp⟩ (fun _ => rfl) rfl (by simp))
  | start j c t =>
    simp only [exec, this, Option.some.injEq] at h
    split at h
    · cases h
    · cases h; exact start_inv i
  | agg j c =>
    simp only [exec, this, Option.some.injEq] at h
    split at h
    · cases h
    · exact runCall_inv i h
  | result j c st reply => exact result_inv i h
  | count i' c' xs => exact count_inv i h
  | finish j c st reply via => exact finish_inv i h
  | setValue j st => simp only [exec] at h; cases h; exact setValue_inv i
  | wait j => exact wait_inv i h
  | fin p a => exact runFin_inv i (by simpa only [exec, Option.some.injEq] using h)
  | free own th => exact free_inv i h
  | timer n => exact runTimer_inv i (by simpa only [exec, Option.some.injEq] using h)
  | destroy n => exact runDestroy_inv i h
  | flush c => exact flush_inv i h
  | calling c => exact calling_inv i h
  | after k xs => exact after_inv i h

/-- Pieces of code that are added to the others. -/
theorem Life.add {new A : List (Act D)} {s s' : Sys D} (l : Life A s) (h1 : s'.cb = s.cb) (h2 : s'.lk = s.lk)
    (h3 : s'.dying = s.dying) (h4 : s'.c.alive = s.c.alive) (hk : ∀ b ∈ new, ∀ k, b.holds k = false) (hd : ∀ b ∈ new, b.isDestroy = false)
    (hp : s.dying = true → ∀ b ∈ new, b.api = false) : Life (new ++ A) s' := by
  refine ⟨?_, ?_, ?_, ?_, ?_, ?_, ?_⟩
  · intro k; rw [List.countP_append, countP_none (fun b hb => hk b hb k), Nat.zero_add, h2]; exact l.locks k
  · rw [List.countP_append, countP_none hd, Nat.zero_add, h3, h4]; exact l.destr
  · intro hdy a ha
    rw [h3] at hdy
    rcases List.mem_append.mp ha with ha | ha
    · exact hp hdy a ha
    · exact l.api hdy a ha
  · intro k xs ha hx
    rw [h1]
    rcases List.mem_append.mp ha with ha | ha
    · have := hk _ ha k; simp [Act.holds] at this
    · exact l.after k xs ha hx
  · intro n ha
    rw [h1]
    rcases List.mem_append.mp ha with ha | ha
    · have := hd _ ha; simp [Act.isDestroy] at this
    · exact l.phase n ha
  · rw [h4, h3, h1]; exact l.dead
  · rw [h3, h1]; exact l.born

theorem Inv.add {new A : List (Act D)} {s s' : Sys D} (i : Inv A s)
    (hb : Books (opensOf (new ++ A)) (ownOf (new ++ A)) (owedOf (new ++ A)) s'.c) (hok : ∀ b ∈ new, b.Ok s'.c.trace)
    (ht : ∀ e ∈ s.c.trace, e ∈ s'.c.trace) (hl : Life (new ++ A) s') (hf : Frames (new ++ A) s') : Inv (new ++ A) s' := by
  refine ⟨hb, ?_, hl, hf⟩
  intro b hm
  rcases List.mem_append.mp hm with hm | hm
  · exact hok b hm
  · exact (i.acts b hm).mono ht

theorem Frames.add {new A : List (Act D)} {s s' : Sys D} (f : Frames A s) (h1 : s'.frames = s.frames)
    (h2 : s'.syncs = s.syncs) (h3 : s'.values = s.values) (h4 : s'.returns = s.returns) (h5 : s.c.calls ≤ s'.c.calls)
    (ht : ∃ evs, s'.c.trace = s.c.trace ++ evs ∧ ∀ e ∈ evs, e.doneNo = none)
    (hn : ∀ b ∈ new, ∀ i, b.isWait i = false) : Frames (new ++ A) s' := by
  have f' := Frames.change (A' := new ++ A) (s' := { s' with c := { s'.c with calls := s.c.calls } }) f h1 h2 h3 h4 rfl ht
    (fun i => by rw [List.countP_append, countP_none (fun b hb => hn b hb i), Nat.zero_add]) (fun i st hm => List.mem_append_right _ hm)
  exact ⟨f'.nodup, f'.waits, f'.known, fun i hi => Nat.lt_of_lt_of_le (f'.lt i hi) h5, f'.live, f'.unset, f'.moved, f'.vals, f'.rets, f'.once, f'.gone, f'.back⟩

theorem step_inv {s s' : Sys D} (i : Inv s.acts s) (h : Step K stops s s') : Inv s'.acts s' := by
  have re : ∀ {A : List (Act D)} {s : Sys D} (t : List (List (Act D))), Inv A s → Inv A { s with threads := t } :=
    fun t i => ⟨i.books, i.acts, ⟨i.life.locks, i.life.destr, i.life.api, i.life.after, i.life.phase, i.life.dead, i.life.born⟩,
      ⟨i.frames.nodup, i.frames.waits, i.frames.known, i.frames.lt, i.frames.live, i.frames.unset, i.frames.moved, i.frames.vals, i.frames.rets,
       i.frames.once, i.frames.gone, i.frames.back⟩⟩
  cases h with
  | work hth hex =>
    rename_i l1 a t l2 s1 new
    have i1 : Inv (a :: (t ++ (l1 ++ l2).flatten)) s := by
      refine i.perm ?_
      unfold Sys.acts; rw [hth]
      exact (acts_at (t := a :: t)).symm
    have i2 := exec_inv i1 hex
    refine (re _ i2).perm ?_
    refine acts_at.trans ?_
    rw [List.append_assoc]
  | @call l1 t l2 c tr hth hfree hdy =>
    have i2 := i.add (new := [.start s.c.calls c (present K c tr)])
      (s' := { s with c := { s.c.log (.called s.c.calls c (present K c tr)) with calls := s.c.calls + 1 } }) ?_ (by simp [Act.Ok])
      (fun e he => by simp [Client.log, he]) ?_ ?_
    · refine (re _ i2).perm ?_
      refine acts_at.trans ?_
      rw [List.cons_append, List.singleton_append]
      refine List.Perm.cons _ ?_
      unfold Sys.acts; rw [hth]
      exact acts_at.symm
    · have := i.books.begin c (present K c tr)
      rw [← total_eq] at this
      exact this
    · exact i.life.add rfl rfl rfl rfl (by simp [Act.holds]) (by simp [Act.isDestroy]) (fun h => by rw [hdy] at h; cases h)
    · exact i.frames.add rfl rfl rfl rfl (Nat.le_succ _) ⟨_, rfl, by simp [Ev.doneNo]⟩ (by simp [Act.isWait])
  | @sync l1 t l2 c hth hfree hdy =>
    have f := i.frames
    have hfresh : ∀ j ∈ s.syncs, j ≠ s.c.calls := fun j hj => Nat.ne_of_lt (f.lt j hj)
    have hnf : s.c.calls ∉ s.frames.map (·.1) := by
      intro hm
      obtain ⟨x, hx, he⟩ := List.mem_map.mp hm
      exact hfresh _ (f.known x hx) he
    have hd : ∀ j, dones j (s.c.trace ++ [Ev.called s.c.calls c (present K c .default)]) = dones j s.c.trace := by
      intro j; simp [dones, List.countP_append, Ev.doneNo]
    have hz : dones s.c.calls s.c.trace = 0 := by
      have := i.books.account s.c.calls
      simp [issued] at this
      exact this.1.1
    have i2 := i.add (new := [.start s.c.calls c (present K c .default), .wait s.c.calls])
      (s' := { s with
        c := { s.c.log (.called s.c.calls c (present K c .default)) with calls := s.c.calls + 1 }
        syncs := s.syncs ++ [s.c.calls]
        frames := s.frames ++ [(s.c.calls, true)] }) ?_ (by simp [Act.Ok])
      (fun e he => by simp [Client.log, he]) ?_ ?_
    · refine (re _ i2).perm ?_
      refine acts_at.trans ?_
      rw [List.cons_append, List.cons_append, List.cons_append, List.singleton_append]
      refine List.Perm.cons _ (List.Perm.cons _ ?_)
      unfold Sys.acts; rw [hth]
      exact acts_at.symm
    · have := i.books.begin c (present K c .default)
      rw [← total_eq] at this
      have e1 : owedOf ([.start s.c.calls c (present K c .default), .wait s.c.calls] ++ s.acts) = (total c).add (owedOf s.acts) := by
        show (total c).add (Stats.add .zero _) = _
        rw [Stats.zero_add]; rfl
      rw [e1]
      exact this
    · exact i.life.add rfl rfl rfl rfl (by simp [Act.holds]) (by simp [Act.isDestroy]) (fun h => by rw [hdy] at h; cases h)
    · refine ⟨?_, ?_, ?_, ?_, ?_, ?_, ?_, ?_, ?_, f.once, ?_, ?_⟩
      · rw [List.map_append, List.nodup_append]
        refine ⟨f.nodup, by simp, ?_⟩
        intro a ha b hb
        simp only [List.map_cons, List.map_nil, List.mem_singleton] at hb
        subst hb
        rintro rfl
        exact hnf ha
      · intro j
        have := f.waits j
        simp only [List.cons_append, List.nil_append, List.countP_cons, List.countP_append, List.countP_nil]
        rw [this]
        simp [Act.isWait]
      · intro x hx
        rcases List.mem_append.mp hx with hx | hx
        · exact List.mem_append_left _ (f.known x hx)
        · rw [List.mem_singleton] at hx; subst hx; simp
      · intro j hj
        show j < s.c.calls + 1
        rcases List.mem_append.mp hj with hj | hj
        · have := f.lt j hj; omega
        · rw [List.mem_singleton] at hj; omega
      · intro j hj h0
        rcases List.mem_append.mp hj with hj | hj
        · exact List.mem_append_left _ (f.live j hj ((hd j).symm.trans h0))
        · rw [List.mem_singleton] at hj; subst hj; simp
      · intro j hj
        refine (hd j).trans ?_
        rcases List.mem_append.mp hj with hj | hj
        · exact f.unset j hj
        · rw [List.mem_singleton] at hj; cases hj; exact hz
      · intro j hj
        rcases List.mem_append.mp hj with hj | hj
        · exact (f.moved j hj).imp (fun ⟨st, h⟩ => ⟨st, List.mem_append_right _ h⟩) id
        · rw [List.mem_singleton] at hj; cases hj
      · intro j st hj
        obtain ⟨c, r, v, h⟩ := f.vals j st hj
        exact ⟨c, r, v, List.mem_append_left _ h⟩
      · intro j st hj
        obtain ⟨h0, c, r, v, h⟩ := f.rets j st hj
        exact ⟨List.mem_append_left _ h0, c, r, v, List.mem_append_left _ h⟩
      · intro j hj hm
        rw [List.map_append, List.mem_append] at hm
        rcases hm with hm | hm
        · exact f.gone j hj hm
        · simp only [List.map_cons, List.map_nil, List.mem_singleton] at hm
          obtain ⟨x, hx, rfl⟩ := List.mem_map.mp hj
          exact hfresh _ (f.rets x.1 x.2 hx).1 hm
      · intro j hj
        rw [List.map_append, List.mem_append]
        rcases List.mem_append.mp hj with hj | hj
        · exact (f.back j hj).imp .inl id
        · rw [List.mem_singleton] at hj; subst hj; exact .inl (.inr (by simp))
  | @complete l1 t l2 id a p c' hth hfree htake =>
    obtain ⟨he, hp, hb⟩ := i.books.take htake
    have i2 := i.add (new := [.fin p a]) (s' := { s with c := c' }) ?_ ?_ ?_ ?_ ?_
    · refine (re _ i2).perm ?_
      refine acts_at.trans ?_
      rw [List.cons_append, List.singleton_append]
      refine List.Perm.cons _ ?_
      unfold Sys.acts; rw [hth]
      exact acts_at.symm
    · have e1 : owedOf ([.fin p a] ++ s.acts) = owedOf s.acts := Stats.zero_add _
      rw [e1]
      exact hb
    · intro b hm; rw [List.mem_singleton] at hm; subst hm
      show _ ∈ c'.trace
      rw [he]; simp [Client.log]
    · intro e hm; show e ∈ c'.trace; rw [he]; simp [Client.log, hm]
    · exact i.life.add rfl rfl rfl (by show c'.alive = _; rw [he]; rfl) (by simp [Act.holds]) (by simp [Act.isDestroy]) (by simp [Act.api])
    · exact i.frames.add rfl rfl rfl rfl (by show _ ≤ c'.calls; rw [he]; exact Nat.le_refl _) ⟨[_], by show c'.trace = _; rw [he]; rfl, by simp [Ev.doneNo]⟩ (by simp [Act.isWait])
  | @fire l1 t l2 hth hfree htm =>
    have i2 := i.add (new := [.timer 0]) (s' := { s with c := s.c.log .fired, timers := s.timers + 1 }) ?_ (by simp [Act.Ok]) ?_ ?_ ?_
    · refine (re _ i2).perm ?_
      refine acts_at.trans ?_
      rw [List.cons_append, List.singleton_append]
      refine List.Perm.cons _ ?_
      unfold Sys.acts; rw [hth]
      exact acts_at.symm
    · have e1 : owedOf ([.timer 0] ++ s.acts) = owedOf s.acts := Stats.zero_add _
      rw [e1]
      exact i.books.mark .fired (.inl rfl)
    · intro e hm; simp [Client.log, hm]
    · exact i.life.add rfl rfl rfl rfl (by simp [Act.holds]) (by simp [Act.isDestroy]) (by simp [Act.api])
    · exact i.frames.add rfl rfl rfl rfl (Nat.le_refl _) ⟨[_], rfl, by simp [Ev.doneNo]⟩ (by simp [Act.isWait])
  | @destroy l1 t l2 hth hfree hdy hapi =>
    have l := i.life
    have halive : s.c.alive = true := by
      cases ha : s.c.alive with
      | true => rfl
      | false => have := (l.dead ha).1; rw [hdy] at this; cases this
    have hnone : s.acts.countP Act.isDestroy = 0 := by have := l.destr; rw [hdy] at this; simpa using this
    have i2 := i.add (new := [.destroy 0]) (s' := { s with dying := true }) ?_ (by simp [Act.Ok]) (fun _ h => h) ?_ ?_
    · refine (re _ i2).perm ?_
      refine acts_at.trans ?_
      rw [List.cons_append, List.singleton_append]
      refine List.Perm.cons _ ?_
      unfold Sys.acts; rw [hth]
      exact acts_at.symm
    · have e1 : owedOf ([.destroy 0] ++ s.acts) = owedOf s.acts := Stats.zero_add _
      rw [e1]
      exact i.books
    · refine ⟨?_, ?_, ?_, ?_, ?_, ?_, ?_⟩
      · intro k
        rw [List.singleton_append, List.countP_cons, if_neg (by simp [Act.holds])]
        exact l.locks k
      · rw [List.singleton_append, List.countP_cons, hnone]
        simp [Act.isDestroy, halive]
      · intro _ a ha
        rcases List.mem_cons.mp ha with rfl | ha
        · rfl
        · obtain ⟨t', h1, h2⟩ := List.mem_flatten.mp ha
          exact hapi t' h1 a h2
      · intro k xs ha hx
        rcases List.mem_cons.mp ha with h | ha
        · cases h
        · exact l.after k xs ha hx
      · intro n ha
        rcases List.mem_cons.mp ha with h | ha
        · cases h; omega
        · have := List.countP_eq_zero.mp hnone _ ha
          simp [Act.isDestroy] at this
      · intro ha
        rw [show s.c.alive = false from ha] at halive; cases halive
      · intro h; cases h
    · exact i.frames.add rfl rfl rfl rfl (Nat.le_refl _) ⟨[], by simp, by simp⟩ (by simp [Act.isWait])
  | spawn =>
    refine (re _ i).perm ?_
    show (s.threads ++ [[]]).flatten.Perm s.threads.flatten
    simp

theorem Reach.inv {s : Sys D} (r : Reach K stops s) : Inv s.acts s := by
  induction r with
  | new h =>
    refine ⟨Books.new h, by simp [Sys.acts, Sys.new], ?_, ?_⟩
    · refine ⟨by simp [Sys.acts, Sys.new], by simp [Sys.acts, Sys.new], by simp [Sys.acts, Sys.new], by simp [Sys.acts, Sys.new],
        by simp [Sys.acts, Sys.new], ?_, by simp [Sys.new]⟩
      intro ha
      unfold Client.new at h
      rename_i c
      cases h1 : Check.new (D := D) K.envC K.cfgC <;> simp only [h1, bind, Except.bind, reduceCtorEq] at h
      cases h2 : Quota.new (D := D) K.envQ K.cfgQ (K.depth + 1) <;> simp only [h2, reduceCtorEq] at h
      cases h3 : Report.new (D := D) K.envR K.cfgR <;> simp only [h3, reduceCtorEq] at h
      cases h
      cases ha
    · constructor <;> simp [Sys.acts, Sys.new]
  | step _ h ih => exact step_inv ih h

end Verif.Threads
