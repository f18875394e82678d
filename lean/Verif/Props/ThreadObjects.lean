import Verif.Props.ThreadExamples
/-
C112, C113: the request and response objects, under every schedule: those of the caller are not used after the call is over, those
given to a transport live until it completes the call.
-/
set_option linter.unusedSectionVars false
namespace Verif.Threads
open Client
variable {D : Type} [DoubleOps D] {K : Setup} {stops : Bool} {s : Sys D}

/-! ### The objects of the caller -/

omit [DoubleOps D] in
theorem freeAll_pend : ∀ (ps : List Nat) {c c' : Client D}, c.freeAll ps = .ok c' → c'.pend = c.pend ∧ c'.stats = c.stats
  | [], c, c', h => by cases h; exact ⟨rfl, rfl⟩
  | p :: ps, c, c', h => by
    unfold Client.freeAll at h
    rw [List.foldlM_cons] at h
    simp only [bind, Except.bind] at h
    split at h
    · cases h
    · rename_i c1 he
      unfold Client.free at he
      split at he
      · cases he
        exact freeAll_pend (c := { c with heap := c.heap.erase p }) ps h
      · cases he

/-- How many objects a transport call holds. -/
def Shaped (p : Pend D) : Prop :=
  p.own.length = match p.req, p.by_ with
    | .report _, some _ => 0
    | .quota _, none => 2
    | _, _ => 1

/-- What a piece of code leaves for its thread continues the same call of the user, if any. -/
theorem exec_callOf {a : Act D} {s s' : Sys D} {new : List (Act D)} (h : exec K stops a s = some (.ok (s', new))) :
    s'.syncs = s.syncs ∧ (∀ b ∈ new, b.callOf = none ∨ b.callOf = a.callOf) ∧ (∀ p ∈ s'.c.pend, p ∈ s.c.pend ∨ Shaped p) ∧
      ∃ x, s'.c.stats = s.c.stats.add x := by
  have same : ∀ {s1 : Sys D}, s1.c.pend = s.c.pend → ∀ p ∈ s1.c.pend, p ∈ s.c.pend ∨ Shaped p := by
    intro s1 h p hp
    rw [h] at hp
    exact .inl hp
  have aggC' : ∀ {x s1 out fl} {s : Sys D}, aggC K x s = .ok (s1, out, fl) → s1.syncs = s.syncs ∧ (∀ b ∈ fl, b.callOf = none) ∧ s1.c.pend = s.c.pend ∧ s1.c.stats = s.c.stats := by
    intro x s1 out fl s h
    simp only [aggC, bind, Except.bind] at h
    split at h
    · cases h
    · cases h
      refine ⟨rfl, fun b hb => ?_, rfl, rfl⟩
      obtain ⟨_, _, rfl⟩ := List.mem_map.mp hb
      rfl
  have aggQ' : ∀ {x s1 out fl} {s : Sys D}, aggQ K x s = .ok (s1, out, fl) → s1.syncs = s.syncs ∧ (∀ b ∈ fl, b.callOf = none) ∧ s1.c.pend = s.c.pend ∧ s1.c.stats = s.c.stats := by
    intro x s1 out fl s h
    simp only [aggQ, bind, Except.bind] at h
    split at h
    · cases h
    · cases h
      refine ⟨rfl, fun b hb => ?_, rfl, rfl⟩
      obtain ⟨_, _, rfl⟩ := List.mem_map.mp hb
      rfl
  have aggR' : ∀ {x s1 out fl} {s : Sys D}, aggR K x s = .ok (s1, out, fl) → s1.syncs = s.syncs ∧ (∀ b ∈ fl, b.callOf = none) ∧ s1.c.pend = s.c.pend ∧ s1.c.stats = s.c.stats := by
    intro x s1 out fl s h
    simp only [aggR, bind, Except.bind] at h
    split at h
    · cases h
    · cases h
      refine ⟨rfl, fun b hb => ?_, rfl, rfl⟩
      obtain ⟨_, _, rfl⟩ := List.mem_map.mp hb
      rfl
  have app : ∀ {fl l : List (Act D)}, (∀ b ∈ fl, b.callOf = none) → (∀ b ∈ l, b.callOf = none ∨ b.callOf = a.callOf) →
      ∀ b ∈ fl ++ l, b.callOf = none ∨ b.callOf = a.callOf := by
    intro fl l h1 h2 b hb
    rcases List.mem_append.mp hb with hb | hb
    · exact .inl (h1 b hb)
    · exact h2 b hb
  cases a with
  | user => simp only [exec] at h; cases h; exact ⟨rfl, by simp, same rfl, .zero, rfl⟩
  | start j c t =>
    simp only [exec, this, Option.some.injEq] at h
    split at h
    · cases h
    · cases h
      cases t <;> exact ⟨rfl, by simp [Act.callOf], same rfl, _, rfl⟩
  | agg j c =>
    simp only [exec, this, Option.some.injEq] at h
    split at h
    · cases h
    · cases c <;> simp only [runCall, bind, Except.bind] at h <;> split at h <;> try (cases h; done)
      all_goals cases h
      · rename_i he; obtain ⟨h1, h2, h3⟩ := aggC' he; exact ⟨h1, app h2 (by simp [Act.callOf]), same h3.1, .zero, h3.2⟩
      · rename_i he; obtain ⟨h1, h2, h3⟩ := aggQ' he; exact ⟨h1, app h2 (by simp [Act.callOf]), same h3.1, .zero, h3.2⟩
      · rename_i he; obtain ⟨h1, h2, h3⟩ := aggR' he; exact ⟨h1, app h2 (by simp [Act.callOf]), same h3.1, .zero, h3.2⟩
  | result j c st reply =>
    simp only [exec, this, Option.some.injEq] at h
    split at h
    · cases h
    · split at h
      · cases h
        refine ⟨rfl, by simp [Act.callOf], fun p hp => ?_, .zero, by cases c <;> rfl⟩
        cases c <;> (rcases List.mem_append.mp hp with hp | hp <;>
          first | exact .inl hp | (rw [List.mem_singleton] at hp; subst hp; exact .inr (by simp [Shaped, allocCall])))
      · cases h; exact ⟨rfl, by simp [Act.callOf], same rfl, .zero, rfl⟩
  | count j c xs =>
    cases xs with
    | nil => simp only [exec] at h; cases h; exact ⟨rfl, by simp, same rfl, .zero, rfl⟩
    | cons x xs =>
      simp only [exec, this, Option.some.injEq] at h
      split at h
      · cases h
      · cases h; exact ⟨rfl, by simp [Act.callOf], same rfl, _, rfl⟩
  | finish j c st reply via =>
    simp only [exec] at h
    split at h
    · split at h
      · cases h
      · cases h
      · cases h; exact ⟨rfl, by simp [Act.callOf], same rfl, .zero, rfl⟩
    · cases h; exact ⟨rfl, by simp [Act.callOf], same rfl, .zero, rfl⟩
  | setValue j st => simp only [exec] at h; cases h; exact ⟨rfl, by simp, same rfl, .zero, rfl⟩
  | wait j =>
    simp only [exec] at h
    split at h
    · cases h
    · cases h; exact ⟨rfl, by simp, same rfl, .zero, rfl⟩
  | fin p an =>
    simp only [exec, Option.some.injEq] at h
    obtain ⟨id, by_, req, own⟩ := p
    cases by_ with
    | some j =>
      cases req with
      | check q =>
        simp only [runFin, bind, Except.bind] at h
        split at h
        · split at h
          · cases h
          · split at h
            · cases h
            · cases h; rename_i he; obtain ⟨h1, h2, h3⟩ := aggC' he; exact ⟨h1, app h2 (by simp [Act.callOf]), same h3.1, .zero, h3.2⟩
        · cases h; exact ⟨rfl, by simp [Act.callOf], same rfl, .zero, rfl⟩
      | quota q =>
        simp only [runFin, bind, Except.bind] at h
        split at h
        · cases h
        · split at h
          · cases h
          · cases h; rename_i he; obtain ⟨h1, h2, h3⟩ := aggQ' he; exact ⟨h1, app h2 (by simp [Act.callOf]), same h3.1, .zero, h3.2⟩
      | report q => simp only [runFin] at h; cases h; exact ⟨rfl, by simp [Act.callOf], same rfl, .zero, rfl⟩
    | none =>
      cases req with
      | check q => simp only [runFin] at h; cases h; exact ⟨rfl, by simp [Act.callOf], same rfl, .zero, rfl⟩
      | quota q =>
        simp only [runFin, bind, Except.bind] at h
        split at h
        · cases h
        · split at h
          · cases h
          · split at h
            · cases h
            · cases h; rename_i he; obtain ⟨h1, h2, h3⟩ := aggQ' he; exact ⟨h1, app h2 (by simp [Act.callOf]), same h3.1, .zero, h3.2⟩
      | report q => simp only [runFin] at h; cases h; exact ⟨rfl, by simp [Act.callOf], same rfl, .zero, rfl⟩
  | free own th =>
    simp only [exec, bind, Except.bind, Option.some.injEq] at h
    split at h
    · cases h
    · split at h
      · cases h
      · cases h; rename_i he; exact ⟨rfl, by simp, same (freeAll_pend _ he).1, .zero, (freeAll_pend _ he).2⟩
  | timer n =>
    simp only [exec, Option.some.injEq] at h
    unfold runTimer at h
    split at h <;> (try simp only [bind, Except.bind] at h)
    · split at h
      · cases h
      · cases h; rename_i he; obtain ⟨h1, h2, h3⟩ := aggC' he; exact ⟨h1, app h2 (by simp [Act.callOf]), same h3.1, .zero, h3.2⟩
    · split at h
      · cases h
      · cases h; rename_i he; obtain ⟨h1, h2, h3⟩ := aggQ' he; exact ⟨h1, app h2 (by simp [Act.callOf]), same h3.1, .zero, h3.2⟩
    · split at h
      · cases h
      · cases h; rename_i he; obtain ⟨h1, h2, h3⟩ := aggR' he; exact ⟨h1, app h2 (by simp [Act.callOf]), same h3.1, .zero, h3.2⟩
    · cases h; exact ⟨rfl, by simp, same rfl, .zero, rfl⟩
  | destroy n =>
    simp only [exec] at h
    unfold runDestroy at h
    split at h <;> (try simp only [bind, Except.bind, Option.some.injEq] at h)
    · split at h
      · cases h
      · cases h; rename_i he; obtain ⟨h1, h2, h3⟩ := aggC' he; exact ⟨h1, app h2 (by simp [Act.callOf]), same h3.1, .zero, h3.2⟩
    · split at h
      · cases h
      · cases h; rename_i he; obtain ⟨h1, h2, h3⟩ := aggQ' he; exact ⟨h1, app h2 (by simp [Act.callOf]), same h3.1, .zero, h3.2⟩
    · split at h
      · cases h
      · cases h; rename_i he; obtain ⟨h1, h2, h3⟩ := aggR' he; exact ⟨h1, app h2 (by simp [Act.callOf]), same h3.1, .zero, h3.2⟩
    · split at h <;> cases h <;> exact ⟨rfl, by simp [Act.callOf], same rfl, .zero, rfl⟩
    · split at h
      · cases h
      · cases h; exact ⟨rfl, by simp [Act.callOf], same rfl, .zero, rfl⟩
    all_goals first
      | (simp only [unset] at h
         split at h
         · cases h
         · cases h; exact ⟨rfl, by simp [Act.callOf], same rfl, .zero, rfl⟩)
      | (cases h; exact ⟨rfl, by simp, same rfl, .zero, rfl⟩)
  | flush c =>
    simp only [exec] at h
    split at h
    · cases h
    · cases h; exact ⟨rfl, by simp [Act.callOf], same rfl, .zero, rfl⟩
  | calling c =>
    simp only [exec] at h
    split at h
    · cases h; exact ⟨rfl, by simp [Act.callOf], same rfl, .zero, rfl⟩
    · simp only [this, Option.some.injEq] at h
      split at h
      · cases h
      · split at h
        · cases h
        · cases h
          refine ⟨rfl, by simp [Act.callOf], fun p hp => ?_, .zero, by cases c <;> rfl⟩
          cases c <;> (rcases List.mem_append.mp hp with hp | hp <;>
            first | exact .inl hp | (rw [List.mem_singleton] at hp; subst hp; exact .inr (by simp [Shaped, allocFlush])))
  | after k xs =>
    cases xs with
    | nil => simp only [exec] at h; cases h; exact ⟨rfl, by simp, same rfl, .zero, rfl⟩
    | cons x xs =>
      simp only [exec, this, Option.some.injEq] at h
      split at h
      · cases h
      · cases h; exact ⟨rfl, by simp [Act.callOf], same rfl, _, rfl⟩

/-- A call that waits for its done callback waits below all of its own code. -/
def Nested (s : Sys D) : Prop :=
  ∀ t ∈ s.threads, ∀ u a v i, t = u ++ a :: v → a.callOf = some i → i ∈ s.syncs → .wait i ∈ v

theorem Reach.nested (r : Reach K stops s) : Nested s := by
  induction r with
  | new h => intro t ht; cases ht
  | @step s s' r hs ih =>
    have f := r.inv.frames
    -- a thread that is put on top of an old one
    have push : ∀ {l1 l2 : List (List (Act D))} {t0 top : List (Act D)} {sy : List Nat}, s.threads = l1 ++ t0 :: l2 →
        (∀ i ∈ sy, i ∈ s.syncs ∨ i = s.c.calls) →
        (∀ u a v i, top = u ++ a :: v → a.callOf = some i → i ∈ sy → .wait i ∈ v ++ t0) →
        (∀ t ∈ s.threads, ∀ a ∈ t, a.callOf ≠ some s.c.calls) →
        ∀ t ∈ l1 ++ (top ++ t0) :: l2, ∀ u a v i, t = u ++ a :: v → a.callOf = some i → i ∈ sy → .wait i ∈ v := by
      intro l1 l2 t0 top sy hth hsy htop hfr t ht u a v i he hc hi
      have old : ∀ t' ∈ s.threads, ∀ u' v', t' = u' ++ a :: v' → .wait i ∈ v' := by
        intro t' ht' u' v' he'
        rcases hsy i hi with h | h
        · exact ih t' ht' u' a v' i he' hc h
        · subst h
          exact absurd hc (hfr t' ht' a (by rw [he']; simp))
      rcases List.mem_append.mp ht with h | h
      · exact old t (by rw [hth]; simp [h]) u v he
      · rcases List.mem_cons.mp h with h | h
        · subst h
          rcases List.append_eq_append_iff.mp he with ⟨x, hx1, hx2⟩ | ⟨x, hx1, hx2⟩
          · exact old t0 (by rw [hth]; simp) x v hx2
          · cases x with
            | nil =>
              rw [List.nil_append] at hx2
              exact old t0 (by rw [hth]; simp) [] v hx2.symm
            | cons y ys =>
              rw [List.cons_append] at hx2
              obtain ⟨rfl, rfl⟩ := List.cons.inj hx2
              exact htop u a ys i hx1 hc hi
        · exact old t (by rw [hth]; simp [h]) u v he
    -- the next call is not being worked on
    have fresh : ∀ t ∈ s.threads, ∀ a ∈ t, a.callOf ≠ some s.c.calls := by
      intro t ht a ha hc
      have hlt : ∀ {c b}, Ev.called s.c.calls c b ∈ s.c.trace → False := by
        intro c b he
        have h1 : s.c.calls ∈ s.c.trace.filterMap Ev.calledNo := List.mem_filterMap.mpr ⟨_, he, rfl⟩
        rw [r.inv.books.called] at h1
        exact Nat.lt_irrefl _ (List.mem_range.mp h1)
      have hm : a ∈ s.acts := List.mem_flatten.mpr ⟨t, ht, ha⟩
      have hop : ∀ {c u}, (s.c.calls, c, u) ∈ a.opens → False := by
        intro c u h
        obtain ⟨b, hb⟩ := r.inv.books.openOk _ _ _ (List.mem_flatMap.mpr ⟨a, hm, h⟩)
        exact hlt hb
      cases a <;> (try simp only [Act.callOf, Option.some.injEq, reduceCtorEq] at hc)
      · subst hc; exact hop (List.mem_singleton.mpr rfl)
      · subst hc; exact hop (List.mem_singleton.mpr rfl)
      · subst hc; exact hop (List.mem_singleton.mpr rfl)
      · subst hc
        obtain ⟨id, h⟩ := r.inv.acts _ hm
        obtain ⟨b, hb⟩ := r.inv.books.byOk _ _ _ h
        exact hlt hb
      · rename_i j c st reply via
        cases via with
        | none => cases hc; exact hop (List.mem_singleton.mpr rfl)
        | some id => cases hc
    cases hs with
    | @work l1 a t l2 s1 new hth hex =>
      obtain ⟨h1, h2, _⟩ := exec_callOf hex
      intro t' ht' u b v i he hc hi
      replace hi : i ∈ s.syncs := by rw [← h1]; exact hi
      rcases List.mem_append.mp ht' with h | h
      · exact ih t' (by rw [hth]; simp [h]) u b v i he hc hi
      · rcases List.mem_cons.mp h with h | h
        · subst h
          rcases List.append_eq_append_iff.mp he with ⟨x, hx1, hx2⟩ | ⟨x, hx1, hx2⟩
          · exact ih (a :: t) (by rw [hth]; simp) (a :: x) b v i (by rw [hx2]; rfl) hc hi
          · cases x with
            | nil =>
              rw [List.nil_append] at hx2
              exact ih (a :: t) (by rw [hth]; simp) [a] b v i (by rw [← hx2]; rfl) hc hi
            | cons y ys =>
              rw [List.cons_append] at hx2
              obtain ⟨rfl, rfl⟩ := List.cons.inj hx2
              have hb : b ∈ new := by rw [hx1]; simp
              rcases h2 b hb with h | h
              · rw [h] at hc; cases hc
              · exact List.mem_append_right _ (ih _ (by rw [hth]; simp) [] a t i rfl (h.symm.trans hc) hi)
        · exact ih t' (by rw [hth]; simp [h]) u b v i he hc hi
    | call c tr hth hf hd =>
      refine push (top := [_]) hth (fun i hi => .inl hi) ?_ fresh
      intro u a v i he hc hi
      cases u with
      | nil =>
        obtain ⟨rfl, rfl⟩ := List.cons.inj he
        cases hc
        exact absurd (f.lt _ hi) (Nat.lt_irrefl _)
      | cons => simp at he
    | sync c hth hf hd =>
      refine push (top := [_, .wait s.c.calls]) hth (fun i hi => ?_) ?_ fresh
      · rcases List.mem_append.mp hi with h | h
        · exact .inl h
        · exact .inr (List.mem_singleton.mp h)
      · intro u a v i he hc hi
        match u, he with
        | [], he =>
          obtain ⟨rfl, rfl⟩ := List.cons.inj he
          cases hc
          simp
        | [_], he =>
          simp only [List.cons_append, List.nil_append, List.cons.injEq] at he
          obtain ⟨_, rfl, _⟩ := he
          cases hc
        | _ :: _ :: _, he => simp at he
    | complete hth hf hta =>
      refine push (top := [_]) hth (fun i hi => .inl hi) ?_ fresh
      intro u a v i he hc hi
      cases u with
      | nil =>
        obtain ⟨rfl, rfl⟩ := List.cons.inj he
        cases hc
      | cons => simp at he
    | fire hth hf ht =>
      refine push (top := [_]) hth (fun i hi => .inl hi) ?_ fresh
      intro u a v i he hc hi
      cases u with
      | nil =>
        obtain ⟨rfl, rfl⟩ := List.cons.inj he
        cases hc
      | cons => simp at he
    | destroy hth hf hd ha =>
      refine push (top := [_]) hth (fun i hi => .inl hi) ?_ fresh
      intro u a v i he hc hi
      cases u with
      | nil =>
        obtain ⟨rfl, rfl⟩ := List.cons.inj he
        cases hc
      | cons => simp at he
    | spawn =>
      intro t ht u a v i he hc hi
      rcases List.mem_append.mp ht with h | h
      · exact ih t h u a v i he hc hi
      · rw [List.mem_singleton] at h
        subst h
        cases u <;> cases he

/-- The code of a call, other than counting after the transport was called, belongs to a call that is being worked on. -/
theorem worksOn_of_uses {a : Act D} {i : Nat} (h : a.usesResponse = some i ∨ a.usesRequest = some i) :
    a.worksOn = some i ∨ ∃ q x xs, a = .count i (.report q) (x :: xs) := by
  cases a with
  | count j c xs =>
    rcases h with h | h
    · cases h
    · cases c <;> simp only [Act.usesRequest, reduceCtorEq] at h
      cases xs with
      | nil => cases h
      | cons x xs => cases h; exact .inr ⟨_, _, _, rfl⟩
  | _ => left; simpa [Act.usesResponse, Act.usesRequest, Act.worksOn] using h

/-- No thread works on a call that was answered, and no transport holds it. -/
theorem answered_rest (r : Reach K stops s) {i : Nat} (h : 0 < dones i s.c.trace) :
    Rest i s ∧ ∀ p ∈ s.c.pend, p.by_ ≠ some i := by
  have b := r.inv.books
  have h1 := b.account i
  have h2 : issued i s.c.calls ≤ 1 := by unfold issued; split <;> omega
  constructor
  · intro t ht a ha hw
    have hm : a ∈ s.acts := List.mem_flatten.mpr ⟨t, ht, ha⟩
    have hop : ∀ {c u}, (i, c, u) ∈ a.opens → False := by
      intro c u hc
      have : 0 < openN i (opensOf s.acts) :=
        List.countP_pos_iff.mpr ⟨_, List.mem_flatMap.mpr ⟨a, hm, hc⟩, by simp⟩
      omega
    cases a <;> simp only [Act.worksOn, Option.some.injEq, reduceCtorEq] at hw
    · subst hw; exact hop (List.mem_singleton.mpr rfl)
    · subst hw; exact hop (List.mem_singleton.mpr rfl)
    · subst hw; exact hop (List.mem_singleton.mpr rfl)
    · subst hw; exact hop (List.mem_singleton.mpr rfl)
    · rename_i p an
      obtain ⟨id, by_, req, own⟩ := p
      simp only at hw
      subst hw
      exact hop (List.mem_singleton.mpr rfl)
  · intro p hp hb
    have hmem : (p.id, p.by_, p.req) ∈ outstanding s.c.trace := by
      rw [← b.pend]
      exact List.mem_map.mpr ⟨p, hp, rfl⟩
    have : 0 < outstandingFor i s.c.trace := by
      unfold outstandingFor
      exact List.countP_pos_iff.mpr ⟨_, hmem, by simp [hb]⟩
    omega

/-- C112: under every schedule, once the done callback of a call was invoked, nothing in the client uses its response object, no
transport that could write into it holds it, and nothing uses its request object, except that the operations of a report given
to a transport may still be counted.  Only that exception makes it partial. -/
theorem C112_not_after_done_partial (r : Reach K stops s) {i : Nat} (h : 0 < dones i s.c.trace) :
    (∀ p ∈ s.c.pend, p.by_ ≠ some i) ∧ ∀ t ∈ s.threads, ∀ a ∈ t, a.usesResponse ≠ some i ∧
      (a.usesRequest = some i → ∃ q xs, a = .count i (.report q) xs ∧ ∃ id, Ev.sent id (some i) (.report q) ∈ s.c.trace) := by
  obtain ⟨h1, h2⟩ := answered_rest r h
  refine ⟨h2, fun t ht a ha => ⟨fun hu => ?_, fun hu => ?_⟩⟩
  · rcases worksOn_of_uses (.inl hu) with hw | ⟨q, x, xs, rfl⟩
    · exact h1 t ht a ha hw
    · cases hu
  · rcases worksOn_of_uses (.inr hu) with hw | ⟨q, x, xs, rfl⟩
    · exact absurd hw (h1 t ht a ha)
    · exact ⟨q, _, rfl, r.inv.acts _ (List.mem_flatten.mpr ⟨t, ht, ha⟩)⟩

/-- C112: once a call without a done callback has returned, nothing in the client uses the objects of its caller, and no transport
holds them. -/
theorem C112_not_after_return (r : Reach K stops s) {i : Nat} {st : Status} (h : (i, st) ∈ s.returns) :
    (∀ p ∈ s.c.pend, p.by_ ≠ some i) ∧ ∀ t ∈ s.threads, ∀ a ∈ t, a.usesResponse ≠ some i ∧ a.usesRequest ≠ some i := by
  obtain ⟨hi, c, reply, via, hd⟩ := (C90_returns r).1 i st h
  have hpos : 0 < dones i s.c.trace := by
    unfold dones
    exact List.countP_pos_iff.mpr ⟨_, hd, by simp [Ev.doneNo]⟩
  obtain ⟨h1, h2⟩ := C112_not_after_done_partial r hpos
  refine ⟨h1, fun t ht a ha => ⟨(h2 t ht a ha).1, fun hu => ?_⟩⟩
  obtain ⟨q, xs, rfl, _⟩ := (h2 t ht a ha).2 hu
  obtain ⟨u, v, he⟩ := List.append_of_mem ha
  have hw := r.nested t ht u _ v i he rfl hi
  have h3 := C90_waits r hi
  rw [if_pos (List.mem_map.mpr ⟨_, h, rfl⟩)] at h3
  have h4 := List.countP_eq_zero.mp h3 (.wait i) (List.mem_flatten.mpr ⟨t, ht, by rw [he]; simp [hw]⟩)
  simp [Act.waitsFor] at h4

/-- A report of high importance. -/
def exUrgent : Call Int := .report ⟨[115], [{ Report.exNamed 1 2 with importance := 2 }], [49]⟩

/-- C112 is false for reports: a report is given to its transport, which completes it in place; the done callback has been invoked and
has returned, and the client is about to read the request to count its operations. -/
theorem C112_false_report : ∃ (s : Sys Int) (q : ReportRequest Int), Reach exK true s ∧
    s.c.trace = [.called 0 (.report q) true, .sent 0 (some 0) (.report q), .completed 0 (some 0) (.report q) exOk, .done 0 (.report q) .ok .none (some 0)] ∧
    ∃ x, Next (.count 0 (.report q) [x]) s ∧ (Act.count 0 (.report q) [x]).usesRequest = some 0 ∧ x.reportOperations = q.operations.length := by
  obtain ⟨s, r, h1, h2⟩ := schedule_case (K := exK) (stops := true)
    ([.spawn, .call 0 exUrgent .default] ++ steps 0 3 ++ [.complete 0 0 exOk] ++ steps 0 6)
    (fun s => s.c.trace = [.called 0 exUrgent true, .sent 0 (some 0) exUrgent, .completed 0 (some 0) exUrgent exOk, .done 0 exUrgent .ok .none (some 0)] ∧
      firstOf s 0 = some (.count 0 exUrgent [{ Stats.zero with reportOperations := 1 }])) (by decide +kernel)
  exact ⟨s, _, r, h1, _, firstOf_next h2, rfl, rfl⟩

/-! ### The objects given to transports -/

omit [DoubleOps D] in
theorem take_pend {c c' : Client D} {id : Nat} {a : Answer} {p : Pend D} (h : c.take id a = .ok (p, c')) :
    ∀ q ∈ c'.pend, q ∈ c.pend := by
  unfold Client.take at h
  split at h
  · cases h
  · cases h
    intro q hq
    exact List.mem_of_mem_filter hq

theorem Reach.shaped (r : Reach K stops s) : ∀ p ∈ s.c.pend, Shaped p := by
  induction r with
  | @new c h =>
    have h0 : c.pend = [] := by
      unfold Client.new at h
      simp only [bind, Except.bind] at h
      repeat' split at h
      all_goals first | (cases h; done) | (cases h; rfl)
    intro p hp
    rw [show (Sys.new c).c.pend = [] from h0] at hp
    cases hp
  | @step s s' r hs ih =>
    cases hs with
    | work hth hex =>
      intro p hp
      rcases (exec_callOf hex).2.2.1 p hp with h | h
      · exact ih p h
      · exact h
    | call c tr hth hf hd => exact ih
    | sync c hth hf hd => exact ih
    | complete hth hf hta => exact fun p hp => ih p (take_pend hta p hp)
    | fire hth hf ht => exact ih
    | destroy hth hf hd ha => exact ih
    | spawn => exact ih

/-- C113: under every schedule, also during and after the destruction of the client, what the client has allocated for a transport call is
alive until the transport completes it, and belongs to no other transport call: the response object if the call was made by a
flush callback, and a copy of the request if it is a check or quota request of the user or a quota request of the cache.  Missing:
other requests are not copied (`C113_false_flushed`, `C113_false_report`). -/
theorem C113_alive_partial (r : Reach K stops s) :
    (s.c.pend.flatMap (·.own)).Nodup ∧ ∀ p ∈ s.c.pend,
      (p.by_ = none → ∃ q ∈ p.own, ownResponse p = some q ∧ q ∈ s.c.heap) ∧
      ((∃ x, p.req = .quota x) ∨ (∃ i x, p.by_ = some i ∧ p.req = .check x) → ∃ q ∈ p.own, requestCopy p = some q ∧ q ∈ s.c.heap) ∧
      ∀ q, ownResponse p = some q → requestCopy p ≠ some q := by
  have b := r.inv.books
  have hn : (ownOf s.acts ++ s.c.pend.flatMap (·.own)).Nodup := b.heap.nodup_iff.mp b.nodup
  have hn2 := (List.nodup_append.mp hn).2.1
  have hh : ∀ p ∈ s.c.pend, ∀ q ∈ p.own, q ∈ s.c.heap := fun p hp q hq =>
    b.heap.mem_iff.mpr (List.mem_append_right _ (List.mem_flatMap.mpr ⟨p, hp, hq⟩))
  refine ⟨hn2, fun p hp => ?_⟩
  have hsh := r.shaped p hp
  have hh := hh p hp
  have hnd : p.own.Nodup := by
    have := List.nodup_flatMap.mp hn2
    exact this.1 p hp
  obtain ⟨id, by_, req, own⟩ := p
  simp only at hh hnd
  cases by_ <;> cases req <;> simp only [Shaped] at hsh
  all_goals
    first
    | (obtain ⟨x, rfl⟩ := List.length_eq_one_iff.mp hsh
       simp [ownResponse, requestCopy, hh x (by simp)])
    | (obtain ⟨x, y, rfl⟩ := List.length_eq_two.mp hsh
       have hx := hh x (by simp)
       have hy := hh y (by simp)
       simp at hnd
       simp [ownResponse, requestCopy, hx, hy, hnd])
    | (rw [List.length_eq_zero_iff] at hsh
       subst hsh
       simp [ownResponse, requestCopy])

/-- C113 is false for checks and reports sent by a flush callback: the timer has flushed an operation, and a check; no thread is in the
client, so that the buffer the requests were in is gone, the transports have not completed the calls, and the heap only has their response objects. -/
theorem C113_false_flushed : ∃ s : Sys Int, Reach exKJ true s ∧ Quiet s ∧ s.c.alive = true ∧
    ∃ p1 p2 q1 q2, s.c.pend = [p1, p2] ∧ (∃ x, p1.req = .check x) ∧ (∃ x, p2.req = .report x) ∧
      requestCopy p1 = none ∧ requestCopy p2 = none ∧ ownResponse p1 = some q1 ∧ ownResponse p2 = some q2 ∧ s.c.heap.Perm [q1, q2] := by
  obtain ⟨s, r, h1, h2, h3, h4, h5⟩ := schedule_case (K := exKJ) (stops := true)
    ([.spawn, .call 0 (exCheck 1 5) .default] ++ steps 0 6 ++ [.complete 0 0 exOk] ++ steps 0 4 ++ [.call 0 (exCheck 1 6) .default] ++ steps 0 5 ++
      [.call 0 (exReport 1 2) .default] ++ steps 0 5 ++ [.fire 0] ++ steps 0 15)
    (fun s => s.threads = [[]] ∧ s.c.alive = true ∧ s.c.pend.map (fun p => (p.id, p.by_, p.own)) = [(1, none, [1]), (2, none, [2])] ∧
      s.c.pend.map (fun p => kind p.req) = [.check, .report] ∧ s.c.heap = [1, 2]) (by decide +kernel)
  refine ⟨s, r, ?_, h2, ?_⟩
  · intro t ht
    rw [h1] at ht
    simpa using ht
  · match hp : s.c.pend, h3, h4 with
    | [⟨id1, by1, req1, own1⟩, ⟨id2, by2, req2, own2⟩], h3, h4 =>
      simp only [List.map_cons, List.map_nil, List.cons.injEq, Prod.mk.injEq, and_true] at h3 h4
      obtain ⟨⟨rfl, rfl, rfl⟩, rfl, rfl, rfl⟩ := h3
      obtain ⟨h6, h7⟩ := h4
      cases req1 <;> cases h6
      cases req2 <;> cases h7
      exact ⟨_, _, 1, 2, rfl, ⟨_, rfl⟩, ⟨_, rfl⟩, rfl, rfl, rfl, rfl, by rw [h5]⟩

/-- C113 is false for reports of the user: `Report` has returned, the transport has not completed the call, and there is no copy of the
request. -/
theorem C113_false_report : ∃ (s : Sys Int) (p : Pend Int), Reach exK true s ∧ Quiet s ∧ s.c.pend = [p] ∧ p.by_ = some 0 ∧
    (∃ x, p.req = .report x) ∧ s.c.heap = [] := by
  obtain ⟨s, r, h⟩ := schedule_case (K := exK) (stops := true) ([.spawn, .call 0 exUrgent .default] ++ steps 0 7)
    (fun s => s.threads = [[]] ∧ s.c.pend = [⟨0, some 0, exUrgent, []⟩] ∧ s.c.heap = []) (by decide +kernel)
  refine ⟨s, _, r, ?_, h.2.1, rfl, ⟨_, rfl⟩, h.2.2⟩
  intro t ht
  rw [h.1] at ht
  simpa using ht

/-- C112 and C113 on a schedule: a check without a done callback has returned, the done callbacks of two other calls were invoked; then a
check of the user and a quota request of the cache are with their transports. -/
example : ∃ s : Sys Int, Reach exK true s ∧ (0, .ok) ∈ s.returns ∧ 0 < dones 1 s.c.trace ∧ 0 < dones 2 s.c.trace ∧
    s.c.pend.map (fun p => (p.by_, kind p.req, p.own)) = [(some 3, .check, [1]), (none, .quota, [2, 3])] := by
  obtain ⟨s, r, h⟩ := schedule_case (K := exK) (stops := true)
    (exServed ++ [.call 1 (exCheck 3 0) .default] ++ steps 1 6 ++ [.call 1 (exQuota 2 5) .default] ++ steps 1 6)
    (fun s => (0, .ok) ∈ s.returns ∧ 0 < dones 1 s.c.trace ∧ 0 < dones 2 s.c.trace ∧
      s.c.pend.map (fun p => (p.by_, kind p.req, p.own)) = [(some 3, .check, [1]), (none, .quota, [2, 3])]) (by decide +kernel)
  exact ⟨s, r, h⟩

end Verif.Threads
