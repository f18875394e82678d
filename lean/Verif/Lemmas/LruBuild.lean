import Verif.Lemmas.LruAgain
/-
A debug build that does not stop at an assertion does what the release build does.
-/
namespace Verif.Lru

variable {σ β : Type}

/-- The same environment without assertions. -/
abbrev Env.rel (E : Env) : Env := { E with dbg := false }

def Imp {α : Type} (x y : Res α) : Prop := ∀ r, x = .ok r → y = .ok r

theorem Imp.refl {α : Type} (x : Res α) : Imp x x := fun _ h => h

theorem Imp.error {α : Type} (e : Fault) (y : Res α) : Imp (.error e) y := by
  intro r h; cases h

theorem Imp.bind {α γ : Type} {x y : Res α} {f g : α → Res γ} (h : Imp x y)
    (hf : ∀ a, Imp (f a) (g a)) : Imp (x >>= f) (y >>= g) := by
  intro r hr
  cases x with
  | error e => cases hr
  | ok a =>
    rw [h a rfl]
    exact hf a r hr

theorem Imp.map {α γ : Type} {x y : Res α} (f : α → γ) (h : Imp x y) :
    Imp (x.map f) (y.map f) := by
  intro r hr
  cases x with
  | error e => cases hr
  | ok a => rw [h a rfl]; exact hr

theorem Imp.ite {α : Type} {c : Prop} [Decidable c] {x y x' y' : Res α} (h1 : Imp x x')
    (h2 : Imp y y') : Imp (if c then x else y) (if c then x' else y') := by
  split
  · exact h1
  · exact h2

theorem Imp.foldlM {α γ : Type} {f g : α → γ → Res α} (h : ∀ a c, Imp (f a c) (g a c))
    (l : List γ) : ∀ a, Imp (l.foldlM f a) (l.foldlM g a) := by
  induction l with
  | nil => intro a; exact Imp.refl _
  | cons c l ih => intro a; exact Imp.bind (h a c) ih

theorem assertThat_imp (E : Env) (p : Prop) [Decidable p] :
    Imp (assertThat E p) (assertThat E.rel p) := by
  intro r h
  simp [assertThat]

theorem discard_imp (E : Env) (del : Deleter σ β) (e : Elem β) (w : World σ β) :
    Imp (discard E del e w) (discard E.rel del e w) :=
  Imp.bind (assertThat_imp E _) (fun _ => Imp.refl _)

theorem removeElem_imp (E : Env) (del : Deleter σ β) (e : Elem β) (w : World σ β) :
    Imp (removeElem E del e w) (removeElem E.rel del e w) :=
  Imp.ite (Imp.refl _) (discard_imp E del e w)

theorem remove_imp (E : Env) (del : Deleter σ β) (k : Bytes) (w : World σ β) :
    Imp (remove E del k w) (remove E.rel del k w) := by
  unfold remove
  split
  · exact Imp.refl _
  · exact removeElem_imp E del _ _

theorem gcStep_imp (E : Env) (del : Deleter σ β) (e : Elem β) (w : World σ β) :
    Imp (gcStep E del e w) (gcStep E.rel del e w) := by
  unfold gcStep
  refine Imp.ite ?_ (Imp.refl _)
  split
  · exact Imp.error _ _
  · exact Imp.bind (assertThat_imp E _) (fun _ => discard_imp E del _ _)

theorem gcLoop_imp (E : Env) (del : Deleter σ β) (n : Nat) :
    ∀ (c : Option Nat) (w : World σ β), Imp (gcLoop E del n c w) (gcLoop E.rel del n c w) := by
  induction n with
  | zero =>
    intro c w
    cases c with
    | none => exact Imp.refl _
    | some i => exact Imp.refl _
  | succ n ih =>
    intro c w
    cases c with
    | none => exact Imp.refl _
    | some i =>
      unfold gcLoop
      refine Imp.ite ?_ (Imp.refl _)
      split
      · exact Imp.refl _
      · exact Imp.ite (Imp.bind (gcStep_imp E del _ _) (fun _ => ih _ _)) (Imp.refl _)

theorem garbageCollect_imp (E : Env) (del : Deleter σ β) (w : World σ β) :
    Imp (garbageCollect E del w) (garbageCollect E.rel del w) := gcLoop_imp E del _ _ _

theorem idleLoop_imp (E : Env) (del : Deleter σ β) (th : Int) (n : Nat) :
    ∀ (c : Option Nat) (last : Int) (w : World σ β),
      Imp (idleLoop E del th n c last w) (idleLoop E.rel del th n c last w) := by
  induction n with
  | zero =>
    intro c last w
    cases c with
    | none => exact Imp.refl _
    | some i => exact Imp.refl _
  | succ n ih =>
    intro c last w
    cases c with
    | none => exact Imp.refl _
    | some i =>
      unfold idleLoop
      split
      · exact Imp.refl _
      · refine Imp.ite (Imp.ite ?_ (Imp.refl _)) (Imp.refl _)
        refine Imp.bind (assertThat_imp E _) (fun _ => ?_)
        refine Imp.bind (assertThat_imp E _) (fun _ => ?_)
        exact Imp.bind (remove_imp E del _ _) (fun _ => ih _ _ _)

theorem discardIdle_imp (E : Env) (del : Deleter σ β) (m : Int) (w : World σ β) :
    Imp (discardIdle E del m w) (discardIdle E.rel del m w) :=
  Imp.ite (Imp.refl _) (idleLoop_imp E del _ _ _ _ _)

theorem removeExpired_imp (E : Env) (del : Deleter σ β) (w : World σ β) :
    Imp (removeExpired E del w) (removeExpired E.rel del w) :=
  Imp.ite (discardIdle_imp E del _ _) (Imp.refl _)

theorem setTimeout_imp (E : Env) (del : Deleter σ β) (c : Option Int) (lru : Bool)
    (w : World σ β) : Imp (setTimeout E del c lru w) (setTimeout E.rel del c lru w) := by
  unfold setTimeout
  split
  · exact Imp.refl _
  · exact Imp.ite (Imp.bind (assertThat_imp E _) (fun _ => Imp.refl _)) (discardIdle_imp E del _ _)

theorem lookup_imp (E : Env) (del : Deleter σ β) (upd : Bool) (k : Bytes) (w : World σ β) :
    Imp (lookup E del upd k w) (lookup E.rel del upd k w) :=
  Imp.bind (removeExpired_imp E del _) (fun _ => Imp.refl _)

theorem releaseDeferred_imp (E : Env) (del : Deleter σ β) (e : Elem β) (w : World σ β) :
    Imp (releaseDeferred E del e w) (releaseDeferred E.rel del e w) :=
  Imp.bind (assertThat_imp E _) (fun _ => Imp.ite (discard_imp E del _ _) (Imp.refl _))

theorem releaseTable_imp (E : Env) (del : Deleter σ β) (upd : Bool) (k : Bytes) (p : Nat)
    (e : Elem β) (w : World σ β) :
    Imp (releaseTable E del upd k p e w) (releaseTable E.rel del upd k p e w) := by
  refine Imp.bind (assertThat_imp E _) (fun _ => ?_)
  refine Imp.bind (assertThat_imp E _) (fun _ => ?_)
  refine Imp.ite ?_ (Imp.refl _)
  have hjp : ∀ w2 : World σ β, Imp (if w2.cache.overfull then remove E del k w2 else .ok w2)
      (if w2.cache.overfull then remove E.rel del k w2 else .ok w2) :=
    fun w2 => Imp.ite (remove_imp E del _ _) (Imp.refl _)
  exact Imp.ite (Imp.bind (Imp.refl _) (fun _ => hjp _)) (Imp.bind (Imp.refl _) (fun _ => hjp _))

theorem release_imp (E : Env) (del : Deleter σ β) (upd : Bool) (k : Bytes) (p : Nat)
    (w : World σ β) : Imp (release E del upd k p w) (release E.rel del upd k p w) := by
  unfold release
  split
  · exact releaseDeferred_imp E del _ _
  · split
    · exact Imp.error _ _
    · exact releaseTable_imp E del _ _ _ _ _

theorem insertPinned_imp (E : Env) (del : Deleter σ β) (k : Bytes) (p : Nat) (v : β) (u : Nat)
    (w : World σ β) : Imp (insertPinned E del k p v u w) (insertPinned E.rel del k p v u w) :=
  Imp.bind (remove_imp E del _ _) (fun _ => garbageCollect_imp E del _)

theorem unpinnedLoop_imp (E : Env) (del : Deleter σ β) (n : Nat) :
    ∀ (c : Option Nat) (w : World σ β),
      Imp (unpinnedLoop E del n c w) (unpinnedLoop E.rel del n c w) := by
  induction n with
  | zero =>
    intro c w
    cases c with
    | none => exact Imp.refl _
    | some i => exact Imp.refl _
  | succ n ih =>
    intro c w
    cases c with
    | none => exact Imp.refl _
    | some i =>
      unfold unpinnedLoop
      split
      · exact Imp.refl _
      · refine Imp.ite ?_ (Imp.refl _)
        exact Imp.ite (Imp.bind (remove_imp E del _ _) (fun _ => ih _ _))
          (Imp.bind (Imp.refl _) (fun _ => ih _ _))

theorem removeAll_imp (E : Env) (del : Deleter σ β) (w : World σ β) :
    Imp (removeAll E del w) (removeAll E.rel del w) :=
  Imp.bind (Imp.foldlM (fun w e => removeElem_imp E del e w) _ _) (fun _ => Imp.refl _)

theorem clear_imp (E : Env) (del : Deleter σ β) (w : World σ β) :
    Imp (clear E del w) (clear E.rel del w) :=
  Imp.bind (Imp.foldlM (fun w e => discard_imp E del e w) _ _)
    (fun _ => Imp.bind (assertThat_imp E _) (fun _ => Imp.refl _))

theorem step_imp (E : Env) (c : Call β) (w : World (List Nat) β) :
    Imp (step E c w) (step E.rel c w) := by
  cases c with
  | insertPinned k p v u => exact Imp.map _ (insertPinned_imp E _ _ _ _ _ _)
  | lookup upd k => exact Imp.map _ (lookup_imp E _ _ _ _)
  | release upd k p => exact Imp.map _ (release_imp E _ _ _ _ _)
  | remove k => exact Imp.map _ (remove_imp E _ _ _)
  | removeAll => exact Imp.map _ (removeAll_imp E _ _)
  | removeUnpinned => exact Imp.map _ (unpinnedLoop_imp E _ _ _ _)
  | clear => exact Imp.map _ (clear_imp E _ _)
  | removeExpired => exact Imp.map _ (removeExpired_imp E _ _)
  | updateSize k p u => exact Imp.map _ (garbageCollect_imp E _ _)
  | setMaxSize n => exact Imp.map _ (garbageCollect_imp E _ _)
  | write p v => exact Imp.refl _

theorem Reach.rel {E : Env} {cfg : Config} {h : Hist β} {w : World (List Nat) β}
    (r : Reach E cfg h w) : Reach E.rel cfg h w := by
  induction r with
  | init hi => exact .init (setTimeout_imp E _ _ _ _ _ hi)
  | call _ hl hs ih => exact .call ih hl (step_imp E _ _ _ hs)
  | limit _ hl hx hk hs ih => exact .limit ih hl hx hk (setTimeout_imp E _ _ _ _ _ hs)
  | again _ hp hm hx hs ih => exact .again ih hp hm hx (setTimeout_imp E _ _ _ _ _ hs)

/-- The invariant of all reachable caches, in any build and with any clock. -/
theorem Reach.good {E : Env} {cfg : Config} {h : Hist β} {w : World (List Nat) β}
    (r : Reach E cfg h w) : Good E cfg h w := by
  have key : ∀ {cfg h w}, Reach E.rel cfg h w → Good (β := β) E.rel cfg h w := by
    intro cfg h w r
    induction r with
    | @init cfg _ hi =>
      obtain ⟨w', h1, g⟩ := init_good (β := β) E.rel cfg
      rw [h1] at hi; cases hi; exact g
    | limit _ hl _ _ hs ih =>
      obtain ⟨w', h1, g⟩ := limit_good (Or.inl rfl) ih hl
      rw [h1] at hs; cases hs; exact g
    | again _ hp hm _ hs ih =>
      obtain ⟨w', h1, g, _⟩ := again_good (Or.inl rfl) ih hp hm
      rw [h1] at hs; cases hs; exact g
    | call _ hl hs ih =>
      obtain ⟨w', out, h1, g⟩ := step_good (Or.inl rfl) ih _ hl
      rw [h1] at hs; cases hs; exact g
  have g := key r.rel
  exact ⟨g.core, g.cap, g.idle, fun m => ⟨(g.times m).order, (g.times m).range⟩⟩

end Verif.Lru
