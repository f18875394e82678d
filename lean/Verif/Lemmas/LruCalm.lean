import Verif.Lemmas.LruBuild
/-
The cache itself does no arithmetic that overflows: a call overflows only if the deleter does.
-/
namespace Verif.Lru

variable {σ β : Type}

def Calm {α : Type} (x : Res α) : Prop := x ≠ .error .signedOverflow

theorem Calm.ok {α : Type} (a : α) : Calm (.ok a : Res α) := by intro h; cases h

theorem Calm.bind {α γ : Type} {x : Res α} {f : α → Res γ} (h : Calm x) (hf : ∀ a, Calm (f a)) : Calm (x >>= f) := by
  intro hr
  cases x with
  | error e => exact h (by simpa [Bind.bind, Except.bind] using hr)
  | ok a => exact hf a hr

theorem Calm.ite {α : Type} {c : Prop} [Decidable c] {x y : Res α} (h1 : Calm x) (h2 : Calm y) : Calm (if c then x else y) := by
  split
  · exact h1
  · exact h2

theorem Calm.foldlM {α γ : Type} {f : α → γ → Res α} (h : ∀ a c, Calm (f a c)) (l : List γ) : ∀ a, Calm (l.foldlM f a) := by
  induction l with
  | nil => intro a; exact Calm.ok _
  | cons c l ih => intro a; exact Calm.bind (h a c) ih

theorem Calm.fault {α : Type} {c : Prop} [Decidable c] : Calm (.error (if c then .assertFail else .useAfterFree) : Res α) := by
  split <;> intro h <;> cases h

theorem Calm.uaf {α : Type} : Calm (.error .useAfterFree : Res α) := by intro h; cases h

theorem assertThat_calm (E : Env) (p : Prop) [Decidable p] : Calm (assertThat E p) := by
  unfold assertThat
  split <;> intro h <;> cases h

theorem linkFront_calm (e : Elem β) (c : Cache β) : Calm (linkFront e c) := by
  unfold linkFront
  split <;> intro h <;> cases h

variable {E : Env} {del : Deleter σ β} (hd : ∀ e w, Calm (del e w))
include hd

theorem discard_calm (e : Elem β) (w : World σ β) : Calm (discard E del e w) :=
  Calm.bind (assertThat_calm E _) (fun _ => hd _ _)

theorem removeElem_calm (e : Elem β) (w : World σ β) : Calm (removeElem E del e w) :=
  Calm.ite (Calm.ok _) (discard_calm hd e w)

theorem remove_calm (k : Bytes) (w : World σ β) : Calm (remove E del k w) := by
  unfold remove
  split
  · exact Calm.ok _
  · exact removeElem_calm hd _ _

theorem gcStep_calm (e : Elem β) (w : World σ β) : Calm (gcStep E del e w) := by
  unfold gcStep
  refine Calm.ite ?_ (Calm.ok _)
  split
  · exact Calm.fault
  · exact Calm.bind (assertThat_calm E _) (fun _ => discard_calm hd _ _)

theorem gcLoop_calm (n : Nat) : ∀ (c : Option Nat) (w : World σ β), Calm (gcLoop E del n c w) := by
  induction n with
  | zero =>
    intro c w
    cases c with
    | none => exact Calm.ok _
    | some i => unfold gcLoop; first | exact Calm.ok _ | (intro h; cases h) | (refine Calm.ite ?_ (Calm.ok _); intro h; cases h)
  | succ n ih =>
    intro c w
    cases c with
    | none => exact Calm.ok _
    | some i =>
      unfold gcLoop
      refine Calm.ite ?_ (Calm.ok _)
      split
      · intro h; cases h
      · exact Calm.ite (Calm.bind (gcStep_calm hd _ _) (fun _ => ih _ _)) Calm.uaf

theorem garbageCollect_calm (w : World σ β) : Calm (garbageCollect E del w) := gcLoop_calm hd _ _ _

theorem idleLoop_calm (th : Int) (n : Nat) :
    ∀ (c : Option Nat) (last : Int) (w : World σ β), Calm (idleLoop E del th n c last w) := by
  induction n with
  | zero =>
    intro c last w
    cases c with
    | none => exact Calm.ok _
    | some i => unfold idleLoop; first | exact Calm.ok _ | (intro h; cases h)
  | succ n ih =>
    intro c last w
    cases c with
    | none => exact Calm.ok _
    | some i =>
      unfold idleLoop
      split
      · intro h; cases h
      · refine Calm.ite (Calm.ite ?_ (Calm.ok _)) Calm.uaf
        refine Calm.bind (assertThat_calm E _) (fun _ => ?_)
        refine Calm.bind (assertThat_calm E _) (fun _ => ?_)
        exact Calm.bind (remove_calm hd _ _) (fun _ => ih _ _ _)

theorem discardIdle_calm (m : Int) (w : World σ β) : Calm (discardIdle E del m w) :=
  Calm.ite (Calm.ok _) (idleLoop_calm hd _ _ _ _ _)

theorem removeExpired_calm (w : World σ β) : Calm (removeExpired E del w) :=
  Calm.ite (discardIdle_calm hd _ _) (Calm.ok _)

theorem lookup_calm (upd : Bool) (k : Bytes) (w : World σ β) : Calm (lookup E del upd k w) := by
  refine Calm.bind (removeExpired_calm hd _) (fun _ => ?_)
  exact Calm.ok _

theorem releaseDeferred_calm (e : Elem β) (w : World σ β) : Calm (releaseDeferred E del e w) :=
  Calm.bind (assertThat_calm E _) (fun _ => Calm.ite (discard_calm hd _ _) (Calm.ok _))

theorem releaseTable_calm (upd : Bool) (k : Bytes) (p : Nat) (e : Elem β) (w : World σ β) :
    Calm (releaseTable E del upd k p e w) := by
  refine Calm.bind (assertThat_calm E _) (fun _ => ?_)
  refine Calm.bind (assertThat_calm E _) (fun _ => ?_)
  refine Calm.ite ?_ (Calm.ok _)
  have hjp : ∀ w2 : World σ β, Calm (if w2.cache.overfull then remove E del k w2 else .ok w2) :=
    fun w2 => Calm.ite (remove_calm hd _ _) (Calm.ok _)
  exact Calm.ite (Calm.bind (linkFront_calm _ _) (fun _ => hjp _)) (Calm.bind (Calm.ok _) (fun _ => hjp _))

theorem release_calm (upd : Bool) (k : Bytes) (p : Nat) (w : World σ β) : Calm (release E del upd k p w) := by
  unfold release
  split
  · exact releaseDeferred_calm hd _ _
  · split
    · exact Calm.fault
    · exact releaseTable_calm hd _ _ _ _ _

theorem insertPinned_calm (k : Bytes) (p : Nat) (v : β) (u : Nat) (w : World σ β) : Calm (insertPinned E del k p v u w) :=
  Calm.bind (remove_calm hd _ _) (fun _ => garbageCollect_calm hd _)

theorem insert_calm (k : Bytes) (p : Nat) (v : β) (u : Nat) (w : World σ β) : Calm (insert E del k p v u w) :=
  Calm.bind (insertPinned_calm hd _ _ _ _ _) (fun _ => release_calm hd _ _ _ _)

theorem removeAll_calm (w : World σ β) : Calm (removeAll E del w) :=
  Calm.bind (Calm.foldlM (fun w e => removeElem_calm hd e w) _ _) (fun _ => Calm.ok _)

end Verif.Lru
