import Verif.Model.LruPointers
import Mathlib.Data.List.Cycle
/-
Circular doubly linked lists: what `Link` and `Unlink` do to them.
-/
namespace Verif.Lru.Ptr

variable {σ β : Type}

/-- Neighbours on a chain: `x->next == y` and `y->prev == x`. -/
def Adj (nx pv : Loc → Option Loc) (x y : Loc) : Prop := nx x = some y ∧ pv y = some x

/-- The elements of `l`, in this order, form a circular doubly linked list. -/
def Ring (nx pv : Loc → Option Loc) (l : List Loc) : Prop := Cycle.Chain (Adj nx pv) (l : Cycle Loc)

theorem ring_cons {nx pv : Loc → Option Loc} {a : Loc} {l : List Loc} :
    Ring nx pv (a :: l) ↔ List.IsChain (Adj nx pv) (a :: (l ++ [a])) := Cycle.chain_coe_cons _ _ _

theorem ring_rotate {nx pv : Loc → Option Loc} {a b : List Loc} :
    Ring nx pv (a ++ b) ↔ Ring nx pv (b ++ a) := by
  unfold Ring
  rw [Cycle.coe_eq_coe.mpr (List.isRotated_append : (a ++ b) ~r (b ++ a))]

theorem chain_congr {nx pv nx' pv' : Loc → Option Loc} : ∀ {a : Loc} {l : List Loc},
    (∀ x ∈ (a :: l).dropLast, nx' x = nx x) → (∀ x ∈ l, pv' x = pv x) →
    List.IsChain (Adj nx pv) (a :: l) → List.IsChain (Adj nx' pv') (a :: l) := by
  intro a l
  induction l generalizing a with
  | nil => intro _ _ _; exact List.isChain_singleton _
  | cons b l ih =>
    intro hn hp hc
    rw [List.isChain_cons_cons] at hc ⊢
    simp only [List.dropLast_cons_cons, List.mem_cons, forall_eq_or_imp] at hn hp
    refine ⟨⟨by rw [hn.1]; exact hc.1.1, by rw [hp.1]; exact hc.1.2⟩, ih hn.2 hp.2 hc.2⟩

theorem ring_congr {nx pv nx' pv' : Loc → Option Loc} {l : List Loc}
    (hn : ∀ x ∈ l, nx' x = nx x) (hp : ∀ x ∈ l, pv' x = pv x) (h : Ring nx pv l) :
    Ring nx' pv' l := by
  cases l with
  | nil => exact Cycle.Chain.nil _
  | cons a l =>
    rw [ring_cons] at h ⊢
    refine chain_congr ?_ ?_ h
    · intro x hx
      apply hn
      have : (a :: (l ++ [a])).dropLast = a :: l := by
        rw [← List.cons_append, List.dropLast_concat]
      rwa [this] at hx
    · intro x hx
      apply hp
      simp at hx ⊢; tauto

/-- The neighbours of an element. -/
theorem ring_mid {nx pv : Loc → Option Loc} {A B : List Loc} {x : Loc} (h : Ring nx pv (A ++ x :: B)) :
    nx x = (B ++ A ++ [x]).head? ∧ pv x = (x :: (B ++ A)).getLast? := by
  rw [ring_rotate, List.cons_append] at h
  generalize B ++ A = l at h ⊢
  constructor
  · rw [ring_cons] at h
    cases l with
    | nil => simpa using (List.isChain_pair.mp h).1
    | cons b l => simpa using (List.isChain_cons_cons.mp h).1.1
  · unfold Ring at h
    rw [Cycle.chain_ne_nil _ (by simp), List.isChain_cons_cons] at h
    rw [List.getLast?_eq_some_getLast (by simp)]
    exact h.1.2

/-- Taking the first element off a ring. -/
theorem ring_tail {nx pv nx' pv' : Loc → Option Loc} {x f : Loc} {m : List Loc}
    (h : Ring nx pv (x :: f :: m)) (hd : (x :: f :: m).Nodup)
    (hn : ∀ y ∈ f :: m, y ≠ (f :: m).getLast (by simp) → nx' y = nx y)
    (hp : ∀ y ∈ m, pv' y = pv y)
    (hg : nx' ((f :: m).getLast (by simp)) = some f)
    (hf : pv' f = some ((f :: m).getLast (by simp))) : Ring nx' pv' (f :: m) := by
  unfold Ring
  rw [Cycle.chain_ne_nil _ (by simp), List.isChain_cons_cons]
  refine ⟨⟨hg, hf⟩, ?_⟩
  rw [ring_cons, List.cons_append, List.isChain_cons_cons] at h
  have hc : List.IsChain (Adj nx pv) (f :: m) := by
    have := h.2
    rw [← List.cons_append] at this
    exact this.left_of_append
  refine chain_congr ?_ hp hc
  intro y hy
  refine hn y (List.mem_of_mem_dropLast hy) ?_
  rintro rfl
  have hnd : (f :: m).Nodup := (List.nodup_cons.mp hd).2
  rw [← List.dropLast_append_getLast (l := f :: m) (by simp)] at hnd
  exact (List.nodup_append.mp hnd).2.2 _ hy _ (by simp) rfl

/-- Putting an element behind the first one of a ring. -/
theorem ring_insert {nx pv nx' pv' : Loc → Option Loc} {a x y : Loc} {l : List Loc}
    (h : Ring nx pv (a :: l)) (hd : (a :: l).Nodup) (hy : (l ++ [a]).head? = some y)
    (hn : ∀ z ∈ l, nx' z = nx z) (hp : ∀ z ∈ a :: l, z ≠ y → pv' z = pv z)
    (h1 : nx' a = some x) (h2 : pv' x = some a) (h3 : nx' x = some y) (h4 : pv' y = some x) :
    Ring nx' pv' (a :: x :: l) := by
  rw [ring_cons, List.cons_append, List.isChain_cons_cons]
  refine ⟨⟨h1, h2⟩, ?_⟩
  rw [ring_cons] at h
  cases l with
  | nil =>
    simp only [List.nil_append, List.head?_cons, Option.some.injEq] at hy
    subst hy
    exact List.isChain_pair.mpr ⟨h3, h4⟩
  | cons b l =>
    simp only [List.cons_append, List.head?_cons, Option.some.injEq] at hy
    subst hy
    rw [List.cons_append] at h ⊢
    rw [List.isChain_cons_cons] at h ⊢
    refine ⟨⟨h3, h4⟩, chain_congr ?_ ?_ h.2⟩
    · intro z hz
      rw [← List.cons_append, List.dropLast_concat] at hz
      exact hn z hz
    · intro z hz
      have hz' : z ∈ l ∨ z = a := by simpa using hz
      apply hp z (by simp; tauto)
      rintro rfl
      simp only [List.nodup_cons, List.mem_cons] at hd
      rcases hz' with hz' | rfl
      · exact hd.2.1 hz'
      · exact hd.1 (Or.inl rfl)

/-- The elements of a ring from the first one backwards. -/
theorem ring_back {nx pv : Loc → Option Loc} {a : Loc} {l : List Loc} (h : Ring nx pv (a :: l)) :
    List.IsChain (fun x y => pv x = some y) (a :: (l.reverse ++ [a])) := by
  rw [ring_cons] at h
  have h1 : List.IsChain (fun x y => pv y = some x) (a :: (l ++ [a])) := h.imp (fun _ _ h => h.2)
  have h2 := List.isChain_reverse.mpr h1
  simpa using h2

/-! ### The statements -/

/-- A pointer that may be followed. -/
def Alive (p : PCache β) : Loc → Prop
  | .head => True
  | .elem i => (p.cell i).isSome

theorem deref_alive {p : PCache β} {x : Loc} (h : Alive p x) : deref (some x) p = .ok x := by
  cases x with
  | head => rfl
  | elem i => simp only [deref]; exact if_pos h

/-- `deref` looks at the existence of elements only. -/
def derefC (x : Option Loc) (cell : Nat → Option (Cell β)) : Res Loc :=
  match x with
  | none => .error .useAfterFree
  | some .head => .ok .head
  | some (.elem i) => if (cell i).isSome then .ok (.elem i) else .error .useAfterFree

theorem deref_eq (x : Option Loc) (p : PCache β) : deref x p = derefC x p.cell := rfl

/-- `Unlink` on an element that is not on a chain. -/
theorem unlink_off (E : Env) {p : PCache β} {i : Nat} (hi : (p.cell i).isSome)
    (hn : p.next (.elem i) = none) (hp : p.prev (.elem i) = none) : unlink E i p = .ok p := by
  have ha : Alive p (.elem i) := hi
  simp [unlink, isLinked, getNext, getPrev, deref_alive ha, hn, hp, bind, Except.bind, assertThat]

/-- `Unlink` on an element between `g` and `f`. -/
theorem unlink_on (E : Env) {p : PCache β} {i : Nat} {f g : Loc} (hi : (p.cell i).isSome)
    (hn : p.next (.elem i) = some f) (hp : p.prev (.elem i) = some g)
    (hf : Alive p f) (hg : Alive p g) :
    unlink E i p = .ok { p with
      next := Function.update (Function.update p.next g (some f)) (.elem i) none,
      prev := Function.update (Function.update p.prev f (some g)) (.elem i) none } := by
  have ha : Alive p (.elem i) := hi
  have e1 : isLinked E i p = .ok true := by
    simp [isLinked, getNext, getPrev, deref_alive ha, hn, hp, bind, Except.bind, assertThat]
  have a1 := deref_alive ha; have a2 := deref_alive hf; have a3 := deref_alive hg
  simp only [deref_eq] at a1 a2 a3
  have hqn : Function.update p.next g (some f) (.elem i) = some f := by
    by_cases h : (Loc.elem i) = g
    · subst h; simp
    · rw [Function.update_of_ne h, hn]
  unfold unlink
  simp only [e1, bind, Except.bind, if_true, getNext, getPrev, setNext, setPrev, deref_eq, a1, hp, a3, hn,
    hqn, a2]

/-- `Link` behind `a`, whose successor is `y`. -/
theorem link_eq {p : PCache β} {i : Nat} {a y : Loc} (hi : (p.cell i).isSome) (ha : Alive p a)
    (hy : Alive p y) (hn : p.next a = some y) (hne' : y ≠ .elem i) :
    link i a p = .ok { p with
      next := Function.update (Function.update p.next (.elem i) (some y)) a (some (.elem i)),
      prev := Function.update (Function.update p.prev (.elem i) (some a)) y (some (.elem i)) } := by
  have hi' : Alive p (.elem i) := hi
  have a1 := deref_alive hi'; have a2 := deref_alive ha; have a3 := deref_alive hy
  simp only [deref_eq] at a1 a2 a3
  have h1 : Function.update p.next (.elem i) (some y) (.elem i) = some y := Function.update_self ..
  have h2 : Function.update (Function.update p.prev (.elem i) (some a)) y (some (.elem i)) (.elem i) = some a := by
    rw [Function.update_of_ne (Ne.symm hne'), Function.update_self]
  unfold link
  simp only [bind, Except.bind, getNext, getPrev, setNext, setPrev, deref_eq, a1, a2, hn, h1, a3, h2]

/-- `Unlink` takes the element out of its ring and touches nothing else. -/
theorem unlink_ring (E : Env) {p : PCache β} {i : Nat} {A B : List Loc}
    (hr : Ring p.next p.prev (A ++ .elem i :: B)) (hd : (A ++ .elem i :: B).Nodup)
    (hal : ∀ x ∈ A ++ .elem i :: B, Alive p x) :
    ∃ nx pv, unlink E i p = .ok { p with next := nx, prev := pv } ∧ Ring nx pv (A ++ B) ∧
      nx (.elem i) = none ∧ pv (.elem i) = none ∧
      ∀ x, x ∉ A ++ .elem i :: B → nx x = p.next x ∧ pv x = p.prev x := by
  have hi : (p.cell i).isSome := hal (.elem i) (by simp)
  obtain ⟨hn, hp⟩ := ring_mid hr
  have hd' : (.elem i :: (B ++ A)).Nodup := by
    have : (A ++ .elem i :: B).Perm (.elem i :: (B ++ A)) := by
      refine List.perm_append_comm.trans ?_
      simp
    exact this.nodup_iff.mp hd
  rw [ring_rotate, List.cons_append] at hr
  have hmem : ∀ x, x ∈ B ++ A → x ∈ A ++ .elem i :: B := by intro x hx; simp at hx ⊢; tauto
  cases hl : B ++ A with
  | nil =>
    obtain ⟨rfl, rfl⟩ := List.append_eq_nil_iff.mp hl
    simp only [List.nil_append, List.head?_cons, List.getLast?_singleton] at hn hp
    refine ⟨_, _, unlink_on E hi hn hp hi hi, Cycle.Chain.nil _, by simp, by simp, ?_⟩
    intro x hx
    have hx' : x ≠ .elem i := by simpa using hx
    simp [Function.update_of_ne hx']
  | cons f m =>
    rw [hl] at hn hp hr hd' hmem
    simp only [List.cons_append, List.head?_cons] at hn
    rw [List.getLast?_cons_cons, List.getLast?_eq_some_getLast (by simp)] at hp
    have hgm : (f :: m).getLast (by simp) ∈ f :: m := List.getLast_mem _
    generalize hg : (f :: m).getLast (by simp) = g at hp hgm
    have hfi : f ≠ .elem i := by rintro rfl; simp at hd'
    have hgi : g ≠ .elem i := by rintro rfl; exact (List.nodup_cons.mp hd').1 hgm
    refine ⟨_, _, unlink_on E hi hn hp (hal f (hmem f (by simp))) (hal g (hmem g hgm)), ?_, by simp,
      by simp, ?_⟩
    · rw [ring_rotate, hl]
      refine ring_tail hr hd' ?_ ?_ ?_ ?_
      · intro y hy hyg
        rw [hg] at hyg
        have : y ≠ .elem i := by rintro rfl; exact (List.nodup_cons.mp hd').1 hy
        rw [Function.update_of_ne this, Function.update_of_ne hyg]
      · intro y hy
        have h1 : y ≠ .elem i := by rintro rfl; exact (List.nodup_cons.mp hd').1 (by simp [hy])
        have h2 : y ≠ f := by
          rintro rfl; exact (List.nodup_cons.mp (List.nodup_cons.mp hd').2).1 hy
        rw [Function.update_of_ne h1, Function.update_of_ne h2]
      · rw [hg, Function.update_of_ne hgi, Function.update_self]
      · rw [hg, Function.update_of_ne hfi, Function.update_self]
    · intro x hx
      have h1 : x ≠ .elem i := by rintro rfl; simp at hx
      have h2 : x ≠ f := by rintro rfl; exact hx (hmem _ (by simp))
      have h3 : x ≠ g := by rintro rfl; exact hx (hmem _ hgm)
      simp [Function.update_of_ne h1, Function.update_of_ne h2, Function.update_of_ne h3]

/-- `Link` puts the element behind the given one and touches nothing else. -/
theorem link_ring {p : PCache β} {i : Nat} {a : Loc} {l : List Loc}
    (hr : Ring p.next p.prev (a :: l)) (hd : (a :: l).Nodup) (hi : (p.cell i).isSome)
    (hn : .elem i ∉ a :: l) (hal : ∀ x ∈ a :: l, Alive p x) :
    ∃ nx pv, link i a p = .ok { p with next := nx, prev := pv } ∧ Ring nx pv (a :: .elem i :: l) ∧
      ∀ x, x ∉ a :: .elem i :: l → nx x = p.next x ∧ pv x = p.prev x := by
  have hm := (ring_mid (A := []) hr).1
  rw [List.append_nil] at hm
  cases hy : (l ++ [a]).head? with
  | none => simp at hy
  | some y =>
    rw [hy] at hm
    have hyl : y ∈ a :: l := by
      have := List.mem_of_head? hy
      simp at this ⊢; tauto
    have hyi : y ≠ .elem i := by rintro rfl; exact hn hyl
    have hai : a ≠ .elem i := by rintro rfl; simp at hn
    refine ⟨_, _, link_eq hi (hal a (by simp)) (hal y hyl) hm hyi, ?_, ?_⟩
    · refine ring_insert hr hd hy ?_ ?_ ?_ ?_ ?_ ?_
      · intro z hz
        have h1 : z ≠ .elem i := by rintro rfl; exact hn (by simp [hz])
        have h2 : z ≠ a := by rintro rfl; exact (List.nodup_cons.mp hd).1 hz
        rw [Function.update_of_ne h2, Function.update_of_ne h1]
      · intro z hz hzy
        have h1 : z ≠ .elem i := by rintro rfl; exact hn hz
        rw [Function.update_of_ne hzy, Function.update_of_ne h1]
      · rw [Function.update_self]
      · rw [Function.update_of_ne (Ne.symm hyi), Function.update_self]
      · rw [Function.update_of_ne (Ne.symm hai), Function.update_self]
      · rw [Function.update_self]
    · intro x hx
      have h1 : x ≠ .elem i := by rintro rfl; simp at hx
      have h2 : x ≠ a := by rintro rfl; simp at hx
      have h3 : x ≠ y := by rintro rfl; apply hx; simp at hyl ⊢; tauto
      simp [Function.update_of_ne h1, Function.update_of_ne h2, Function.update_of_ne h3]

end Verif.Lru.Ptr
