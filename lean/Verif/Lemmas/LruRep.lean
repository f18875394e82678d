import Verif.Lemmas.LruRing
import Verif.Lemmas.LruCache
/-
What it means for the pointer-level cache to represent the list-level one, and how the elementary
changes preserve it.
-/
namespace Verif.Lru.Ptr

variable {σ β γ : Type} {vw : β → γ}

/-- The data fields of an element; the pointer-level cache keeps `vw` of the value. -/
def cellOf (vw : β → γ) (e : Elem β) : Cell γ := ⟨e.key, e.ptr, vw e.val, e.pin, e.units, e.lastUse⟩

/-- The addresses on the main chain. -/
def linkedIds (l : List (Elem β)) : List Nat := (l.filter (·.linked)).map (·.id)

def locs (l : List Nat) : List Loc := l.map .elem

theorem mem_locs {i : Nat} {l : List Nat} : .elem i ∈ locs l ↔ i ∈ l := by simp [locs]
theorem head_locs {l : List Nat} : Loc.head ∉ locs l := by simp [locs]
theorem locs_nodup {l : List Nat} : (locs l).Nodup ↔ l.Nodup :=
  List.nodup_map_iff (fun a b h => by cases h; rfl)
theorem locs_append {a b : List Nat} : locs (a ++ b) = locs a ++ locs b := List.map_append
theorem locs_cons {a : Nat} {b : List Nat} : locs (a :: b) = .elem a :: locs b := rfl

theorem mem_linkedIds {i : Nat} {l : List (Elem β)} :
    i ∈ linkedIds l ↔ ∃ e ∈ l, e.linked = true ∧ e.id = i := by
  simp [linkedIds, and_assoc]

theorem linkedIds_append (a b : List (Elem β)) : linkedIds (a ++ b) = linkedIds a ++ linkedIds b := by
  simp [linkedIds]

theorem linkedIds_cons (e : Elem β) (l : List (Elem β)) :
    linkedIds (e :: l) = if e.linked then e.id :: linkedIds l else linkedIds l := by
  cases h : e.linked <;> simp [linkedIds, h]

/-- `defer_` as rings, one for each key. -/
structure Groups (nx pv : Loc → Option Loc) (df : List (Bytes × Nat)) (d : List (Elem β))
    (G : List (Bytes × List Nat)) : Prop where
  defer : df = G.map (fun g => (g.1, g.2.headD 0))
  keys : (G.map (·.1)).Nodup
  ne : ∀ g ∈ G, g.2 ≠ []
  ids : (G.flatMap (·.2)).Perm (d.map (·.id))
  key : ∀ g ∈ G, ∀ i ∈ g.2, ∃ e ∈ d, e.id = i ∧ e.key = g.1
  ring : ∀ g ∈ G, Ring nx pv (locs g.2)

/-- All addresses in use: table, deferred, and elements that are being deleted. -/
def idsOf (Z : List Nat) (c : Cache β) : List Nat :=
  c.nodes.map (·.id) ++ (c.defer.map (·.id) ++ Z)

/-- The heap, the chains and the counters represent `c`; the elements `Z` are being deleted. -/
structure Rep (vw : β → γ) (Z : List Nat) (p : PCache γ) (c : Cache β) : Prop where
  units : p.units = c.units
  pinnedUnits : p.pinnedUnits = c.pinnedUnits
  maxUnits : p.maxUnits = c.maxUnits
  maxIdle : p.maxIdle = c.maxIdle
  lru : p.lru = c.lru
  nextId : p.nextId = c.nextId
  ids : (idsOf Z c).Nodup
  fresh : ∀ i ∈ idsOf Z c, i < c.nextId
  live : ∀ i, (p.cell i).isSome ↔ i ∈ idsOf Z c
  cellN : ∀ e ∈ c.nodes, p.cell e.id = some (cellOf vw e)
  cellD : ∀ e ∈ c.defer, p.cell e.id = some (cellOf vw e)
  ring : Ring p.next p.prev (.head :: locs (linkedIds c.nodes))
  off : ∀ e ∈ c.nodes, e.linked = false → p.next (.elem e.id) = none ∧ p.prev (.elem e.id) = none
  groups : ∃ G, Groups p.next p.prev p.defer c.defer G

/-- `table_` represents the keys of `c`. -/
structure Tab (t : List (Bytes × Nat)) (c : Cache β) : Prop where
  perm : t.Perm (c.nodes.map (fun e => (e.key, e.id)))
  keys : (c.nodes.map (·.key)).Nodup
  sorted : t.Pairwise (fun a b => a.2 < b.2)

theorem Groups.congr {nx pv nx' pv' : Loc → Option Loc} {df : List (Bytes × Nat)} {d : List (Elem β)}
    {G : List (Bytes × List Nat)} (g : Groups nx pv df d G)
    (h : ∀ e ∈ d, nx' (.elem e.id) = nx (.elem e.id) ∧ pv' (.elem e.id) = pv (.elem e.id)) :
    Groups nx' pv' df d G := by
  refine ⟨g.defer, g.keys, g.ne, g.ids, g.key, fun x hx => ?_⟩
  have hm : ∀ y ∈ locs x.2, nx' y = nx y ∧ pv' y = pv y := by
    intro y hy
    obtain ⟨i, hi, rfl⟩ := List.mem_map.mp hy
    obtain ⟨e, he, rfl, _⟩ := g.key x hx i hi
    exact h e he
  exact ring_congr (fun y hy => (hm y hy).1) (fun y hy => (hm y hy).2) (g.ring x hx)

section
variable {Z : List Nat} {p : PCache γ} {c : Cache β}

theorem Rep.linked_sub (r : Rep vw Z p c) : ∀ x ∈ Loc.head :: locs (linkedIds c.nodes), Alive p x := by
  intro x hx
  rcases List.mem_cons.mp hx with rfl | hx
  · trivial
  · obtain ⟨i, hi, rfl⟩ := List.mem_map.mp hx
    obtain ⟨e, he, _, rfl⟩ := mem_linkedIds.mp hi
    show (p.cell e.id).isSome
    rw [r.cellN e he]; rfl

theorem Rep.idsN (r : Rep vw Z p c) : (c.nodes.map (·.id)).Nodup := (List.nodup_append.mp r.ids).1

theorem Rep.ring_nodup (r : Rep vw Z p c) : (Loc.head :: locs (linkedIds c.nodes)).Nodup := by
  refine List.nodup_cons.mpr ⟨head_locs, locs_nodup.mpr ?_⟩
  exact r.idsN.sublist (List.filter_sublist.map _)

theorem Rep.disjoint (r : Rep vw Z p c) {e f : Elem β} (he : e ∈ c.nodes) (hf : f ∈ c.defer) : e.id ≠ f.id :=
  (List.nodup_append.mp r.ids).2.2 _ (List.mem_map_of_mem he) _ (by simp; exact Or.inl ⟨f, hf, rfl⟩)

theorem Rep.notMainD (r : Rep vw Z p c) {f : Elem β} (hf : f ∈ c.defer) :
    Loc.elem f.id ∉ Loc.head :: locs (linkedIds c.nodes) := by
  intro h
  rcases List.mem_cons.mp h with h | h
  · cases h
  · obtain ⟨e, he, _, hi⟩ := mem_linkedIds.mp (mem_locs.mp h)
    exact r.disjoint he hf hi

theorem Rep.notMainOff (r : Rep vw Z p c) {f : Elem β} (hf : f ∈ c.nodes) (hl : f.linked = false) :
    Loc.elem f.id ∉ Loc.head :: locs (linkedIds c.nodes) := by
  intro h
  rcases List.mem_cons.mp h with h | h
  · cases h
  · obtain ⟨e, he, hel, hi⟩ := mem_linkedIds.mp (mem_locs.mp h)
    have := List.inj_on_of_nodup_map r.idsN he hf hi
    rw [this, hl] at hel; cases hel

theorem Rep.notMainZ (r : Rep vw Z p c) {i : Nat} (hi : i ∈ Z) :
    Loc.elem i ∉ Loc.head :: locs (linkedIds c.nodes) := by
  intro h
  rcases List.mem_cons.mp h with h | h
  · cases h
  · obtain ⟨e, he, _, rfl⟩ := mem_linkedIds.mp (mem_locs.mp h)
    exact (List.nodup_append.mp r.ids).2.2 _ (List.mem_map_of_mem he) _ (by simp [hi]) rfl

/-- A change of the chains that leaves the deferred rings and the elements off the chains alone. -/
theorem Rep.rechain (r : Rep vw Z p c) {nx pv : Loc → Option Loc}
    (hr : Ring nx pv (.head :: locs (linkedIds c.nodes)))
    (hd : ∀ e ∈ c.defer, nx (.elem e.id) = p.next (.elem e.id) ∧ pv (.elem e.id) = p.prev (.elem e.id))
    (ho : ∀ e ∈ c.nodes, e.linked = false → nx (.elem e.id) = none ∧ pv (.elem e.id) = none) :
    Rep vw Z { p with next := nx, prev := pv } c := by
  obtain ⟨G, hG⟩ := r.groups
  exact { units := r.units, pinnedUnits := r.pinnedUnits, maxUnits := r.maxUnits, maxIdle := r.maxIdle,
          lru := r.lru, nextId := r.nextId, ids := r.ids, fresh := r.fresh, live := r.live,
          cellN := r.cellN, cellD := r.cellD, ring := hr, off := ho, groups := ⟨G, hG.congr hd⟩ }

/-- An element of the table is taken off the table and the main chain. -/
theorem Rep.take (E : Env) (r : Rep vw Z p c) {A B : List (Elem β)} {e : Elem β} (hn : c.nodes = A ++ e :: B) :
    ∃ nx pv, unlink E e.id p = .ok { p with next := nx, prev := pv } ∧
      Rep vw (e.id :: Z) { p with next := nx, prev := pv } { c with nodes := A ++ B } ∧
      nx (.elem e.id) = none ∧ pv (.elem e.id) = none := by
  have hme : e ∈ c.nodes := by rw [hn]; simp
  have hids : (idsOf (e.id :: Z) { c with nodes := A ++ B }).Perm (idsOf Z c) := by
    unfold idsOf
    rw [hn]
    simp only [List.map_append, List.map_cons, List.append_assoc, List.cons_append]
    refine List.Perm.append_left _ ?_
    rw [← List.append_assoc, ← List.append_assoc]
    exact List.perm_middle
  have base : ∀ nx pv, Ring nx pv (.head :: locs (linkedIds (A ++ B))) →
      (∀ x, x ∉ Loc.head :: locs (linkedIds c.nodes) → nx x = p.next x ∧ pv x = p.prev x) →
      Rep vw (e.id :: Z) { p with next := nx, prev := pv } { c with nodes := A ++ B } := by
    intro nx pv hr hf
    obtain ⟨G, hG⟩ := r.groups
    have hsub : ∀ x ∈ A ++ B, x ∈ c.nodes := by intro x hx; rw [hn]; simp at hx ⊢; tauto
    exact { units := r.units, pinnedUnits := r.pinnedUnits, maxUnits := r.maxUnits, maxIdle := r.maxIdle,
            lru := r.lru, nextId := r.nextId, ids := hids.nodup_iff.mpr r.ids,
            fresh := fun i hi => r.fresh i (hids.mem_iff.mp hi),
            live := fun i => (r.live i).trans hids.mem_iff.symm,
            cellN := fun x hx => r.cellN x (hsub x hx), cellD := r.cellD, ring := hr,
            off := fun x hx hl => by
              show nx _ = none ∧ pv _ = none
              rw [(hf _ (r.notMainOff (hsub x hx) hl)).1, (hf _ (r.notMainOff (hsub x hx) hl)).2]
              exact r.off x (hsub x hx) hl,
            groups := ⟨G, hG.congr (fun x hx => hf _ (r.notMainD hx))⟩ }
  cases hl : e.linked with
  | false =>
    obtain ⟨h1, h2⟩ := r.off e hme hl
    refine ⟨p.next, p.prev, unlink_off E (by rw [r.cellN e hme]; rfl) h1 h2, base _ _ ?_ (fun _ _ => ⟨rfl, rfl⟩), h1, h2⟩
    have : linkedIds c.nodes = linkedIds (A ++ B) := by
      rw [hn, linkedIds_append, linkedIds_append, linkedIds_cons, hl]; simp
    rw [← this]; exact r.ring
  | true =>
    have hs : Loc.head :: locs (linkedIds c.nodes)
        = (Loc.head :: locs (linkedIds A)) ++ .elem e.id :: locs (linkedIds B) := by
      rw [hn, linkedIds_append, linkedIds_cons, hl, if_pos rfl, locs_append, locs_cons]; rfl
    obtain ⟨nx, pv, h1, h2, h3, h4, h5⟩ := unlink_ring E (by rw [← hs]; exact r.ring)
      (by rw [← hs]; exact r.ring_nodup) (by rw [← hs]; exact r.linked_sub)
    refine ⟨nx, pv, h1, base nx pv ?_ ?_, h3, h4⟩
    · rw [linkedIds_append, locs_append]; exact h2
    · intro x hx; rw [hs] at hx; exact h5 x hx

/-- The element being deleted is freed. -/
theorem Rep.free {i : Nat} (r : Rep vw (i :: Z) p c) :
    ∃ cell, free i p = .ok { p with cell := cell } ∧ Rep vw Z { p with cell := cell } c := by
  have hids : (idsOf (i :: Z) c).Perm (i :: idsOf Z c) := by
    unfold idsOf
    rw [← List.append_assoc, ← List.append_assoc]
    exact List.perm_middle
  have hnd := hids.nodup_iff.mp r.ids
  have hi : (p.cell i).isSome := (r.live i).mpr (hids.mem_iff.mpr (by simp))
  obtain ⟨x, hx⟩ := Option.isSome_iff_exists.mp hi
  have hne : ∀ j ∈ idsOf Z c, j ≠ i := by
    rintro j hj rfl; exact (List.nodup_cons.mp hnd).1 hj
  refine ⟨Function.update p.cell i none, by simp [Ptr.free, hx], ?_⟩
  obtain ⟨G, hG⟩ := r.groups
  exact { units := r.units, pinnedUnits := r.pinnedUnits, maxUnits := r.maxUnits, maxIdle := r.maxIdle,
          lru := r.lru, nextId := r.nextId, ids := (List.nodup_cons.mp hnd).2,
          fresh := fun j hj => r.fresh j (hids.mem_iff.mpr (by simp [hj])),
          live := fun j => by
            show (Function.update p.cell i none j).isSome ↔ _
            by_cases hj : j = i
            · subst hj; simp; exact (List.nodup_cons.mp hnd).1
            · rw [Function.update_of_ne hj, r.live j, hids.mem_iff]; simp [hj],
          cellN := fun e he => by
            show Function.update p.cell i none e.id = _
            rw [Function.update_of_ne (hne _ (by simp [idsOf]; exact Or.inl ⟨e, he, rfl⟩))]; exact r.cellN e he,
          cellD := fun e he => by
            show Function.update p.cell i none e.id = _
            rw [Function.update_of_ne (hne _ (by simp [idsOf]; exact Or.inr (Or.inl ⟨e, he, rfl⟩)))]; exact r.cellD e he,
          ring := r.ring, off := r.off, groups := ⟨G, hG⟩ }

/-- An element being deleted that is on no chain becomes part of the table. -/
theorem Rep.put {A B : List (Elem β)} {e : Elem β} (r : Rep vw (e.id :: Z) p c) (hn : c.nodes = A ++ B)
    (hc : p.cell e.id = some (cellOf vw e)) (hl : e.linked = false)
    (h1 : p.next (.elem e.id) = none) (h2 : p.prev (.elem e.id) = none) :
    Rep vw Z p { c with nodes := A ++ e :: B } := by
  have hids : (idsOf Z { c with nodes := A ++ e :: B }).Perm (idsOf (e.id :: Z) c) := by
    unfold idsOf
    rw [hn]
    simp only [List.map_append, List.map_cons, List.append_assoc, List.cons_append]
    refine List.Perm.append_left _ ?_
    rw [← List.append_assoc, ← List.append_assoc]
    exact List.perm_middle.symm
  have hsub : ∀ x ∈ A ++ e :: B, x = e ∨ x ∈ c.nodes := by intro x hx; rw [hn]; simp at hx ⊢; tauto
  have hlk : linkedIds (A ++ e :: B) = linkedIds c.nodes := by
    rw [hn, linkedIds_append, linkedIds_append, linkedIds_cons, hl]; simp
  exact { units := r.units, pinnedUnits := r.pinnedUnits, maxUnits := r.maxUnits, maxIdle := r.maxIdle,
          lru := r.lru, nextId := r.nextId, ids := hids.nodup_iff.mpr r.ids,
          fresh := fun i hi => r.fresh i (hids.mem_iff.mp hi),
          live := fun i => (r.live i).trans hids.mem_iff.symm,
          cellN := fun x hx => by
            rcases hsub x hx with rfl | hx'
            · exact hc
            · exact r.cellN x hx',
          cellD := r.cellD,
          ring := by show Ring _ _ (.head :: locs (linkedIds (A ++ e :: B))); rw [hlk]; exact r.ring,
          off := fun x hx hxl => by
            rcases hsub x hx with rfl | hx'
            · exact ⟨h1, h2⟩
            · exact r.off x hx' hxl,
          groups := r.groups }

/-- `e->Link(&head_)` on an element of the table that is on no chain. -/
theorem Rep.front (r : Rep vw Z p c) {A B : List (Elem β)} {e : Elem β} (hn : c.nodes = A ++ e :: B)
    (hl : e.linked = false) :
    ∃ nx pv, link e.id .head p = .ok { p with next := nx, prev := pv } ∧
      Rep vw Z { p with next := nx, prev := pv } { c with nodes := { e with linked := true } :: (A ++ B) } := by
  have hme : e ∈ c.nodes := by rw [hn]; simp
  obtain ⟨nx, pv, h1, h2, h3⟩ := link_ring r.ring r.ring_nodup (i := e.id)
    (by rw [r.cellN e hme]; rfl) (r.notMainOff hme hl) r.linked_sub
  refine ⟨nx, pv, h1, ?_⟩
  have hids : (idsOf Z { c with nodes := { e with linked := true } :: (A ++ B) }).Perm (idsOf Z c) := by
    unfold idsOf
    rw [hn]
    simp only [List.map_append, List.map_cons]
    exact (List.perm_middle (a := e.id)).symm.append_right _
  have hsub : ∀ x ∈ ({ e with linked := true } : Elem β) :: (A ++ B),
      x = { e with linked := true } ∨ (x ∈ c.nodes ∧ x.id ≠ e.id) := by
    intro x hx
    rcases List.mem_cons.mp hx with rfl | hx
    · exact Or.inl rfl
    · refine Or.inr ⟨by rw [hn]; simp at hx ⊢; tauto, ?_⟩
      have hm := mid_ids (by rw [← hn]; exact r.idsN)
      rcases List.mem_append.mp hx with hx | hx
      · exact hm.1 x hx
      · exact hm.2 x hx
  have hlk : linkedIds (({ e with linked := true } : Elem β) :: (A ++ B)) = e.id :: linkedIds c.nodes := by
    rw [hn, linkedIds_cons, linkedIds_append, linkedIds_append, linkedIds_cons, hl]; simp
  have hfr : ∀ x, x ∉ Loc.head :: locs (linkedIds c.nodes) → x ≠ .elem e.id →
      nx x = p.next x ∧ pv x = p.prev x := by
    intro x hx hxe
    apply h3
    simp at hx ⊢; tauto
  obtain ⟨G, hG⟩ := r.groups
  exact { units := r.units, pinnedUnits := r.pinnedUnits, maxUnits := r.maxUnits, maxIdle := r.maxIdle,
          lru := r.lru, nextId := r.nextId, ids := hids.nodup_iff.mpr r.ids,
          fresh := fun i hi => r.fresh i (hids.mem_iff.mp hi),
          live := fun i => (r.live i).trans hids.mem_iff.symm,
          cellN := fun x hx => by
            rcases hsub x hx with rfl | hx'
            · exact r.cellN e hme
            · exact r.cellN x hx'.1,
          cellD := r.cellD,
          ring := by
            show Ring _ _ (.head :: locs (linkedIds (({ e with linked := true } : Elem β) :: (A ++ B))))
            rw [hlk]; exact h2,
          off := fun x hx hxl => by
            rcases hsub x hx with rfl | hx'
            · cases hxl
            · show nx _ = none ∧ pv _ = none
              have := hfr _ (r.notMainOff hx'.1 hxl) (fun h => hx'.2 (Loc.elem.inj h))
              rw [this.1, this.2]; exact r.off x hx'.1 hxl,
          groups := ⟨G, hG.congr (fun x hx => hfr _ (r.notMainD hx)
            (fun h => r.disjoint hme hx (Loc.elem.inj h).symm))⟩ }

/-- Data fields of an element of the table are changed. -/
theorem Rep.storeN (r : Rep vw Z p c) {A B : List (Elem β)} {e e' : Elem β} (hn : c.nodes = A ++ e :: B)
    (hi : e'.id = e.id) (hl : e'.linked = e.linked) :
    Rep vw Z (store e.id (cellOf vw e') p) { c with nodes := A ++ e' :: B } := by
  have hids : idsOf Z { c with nodes := A ++ e' :: B } = idsOf Z c := by
    unfold idsOf
    rw [hn]; simp [hi]
  have hm := mid_ids (by rw [← hn]; exact r.idsN)
  have hme : e ∈ c.nodes := by rw [hn]; simp
  have hsub : ∀ x ∈ A ++ e' :: B, x = e' ∨ (x ∈ c.nodes ∧ x.id ≠ e.id) := by
    intro x hx
    simp only [List.mem_append, List.mem_cons] at hx
    rcases hx with hx | rfl | hx
    · exact Or.inr ⟨by rw [hn]; simp [hx], hm.1 x hx⟩
    · exact Or.inl rfl
    · exact Or.inr ⟨by rw [hn]; simp [hx], hm.2 x hx⟩
  have hlk : linkedIds (A ++ e' :: B) = linkedIds c.nodes := by
    rw [hn, linkedIds_append, linkedIds_append, linkedIds_cons, linkedIds_cons, hl, hi]
  exact { units := r.units, pinnedUnits := r.pinnedUnits, maxUnits := r.maxUnits, maxIdle := r.maxIdle,
          lru := r.lru, nextId := r.nextId, ids := by rw [hids]; exact r.ids,
          fresh := by rw [hids]; exact r.fresh,
          live := fun i => by
            rw [hids, ← r.live i]
            show (Function.update p.cell e.id (some (cellOf vw e')) i).isSome ↔ _
            by_cases h : i = e.id
            · subst h; rw [Function.update_self, r.cellN e hme]; simp
            · rw [Function.update_of_ne h],
          cellN := fun x hx => by
            show Function.update p.cell e.id (some (cellOf vw e')) x.id = _
            rcases hsub x hx with rfl | hx'
            · rw [hi, Function.update_self]
            · rw [Function.update_of_ne hx'.2]; exact r.cellN x hx'.1,
          cellD := fun x hx => by
            show Function.update p.cell e.id (some (cellOf vw e')) x.id = _
            rw [Function.update_of_ne (Ne.symm (r.disjoint hme hx))]; exact r.cellD x hx,
          ring := by show Ring _ _ (.head :: locs (linkedIds (A ++ e' :: B))); rw [hlk]; exact r.ring,
          off := fun x hx hxl => by
            rcases hsub x hx with rfl | hx'
            · rw [hi]; rw [hl] at hxl; exact r.off e hme hxl
            · exact r.off x hx'.1 hxl,
          groups := r.groups }

theorem Rep.idsD (r : Rep vw Z p c) : (c.defer.map (·.id)).Nodup :=
  (List.nodup_append.mp (List.nodup_append.mp r.ids).2.1).1

/-- Data fields of a deferred element are changed. -/
theorem Rep.storeD (r : Rep vw Z p c) {A B : List (Elem β)} {e e' : Elem β} (hn : c.defer = A ++ e :: B)
    (hi : e'.id = e.id) (hk : e'.key = e.key) :
    Rep vw Z (store e.id (cellOf vw e') p) { c with defer := A ++ e' :: B } := by
  have hids : idsOf Z { c with defer := A ++ e' :: B } = idsOf Z c := by
    unfold idsOf
    rw [hn]; simp [hi]
  have hm := mid_ids (by rw [← hn]; exact r.idsD)
  have hme : e ∈ c.defer := by rw [hn]; simp
  have hsub : ∀ x ∈ A ++ e' :: B, x = e' ∨ (x ∈ c.defer ∧ x.id ≠ e.id) := by
    intro x hx
    simp only [List.mem_append, List.mem_cons] at hx
    rcases hx with hx | rfl | hx
    · exact Or.inr ⟨by rw [hn]; simp [hx], hm.1 x hx⟩
    · exact Or.inl rfl
    · exact Or.inr ⟨by rw [hn]; simp [hx], hm.2 x hx⟩
  obtain ⟨G, hG⟩ := r.groups
  exact { units := r.units, pinnedUnits := r.pinnedUnits, maxUnits := r.maxUnits, maxIdle := r.maxIdle,
          lru := r.lru, nextId := r.nextId, ids := by rw [hids]; exact r.ids,
          fresh := by rw [hids]; exact r.fresh,
          live := fun i => by
            rw [hids, ← r.live i]
            show (Function.update p.cell e.id (some (cellOf vw e')) i).isSome ↔ _
            by_cases h : i = e.id
            · subst h; rw [Function.update_self, r.cellD e hme]; simp
            · rw [Function.update_of_ne h],
          cellN := fun x hx => by
            show Function.update p.cell e.id (some (cellOf vw e')) x.id = _
            rw [Function.update_of_ne (r.disjoint hx hme)]; exact r.cellN x hx,
          cellD := fun x hx => by
            show Function.update p.cell e.id (some (cellOf vw e')) x.id = _
            rcases hsub x hx with rfl | hx'
            · rw [hi, Function.update_self]
            · rw [Function.update_of_ne hx'.2]; exact r.cellD x hx'.1,
          ring := r.ring, off := r.off,
          groups := ⟨G, hG.defer, hG.keys, hG.ne, by rw [hn] at hG; simpa [hi] using hG.ids,
            fun g hg i hgi => by
              obtain ⟨x, hx, hxi, hxk⟩ := hG.key g hg i hgi
              rw [hn] at hx
              simp only [List.mem_append, List.mem_cons] at hx
              rcases hx with hx | rfl | hx
              · exact ⟨x, by simp [hx], hxi, hxk⟩
              · exact ⟨e', by simp, by rw [hi, hxi], by rw [hk, hxk]⟩
              · exact ⟨x, by simp [hx], hxi, hxk⟩,
            hG.ring⟩ }

/-- Counters, configuration and table do not matter to the chains. -/
theorem Rep.scalars (r : Rep vw Z p c) (u pu mu mi : Int) (l : Bool) (t : List (Bytes × Nat)) :
    Rep vw Z { p with units := u, pinnedUnits := pu, maxUnits := mu, maxIdle := mi, lru := l, table := t }
      { c with units := u, pinnedUnits := pu, maxUnits := mu, maxIdle := mi, lru := l } :=
  { units := rfl, pinnedUnits := rfl, maxUnits := rfl, maxIdle := rfl, lru := rfl,
    nextId := r.nextId, ids := r.ids, fresh := r.fresh, live := r.live,
    cellN := r.cellN, cellD := r.cellD, ring := r.ring, off := r.off, groups := r.groups }

/-- A new element. -/
theorem Rep.alloc (r : Rep vw Z p c) {e : Elem β} (hi : e.id = c.nextId) (hl : e.linked = false) :
    Rep vw Z { p with cell := Function.update p.cell e.id (some (cellOf vw e)),
                      next := Function.update p.next (.elem e.id) none,
                      prev := Function.update p.prev (.elem e.id) none,
                      nextId := p.nextId + 1 }
      { c with nodes := e :: c.nodes, nextId := c.nextId + 1 } := by
  have hne : ∀ j ∈ idsOf Z c, j ≠ e.id := by
    intro j hj; have := r.fresh j hj; omega
  have hids : idsOf Z { c with nodes := e :: c.nodes, nextId := c.nextId + 1 } = e.id :: idsOf Z c := by
    simp [idsOf]
  have hN : ∀ x ∈ c.nodes, x.id ≠ e.id := fun x hx => hne _ (by simp [idsOf]; exact Or.inl ⟨x, hx, rfl⟩)
  have hD : ∀ x ∈ c.defer, x.id ≠ e.id :=
    fun x hx => hne _ (by simp [idsOf]; exact Or.inr (Or.inl ⟨x, hx, rfl⟩))
  have hfr : ∀ x ∈ c.nodes ++ c.defer, Function.update p.next (.elem e.id) none (.elem x.id) = p.next (.elem x.id) ∧
      Function.update p.prev (.elem e.id) none (.elem x.id) = p.prev (.elem x.id) := by
    intro x hx
    have : Loc.elem x.id ≠ .elem e.id := by
      intro h
      rcases List.mem_append.mp hx with hx | hx
      · exact hN x hx (Loc.elem.inj h)
      · exact hD x hx (Loc.elem.inj h)
    rw [Function.update_of_ne this, Function.update_of_ne this]; exact ⟨rfl, rfl⟩
  obtain ⟨G, hG⟩ := r.groups
  exact { units := r.units, pinnedUnits := r.pinnedUnits, maxUnits := r.maxUnits, maxIdle := r.maxIdle,
          lru := r.lru, nextId := by show p.nextId + 1 = c.nextId + 1; rw [r.nextId],
          ids := by
            rw [hids, List.nodup_cons]
            exact ⟨fun h => hne _ h rfl, r.ids⟩,
          fresh := by
            rw [hids]
            intro i hi'
            show i < c.nextId + 1
            rcases List.mem_cons.mp hi' with rfl | hi'
            · omega
            · have := r.fresh i hi'; omega,
          live := fun i => by
            rw [hids]
            show (Function.update p.cell e.id (some (cellOf vw e)) i).isSome ↔ _
            by_cases h : i = e.id
            · subst h; simp
            · rw [Function.update_of_ne h, r.live i]; simp [h],
          cellN := fun x hx => by
            show Function.update p.cell e.id (some (cellOf vw e)) x.id = _
            rcases List.mem_cons.mp hx with rfl | hx
            · rw [Function.update_self]
            · rw [Function.update_of_ne (hN x hx)]; exact r.cellN x hx,
          cellD := fun x hx => by
            show Function.update p.cell e.id (some (cellOf vw e)) x.id = _
            rw [Function.update_of_ne (hD x hx)]; exact r.cellD x hx,
          ring := by
            show Ring _ _ (.head :: locs (linkedIds (e :: c.nodes)))
            rw [linkedIds_cons, hl, if_neg (by simp)]
            have hm : ∀ x ∈ Loc.head :: locs (linkedIds c.nodes), x ≠ .elem e.id := by
              rintro x hx rfl
              rcases List.mem_cons.mp hx with h | h
              · cases h
              · obtain ⟨y, hy, _, hye⟩ := mem_linkedIds.mp (mem_locs.mp h)
                exact hN y hy hye
            exact ring_congr (fun x hx => Function.update_of_ne (hm x hx) _ _)
              (fun x hx => Function.update_of_ne (hm x hx) _ _) r.ring,
          off := fun x hx hxl => by
            rcases List.mem_cons.mp hx with rfl | hx
            · exact ⟨Function.update_self .., Function.update_self ..⟩
            · have := hfr x (by simp [hx])
              show Function.update p.next (.elem e.id) none (.elem x.id) = none ∧
                Function.update p.prev (.elem e.id) none (.elem x.id) = none
              rw [this.1, this.2]; exact r.off x hx hxl,
          groups := ⟨G, hG.congr (fun x hx => hfr x (by simp [hx]))⟩ }

end
end Verif.Lru.Ptr
