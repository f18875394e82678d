import Verif.Lemmas.LruRep
/-
The rings of `defer_`.
-/
namespace Verif.Lru.Ptr

variable {σ β γ : Type} {vw : β → γ}

/-! ### Association lists -/

theorem assoc_none {k : Bytes} {t : List (Bytes × Nat)} : assoc k t = none ↔ ∀ x ∈ t, x.1 ≠ k := by
  unfold assoc
  rw [Option.map_eq_none_iff, List.find?_eq_none]; simp

theorem assoc_some {k : Bytes} {t : List (Bytes × Nat)} {i : Nat} (h : assoc k t = some i) : (k, i) ∈ t := by
  unfold assoc at h
  obtain ⟨x, hx, rfl⟩ := Option.map_eq_some_iff.mp h
  have h1 := List.mem_of_find?_eq_some hx
  have h2 := List.find?_some hx
  simp at h2
  obtain ⟨a, b⟩ := x
  simp at h2; subst h2; exact h1

theorem assoc_iff {k : Bytes} {t : List (Bytes × Nat)} (hk : (t.map (·.1)).Nodup) {i : Nat} :
    assoc k t = some i ↔ (k, i) ∈ t := by
  refine ⟨assoc_some, fun h => ?_⟩
  cases ha : assoc k t with
  | none => exact absurd rfl (assoc_none.mp ha _ h)
  | some j =>
    have := List.inj_on_of_nodup_map hk (assoc_some ha) h rfl
    cases this; rfl

theorem erase_eq {k : Bytes} {A B : List (Bytes × Nat)} {i : Nat}
    (hk : ((A ++ (k, i) :: B).map (·.1)).Nodup) : erase k (A ++ (k, i) :: B) = A ++ B := by
  unfold erase
  rw [List.map_append, List.map_cons, List.nodup_append] at hk
  obtain ⟨_, h2, h3⟩ := hk
  rw [List.nodup_cons] at h2
  rw [List.filter_append, List.filter_cons]
  have hA : A.filter (fun x => !(x.1 == k)) = A := by
    rw [List.filter_eq_self]; intro a ha
    have := h3 a.1 (List.mem_map_of_mem ha) k (by simp)
    simpa using this
  have hB : B.filter (fun x => !(x.1 == k)) = B := by
    rw [List.filter_eq_self]; intro a ha
    have : a.1 ≠ k := fun h => h2.1 (List.mem_map.mpr ⟨a, ha, h⟩)
    simpa using this
  rw [hA, hB]; simp

theorem assign_new {k : Bytes} {t : List (Bytes × Nat)} {i : Nat} (h : assoc k t = none) :
    assign k i t = t ++ [(k, i)] := by simp [assign, h]

/-! ### Groups -/

section
variable {nx pv : Loc → Option Loc} {df : List (Bytes × Nat)} {d : List (Elem β)} {G : List (Bytes × List Nat)}

theorem Groups.dfKeys (g : Groups nx pv df d G) : (df.map (·.1)).Nodup := by
  rw [g.defer, List.map_map]; exact g.keys

/-- The ring of a key with deferred elements. -/
theorem Groups.at (g : Groups nx pv df d G) {k : Bytes} {h : Nat} (ha : assoc k df = some h) :
    ∃ G1 G2 t, G = G1 ++ (k, h :: t) :: G2 := by
  have hm := assoc_some ha
  rw [g.defer] at hm
  obtain ⟨⟨k', l⟩, hx, he⟩ := List.mem_map.mp hm
  simp only [Prod.mk.injEq] at he
  obtain ⟨rfl, rfl⟩ := he
  obtain ⟨G1, G2, rfl⟩ := List.append_of_mem hx
  cases l with
  | nil => exact absurd rfl (g.ne _ hx)
  | cons a t => exact ⟨G1, G2, t, rfl⟩

theorem Groups.none (g : Groups nx pv df d G) {k : Bytes} (ha : assoc k df = none) : ∀ x ∈ G, x.1 ≠ k := by
  intro x hx
  rw [g.defer] at ha
  exact assoc_none.mp ha (x.1, x.2.headD 0) (List.mem_map_of_mem hx)

/-- The ring that contains an element. -/
theorem Groups.of (g : Groups nx pv df d G) (hd : (d.map (·.id)).Nodup) {e : Elem β} (he : e ∈ d) :
    ∃ G1 G2 l, G = G1 ++ (e.key, l) :: G2 ∧ e.id ∈ l := by
  have : e.id ∈ G.flatMap (·.2) := g.ids.mem_iff.mpr (List.mem_map_of_mem he)
  obtain ⟨⟨k, l⟩, hx, hi⟩ := List.mem_flatMap.mp this
  obtain ⟨x, hx', h1, h2⟩ := g.key _ hx _ hi
  have := List.inj_on_of_nodup_map hd hx' he h1
  subst this
  obtain ⟨G1, G2, rfl⟩ := List.append_of_mem hx
  simp only at h2; subst h2
  exact ⟨G1, G2, l, rfl, hi⟩

/-- The elements of the ring of a key are those deferred under that key. -/
theorem Groups.mem_iff (g : Groups nx pv df d G) (hd : (d.map (·.id)).Nodup) {G1 G2 : List (Bytes × List Nat)}
    {k : Bytes} {l : List Nat} (hG : G = G1 ++ (k, l) :: G2) {e : Elem β} (he : e ∈ d) :
    e.id ∈ l ↔ e.key = k := by
  constructor
  · intro hi
    obtain ⟨x, hx', h1, h2⟩ := g.key (k, l) (by rw [hG]; simp) _ hi
    have := List.inj_on_of_nodup_map hd hx' he h1
    subst this; exact h2
  · rintro rfl
    obtain ⟨H1, H2, l', hH, hi⟩ := g.of hd he
    have h1 : (e.key, l) ∈ G := by rw [hG]; simp
    have h2 : (e.key, l') ∈ G := by rw [hH]; simp
    have := List.inj_on_of_nodup_map g.keys h1 h2 rfl
    cases this; exact hi

theorem Groups.flat_nodup (g : Groups nx pv df d G) (hd : (d.map (·.id)).Nodup) : (G.flatMap (·.2)).Nodup :=
  g.ids.nodup_iff.mpr hd

/-- Another ring shares no element with a given one. -/
theorem Groups.apart (g : Groups nx pv df d G) (hd : (d.map (·.id)).Nodup) {G1 G2 : List (Bytes × List Nat)}
    {k : Bytes} {l : List Nat} (hG : G = G1 ++ (k, l) :: G2) {x : Bytes × List Nat} (hx : x ∈ G1 ++ G2)
    {i : Nat} (hi : i ∈ x.2) : i ∉ l := by
  intro hil
  have hnd := g.flat_nodup hd
  rw [hG] at hnd
  rw [List.flatMap_append, List.flatMap_cons, List.nodup_append, List.nodup_append] at hnd
  rcases List.mem_append.mp hx with hx | hx
  · exact hnd.2.2 i (List.mem_flatMap.mpr ⟨x, hx, hi⟩) i (by simp [hil]) rfl
  · exact hnd.2.1.2.2 i hil i (List.mem_flatMap.mpr ⟨x, hx, hi⟩) rfl

theorem Groups.nodup (g : Groups nx pv df d G) (hd : (d.map (·.id)).Nodup) {x : Bytes × List Nat} (hx : x ∈ G) :
    x.2.Nodup := by
  obtain ⟨G1, G2, rfl⟩ := List.append_of_mem hx
  have hnd := g.flat_nodup hd
  rw [List.flatMap_append, List.flatMap_cons, List.nodup_append, List.nodup_append] at hnd
  exact hnd.2.1.1

end

section
variable {Z : List Nat} {p : PCache γ} {c : Cache β}

theorem Rep.groupAlive (r : Rep vw Z p c) {G : List (Bytes × List Nat)}
    (g : Groups p.next p.prev p.defer c.defer G) {x : Bytes × List Nat} (hx : x ∈ G) :
    ∀ y ∈ locs x.2, Alive p y := by
  intro y hy
  obtain ⟨i, hi, rfl⟩ := List.mem_map.mp hy
  obtain ⟨e, he, rfl, _⟩ := g.key x hx i hi
  show (p.cell e.id).isSome
  rw [r.cellD e he]; rfl

/-- A pinned element that was taken out of the table is deferred. -/
theorem Rep.deferIt {e : Elem β} (r : Rep vw (e.id :: Z) p c) (hc : p.cell e.id = some (cellOf vw e)) :
    ∃ nx pv df, deferElem e.id e.key p = .ok { p with next := nx, prev := pv, defer := df } ∧
      Rep vw Z { p with next := nx, prev := pv, defer := df }
        { c with defer := { e with linked := true } :: c.defer } := by
  have hids : (idsOf Z { c with defer := { e with linked := true } :: c.defer }).Perm (idsOf (e.id :: Z) c) := by
    unfold idsOf
    refine List.Perm.append_left _ ?_
    simp only [List.map_cons]
    exact (List.perm_middle (a := e.id)).symm
  have hnd : (idsOf (e.id :: Z) c).Nodup := r.ids
  unfold idsOf at hnd
  rw [List.nodup_append, List.nodup_append] at hnd
  have hN : ∀ x ∈ c.nodes, x.id ≠ e.id := fun x hx h =>
    hnd.2.2 _ (List.mem_map_of_mem hx) e.id (by simp) h
  have hD : ∀ x ∈ c.defer, x.id ≠ e.id := fun x hx h =>
    hnd.2.1.2.2 _ (List.mem_map_of_mem hx) e.id (by simp) h
  have hmain : Loc.elem e.id ∉ Loc.head :: locs (linkedIds c.nodes) := r.notMainZ (by simp)
  have base : ∀ nx pv df, 
      (∀ x ∈ Loc.head :: locs (linkedIds c.nodes), nx x = p.next x ∧ pv x = p.prev x) →
      (∀ x ∈ c.nodes, nx (.elem x.id) = p.next (.elem x.id) ∧ pv (.elem x.id) = p.prev (.elem x.id)) →
      (∃ G, Groups nx pv df ({ e with linked := true } :: c.defer) G) →
      Rep vw Z { p with next := nx, prev := pv, defer := df }
        { c with defer := { e with linked := true } :: c.defer } := by
    intro nx pv df hm hf hg
    exact { units := r.units, pinnedUnits := r.pinnedUnits, maxUnits := r.maxUnits, maxIdle := r.maxIdle,
            lru := r.lru, nextId := r.nextId, ids := hids.nodup_iff.mpr r.ids,
            fresh := fun i hi => r.fresh i (hids.mem_iff.mp hi),
            live := fun i => (r.live i).trans hids.mem_iff.symm,
            cellN := r.cellN,
            cellD := fun x hx => by
              rcases List.mem_cons.mp hx with rfl | hx
              · exact hc
              · exact r.cellD x hx,
            ring := ring_congr (fun x hx => (hm x hx).1) (fun x hx => (hm x hx).2) r.ring,
            off := fun x hx hl => by
              show nx _ = none ∧ pv _ = none
              rw [(hf x hx).1, (hf x hx).2]; exact r.off x hx hl,
            groups := hg }
  have hea : (p.cell e.id).isSome := by rw [hc]; rfl
  have hal : Alive p (.elem e.id) := hea
  obtain ⟨G, hG⟩ := r.groups
  unfold deferElem
  cases ha : assoc e.key p.defer with
  | none =>
    have hne := hG.none ha
    have a1 := deref_alive hal
    simp only [deref_eq] at a1
    simp only [setNext, setPrev, bind, Except.bind, deref_eq, a1]
    refine ⟨_, _, _, rfl, base _ _ _ ?_ ?_ ?_⟩
    · intro x hx
      have : x ≠ .elem e.id := by rintro rfl; exact hmain hx
      exact ⟨Function.update_of_ne this _ _, Function.update_of_ne this _ _⟩
    · intro x hx
      have : Loc.elem x.id ≠ .elem e.id := fun h => hN x hx (Loc.elem.inj h)
      exact ⟨Function.update_of_ne this _ _, Function.update_of_ne this _ _⟩
    · refine ⟨G ++ [(e.key, [e.id])], ?_, ?_, ?_, ?_, ?_, ?_⟩
      · rw [assign_new ha, hG.defer]; simp
      · rw [List.map_append, List.nodup_append]
        refine ⟨hG.keys, by simp, ?_⟩
        intro a ha b hb
        obtain ⟨x, hx, rfl⟩ := List.mem_map.mp ha
        simp at hb; subst hb
        exact hne x hx
      · intro x hx
        rcases List.mem_append.mp hx with hx | hx
        · exact hG.ne x hx
        · simp at hx; subst hx; simp
      · rw [List.flatMap_append]
        simp only [List.flatMap_cons, List.flatMap_nil, List.append_nil, List.map_cons]
        refine List.perm_append_comm.trans ?_
        simpa using hG.ids
      · intro x hx i hi
        rcases List.mem_append.mp hx with hx | hx
        · obtain ⟨y, hy, h⟩ := hG.key x hx i hi
          exact ⟨y, by simp [hy], h⟩
        · simp only [List.mem_singleton] at hx; subst hx
          simp at hi; subst hi
          exact ⟨{ e with linked := true }, by simp, rfl, rfl⟩
      · intro x hx
        rcases List.mem_append.mp hx with hx | hx
        · have hm : ∀ y ∈ locs x.2, y ≠ .elem e.id := by
            rintro y hy rfl
            obtain ⟨z, hz, hze, _⟩ := hG.key x hx _ (mem_locs.mp hy)
            exact hD z hz hze
          exact ring_congr (fun y hy => Function.update_of_ne (hm y hy) _ _)
            (fun y hy => Function.update_of_ne (hm y hy) _ _) (hG.ring x hx)
        · simp only [List.mem_singleton] at hx; subst hx
          show Ring _ _ [.elem e.id]
          rw [ring_cons]
          exact List.isChain_pair.mpr ⟨Function.update_self .., Function.update_self ..⟩
  | some h =>
    obtain ⟨G1, G2, t, hGe⟩ := hG.at ha
    have hgm : (e.key, h :: t) ∈ G := by rw [hGe]; simp
    have hnotin : e.id ∉ h :: t := by
      intro hi
      obtain ⟨z, hz, hze, _⟩ := hG.key _ hgm _ hi
      exact hD z hz hze
    obtain ⟨nx, pv, h1, h2, h3⟩ := link_ring (p := p) (i := e.id) (a := .elem h) (l := locs t) (hG.ring _ hgm)
      (locs_nodup.mpr (hG.nodup r.idsD hgm)) hea (fun h => hnotin (mem_locs.mp h)) (r.groupAlive hG hgm)
    have hout : ∀ i, i ≠ e.id → i ∉ h :: t → nx (.elem i) = p.next (.elem i) ∧ pv (.elem i) = p.prev (.elem i) := by
      intro i h1 h2
      apply h3
      intro hx
      simp only [List.mem_cons, Loc.elem.injEq] at hx h2
      rcases hx with rfl | rfl | hx
      · simp at h2
      · exact h1 rfl
      · exact h2 (Or.inr (mem_locs.mp hx))
    have hnm : ∀ x ∈ c.nodes, x.id ∉ h :: t := by
      intro x hx hi
      obtain ⟨z, hz, hze, _⟩ := hG.key _ hgm _ hi
      exact r.disjoint hx hz hze.symm
    refine ⟨nx, pv, p.defer, h1, base nx pv _ ?_ ?_ ?_⟩
    · intro x hx
      cases x with
      | head => exact h3 _ (by simp [locs])
      | elem i =>
        have hx' : i ∈ linkedIds c.nodes := by
          rcases List.mem_cons.mp hx with h | h
          · cases h
          · exact mem_locs.mp h
        obtain ⟨y, hy, _, rfl⟩ := mem_linkedIds.mp hx'
        exact hout _ (hN y hy) (hnm y hy)
    · intro x hx
      exact hout _ (hN x hx) (hnm x hx)
    · refine ⟨G1 ++ (e.key, h :: e.id :: t) :: G2, ?_, ?_, ?_, ?_, ?_, ?_⟩
      · rw [hG.defer, hGe]; simp
      · have := hG.keys; rw [hGe] at this; simpa using this
      · intro x hx
        simp only [List.mem_append, List.mem_cons] at hx
        rcases hx with hx | rfl | hx
        · exact hG.ne x (by rw [hGe]; simp [hx])
        · simp
        · exact hG.ne x (by rw [hGe]; simp [hx])
      · have := hG.ids
        rw [hGe] at this
        simp only [List.flatMap_append, List.flatMap_cons, List.map_cons] at this ⊢
        refine List.Perm.trans ?_ (this.cons e.id)
        have : (G1.flatMap (·.2) ++ (h :: e.id :: t ++ G2.flatMap (·.2))).Perm
            (G1.flatMap (·.2) ++ (e.id :: (h :: t ++ G2.flatMap (·.2)))) := by
          refine List.Perm.append_left _ ?_
          exact List.Perm.swap _ _ _
        exact this.trans List.perm_middle
      · intro x hx i hi
        simp only [List.mem_append, List.mem_cons] at hx
        have old : ∀ x ∈ G, ∀ i ∈ x.2, ∃ y ∈ ({ e with linked := true } : Elem β) :: c.defer, y.id = i ∧ y.key = x.1 := by
          intro x hx i hi
          obtain ⟨y, hy, h⟩ := hG.key x hx i hi
          exact ⟨y, by simp [hy], h⟩
        rcases hx with hx | rfl | hx
        · exact old x (by rw [hGe]; simp [hx]) i hi
        · simp only [List.mem_cons] at hi
          rcases hi with rfl | rfl | hi
          · exact old _ hgm _ (by simp)
          · exact ⟨{ e with linked := true }, by simp, rfl, rfl⟩
          · exact old _ hgm i (by simp [hi])
        · exact old x (by rw [hGe]; simp [hx]) i hi
      · intro x hx
        have old : ∀ x ∈ G1 ++ G2, Ring nx pv (locs x.2) := by
          intro x hx
          have hxG : x ∈ G := by rw [hGe]; simp at hx ⊢; tauto
          have hm : ∀ y ∈ locs x.2, nx y = p.next y ∧ pv y = p.prev y := by
            intro y hy
            obtain ⟨i, hi, rfl⟩ := List.mem_map.mp hy
            refine hout i ?_ (hG.apart r.idsD hGe hx hi)
            rintro rfl
            obtain ⟨z, hz, hze, _⟩ := hG.key x hxG _ hi
            exact hD z hz hze
          exact ring_congr (fun y hy => (hm y hy).1) (fun y hy => (hm y hy).2) (hG.ring x hxG)
        simp only [List.mem_append, List.mem_cons] at hx
        rcases hx with hx | rfl | hx
        · exact old x (by simp [hx])
        · exact h2
        · exact old x (by simp [hx])

/-- A deferred element is taken off its ring. -/
theorem Rep.takeD (E : Env) (r : Rep vw Z p c) {A B : List (Elem β)} {e : Elem β} (hn : c.defer = A ++ e :: B)
    {h : Nat} (ha : assoc e.key p.defer = some h) :
    ∃ p1 nx pv df, unhead h e.id e.key p = .ok p1 ∧
      unlink E e.id p1 = .ok { p with next := nx, prev := pv, defer := df } ∧
      Rep vw (e.id :: Z) { p with next := nx, prev := pv, defer := df } { c with defer := A ++ B } := by
  have hme : e ∈ c.defer := by rw [hn]; simp
  have hids : (idsOf (e.id :: Z) { c with defer := A ++ B }).Perm (idsOf Z c) := by
    unfold idsOf
    rw [hn]
    refine List.Perm.append_left _ ?_
    simp only [List.map_append, List.map_cons, List.append_assoc, List.cons_append]
    refine List.Perm.append_left _ ?_
    exact List.perm_middle
  have hmid : ∀ x ∈ A ++ B, x ∈ c.defer ∧ x.id ≠ e.id := by
    intro x hx
    have hnd := r.idsD
    rw [hn, List.map_append, List.map_cons] at hnd
    have hnd' := List.nodup_cons.mp (List.nodup_middle.mp hnd)
    refine ⟨by rw [hn]; simp at hx ⊢; tauto, fun h => hnd'.1 ?_⟩
    rw [← List.map_append]
    exact List.mem_map.mpr ⟨x, hx, h⟩
  have hmid' : ∀ x ∈ c.defer, x.id ≠ e.id → x ∈ A ++ B := by
    intro x hx hne
    rw [hn] at hx
    simp only [List.mem_append, List.mem_cons] at hx ⊢
    rcases hx with hx | rfl | hx
    · exact .inl hx
    · exact absurd rfl hne
    · exact .inr hx
  obtain ⟨G, hG⟩ := r.groups
  obtain ⟨G1, G2, t, hGe⟩ := hG.at ha
  have hgm : (e.key, h :: t) ∈ G := by rw [hGe]; simp
  have hin : e.id ∈ h :: t := (hG.mem_iff r.idsD hGe hme).mpr rfl
  have hgd : (h :: t).Nodup := hG.nodup r.idsD hgm
  have hnm : ∀ x ∈ c.nodes, x.id ∉ h :: t := by
    intro x hx hi
    obtain ⟨z, hz, hze, _⟩ := hG.key _ hgm _ hi
    exact r.disjoint hx hz hze.symm
  have base : ∀ nx pv df,
      (∀ x, x ∉ locs (h :: t) → nx x = p.next x ∧ pv x = p.prev x) →
      (∃ G, Groups nx pv df (A ++ B) G) →
      Rep vw (e.id :: Z) { p with next := nx, prev := pv, defer := df } { c with defer := A ++ B } := by
    intro nx pv df hout hg
    have hm : ∀ x ∈ Loc.head :: locs (linkedIds c.nodes), nx x = p.next x ∧ pv x = p.prev x := by
      intro x hx
      refine hout x ?_
      rcases List.mem_cons.mp hx with rfl | hx
      · exact head_locs
      · obtain ⟨i, hi, rfl⟩ := List.mem_map.mp hx
        obtain ⟨y, hy, _, rfl⟩ := mem_linkedIds.mp hi
        exact fun h => hnm y hy (mem_locs.mp h)
    exact { units := r.units, pinnedUnits := r.pinnedUnits, maxUnits := r.maxUnits, maxIdle := r.maxIdle,
            lru := r.lru, nextId := r.nextId, ids := hids.nodup_iff.mpr r.ids,
            fresh := fun i hi => r.fresh i (hids.mem_iff.mp hi),
            live := fun i => (r.live i).trans hids.mem_iff.symm,
            cellN := r.cellN,
            cellD := fun x hx => r.cellD x (hmid x hx).1,
            ring := ring_congr (fun x hx => (hm x hx).1) (fun x hx => (hm x hx).2) r.ring,
            off := fun x hx hl => by
              have := hout (.elem x.id) (fun h => hnm x hx (mem_locs.mp h))
              show nx _ = none ∧ pv _ = none
              rw [this.1, this.2]; exact r.off x hx hl,
            groups := hg }
  -- the groups after the change
  have after : ∀ nx pv l', (l' ++ [e.id]).Perm (h :: t) → (l' ≠ [] → Ring nx pv (locs l')) →
      (∀ x, x ∉ locs (h :: t) → nx x = p.next x ∧ pv x = p.prev x) → ∀ G', 
      G'.Perm (G1 ++ G2 ++ (if l' = [] then [] else [(e.key, l')])) →
      Groups nx pv (G'.map (fun g => (g.1, g.2.headD 0))) (A ++ B) G' := by
    intro nx pv l' hp hr hout G' hperm
    have hl' : ∀ i ∈ l', i ∈ h :: t ∧ i ≠ e.id := by
      intro i hi
      refine ⟨hp.mem_iff.mp (by simp [hi]), ?_⟩
      have := hp.nodup_iff.mpr hgd
      rintro rfl
      exact (List.nodup_append.mp this).2.2 _ hi _ (by simp) rfl
    have hmemG : ∀ x ∈ G1 ++ G2, x ∈ G := by
      intro x hx; rw [hGe]; simp at hx ⊢; tauto
    have hmem : ∀ x ∈ G', x ∈ G1 ++ G2 ∨ (x = (e.key, l') ∧ l' ≠ []) := by
      intro x hx
      rcases List.mem_append.mp (hperm.mem_iff.mp hx) with hx | hx
      · exact .inl hx
      · split at hx
        · simp at hx
        · rename_i hne; exact .inr ⟨by simpa using hx, hne⟩
    refine ⟨rfl, ?_, ?_, ?_, ?_, ?_⟩
    · refine (hperm.map _).nodup_iff.mpr ?_
      have hk := hG.keys
      rw [hGe] at hk
      have hk' := (((List.perm_middle (a := (e.key, h :: t)) (l₁ := G1) (l₂ := G2)).map (·.1)).nodup_iff.mp hk)
      rw [List.map_cons, List.nodup_cons] at hk'
      split
      · simpa using hk'.2
      · rw [List.map_append, List.nodup_append]
        refine ⟨hk'.2, by simp, ?_⟩
        rintro a ha b hb rfl
        simp only [List.map_cons, List.map_nil, List.mem_singleton] at hb
        rw [hb] at ha
        exact hk'.1 ha
    · intro x hx
      rcases hmem x hx with hx | ⟨rfl, hx⟩
      · exact hG.ne x (hmemG x hx)
      · assumption
    · have h1 : (G'.flatMap (·.2)).Perm ((G1 ++ G2).flatMap (·.2) ++ l') := by
        refine (hperm.flatMap_right _).trans ?_
        rw [List.flatMap_append]
        refine List.Perm.append_left _ ?_
        split
        · rename_i h; rw [h]; rfl
        · simp
      have h2 := hG.ids
      rw [hGe, hn] at h2
      have h3 : ((G1 ++ (e.key, h :: t) :: G2).flatMap (·.2)).Perm
          ((G1 ++ G2).flatMap (·.2) ++ (h :: t)) := by
        simp only [List.flatMap_append, List.flatMap_cons, List.append_assoc]
        exact List.Perm.append_left _ List.perm_append_comm
      have h4 : (e.id :: ((G1 ++ G2).flatMap (·.2) ++ l')).Perm (e.id :: (A ++ B).map (·.id)) := by
        refine List.Perm.trans ?_ (((List.perm_middle (a := e) (l₁ := A) (l₂ := B)).map (·.id)))
        refine List.Perm.trans ?_ (h3.symm.trans h2)
        refine List.Perm.trans ?_ (List.Perm.append_left _ hp)
        rw [← List.append_assoc]
        exact (List.perm_append_singleton _ _).symm
      exact h1.trans (List.perm_cons _ |>.mp h4)
    · intro x hx i hi
      rcases hmem x hx with hx | ⟨rfl, hx⟩
      · obtain ⟨y, hy, h1, h2⟩ := hG.key x (hmemG x hx) i hi
        refine ⟨y, hmid' y hy ?_, h1, h2⟩
        intro he
        exact hG.apart r.idsD hGe hx hi (by rw [← h1, he]; exact hin)
      · obtain ⟨y, hy, h1, h2⟩ := hG.key _ hgm i (hl' i hi).1
        exact ⟨y, hmid' y hy (by rw [h1]; exact (hl' i hi).2), h1, h2⟩
    · intro x hx
      rcases hmem x hx with hx | ⟨rfl, hx⟩
      · have hm : ∀ y ∈ locs x.2, nx y = p.next y ∧ pv y = p.prev y := by
          intro y hy
          obtain ⟨i, hi, rfl⟩ := List.mem_map.mp hy
          exact hout _ (fun h => hG.apart r.idsD hGe hx hi (mem_locs.mp h))
        exact ring_congr (fun y hy => (hm y hy).1) (fun y hy => (hm y hy).2) (hG.ring x (hmemG x hx))
      · exact hr (by assumption)
  have hring := hG.ring _ hgm
  have hal := r.groupAlive hG hgm
  have hdf : p.defer = G1.map (fun g => (g.1, g.2.headD 0)) ++ (e.key, h) :: G2.map (fun g => (g.1, g.2.headD 0)) := by
    rw [hG.defer, hGe]; simp
  have hkn := hG.dfKeys
  rw [hdf] at hkn
  by_cases hh : e.id = h
  · subst hh
    have her : erase e.key p.defer = (G1 ++ G2).map (fun g => (g.1, g.2.headD 0)) := by
      rw [hdf, erase_eq hkn]; simp
    have hae : Alive p (.elem e.id) := hal _ (by simp [locs])
    have a1 := deref_alive hae
    have hpv := (ring_mid (A := []) (B := locs t) hring).2
    rw [List.append_nil] at hpv
    obtain ⟨nx, pv, h1, h2, h3, h4, h5⟩ := unlink_ring E (p := p) (i := e.id) (A := []) (B := locs t) hring
      (locs_nodup.mpr hgd) hal
    rcases List.eq_nil_or_concat t with rfl | ⟨T, j, rfl⟩
    · have hq : unhead e.id e.id e.key p = .ok { p with defer := erase e.key p.defer } := by
        unfold unhead
        rw [if_pos rfl]
        simp only [getPrev, deref_eq, bind, Except.bind] at a1 ⊢
        rw [a1]
        simp [hpv, locs]
      obtain ⟨nx, pv, h1, h2, h3, h4, h5⟩ := unlink_ring E (p := { p with defer := erase e.key p.defer }) (i := e.id)
        (A := []) (B := []) hring (locs_nodup.mpr hgd) hal
      refine ⟨_, nx, pv, _, hq, h1, base nx pv _ h5 ⟨G1 ++ G2, ?_⟩⟩
      rw [her]
      exact after nx pv [] (by simp) (by simp) h5 _ (by simp)
    · have hjr : j ∈ e.id :: (T ++ [j]) := by simp
      rw [List.concat_eq_append] at *
      obtain ⟨y, hy, hy1, hy2⟩ := hG.key _ hgm j (by simp)
      have hcj : p.cell j = some (cellOf vw y) := by rw [← hy1]; exact r.cellD y hy
      have hnj : j ≠ e.id := by
        rintro rfl
        have := (List.nodup_cons.mp hgd).1
        simp at this
      have hpv' : p.prev (.elem e.id) = some (.elem j) := by
        rw [hpv]; simp [locs, List.getLast?_cons]
      have hno : assoc e.key (erase e.key p.defer) = none := by
        rw [assoc_none]; intro x hx; simp [erase] at hx; exact hx.2
      have hq : unhead e.id e.id e.key p = .ok { p with defer := erase e.key p.defer ++ [(e.key, j)] } := by
        unfold unhead
        rw [if_pos rfl]
        simp only [getPrev, deref_eq, bind, Except.bind] at a1 ⊢
        rw [a1]
        simp only [hpv', load, hcj]
        rw [if_pos (by simpa using hnj)]
        have : (cellOf vw y).key = e.key := hy2
        rw [this, assign_new hno]
      obtain ⟨nx, pv, h1, h2, h3, h4, h5⟩ := unlink_ring E
        (p := { p with defer := erase e.key p.defer ++ [(e.key, j)] }) (i := e.id)
        (A := []) (B := locs (T ++ [j])) hring (locs_nodup.mpr hgd) hal
      refine ⟨_, nx, pv, _, hq, h1, base nx pv _ h5 ⟨G1 ++ G2 ++ [(e.key, j :: T)], ?_⟩⟩
      have := after nx pv (j :: T) ?_ ?_ h5 (G1 ++ G2 ++ [(e.key, j :: T)]) (by simp)
      · rw [her]
        simpa using this
      · refine (List.perm_append_singleton _ _).trans (List.Perm.cons _ ?_)
        exact (List.perm_append_singleton _ _).symm
      · intro _
        have : Ring nx pv (locs T ++ [.elem j]) := by
          simpa [locs] using h2
        rw [ring_rotate] at this
        exact this
  · have hit : e.id ∈ t := by
      rcases List.mem_cons.mp hin with h | h
      · exact absurd h hh
      · exact h
    obtain ⟨T1, T2, rfl⟩ := List.append_of_mem hit
    have hq : unhead h e.id e.key p = .ok p := by unfold unhead; rw [if_neg hh]
    have e1 : locs (h :: (T1 ++ e.id :: T2)) = locs (h :: T1) ++ .elem e.id :: locs T2 := by simp [locs]
    obtain ⟨nx, pv, h1, h2, h3, h4, h5⟩ := unlink_ring E (p := p) (i := e.id) (A := locs (h :: T1)) (B := locs T2)
      (e1 ▸ hring) (e1 ▸ locs_nodup.mpr hgd) (e1 ▸ hal)
    rw [← e1] at h5
    refine ⟨p, nx, pv, p.defer, hq, h1, base nx pv _ h5 ⟨G1 ++ (e.key, h :: (T1 ++ T2)) :: G2, ?_⟩⟩
    have := after nx pv (h :: (T1 ++ T2)) ?_ ?_ h5 (G1 ++ (e.key, h :: (T1 ++ T2)) :: G2) ?_
    · rw [hdf]; simpa using this
    · refine (List.perm_append_singleton _ _).trans ?_
      exact (List.perm_middle (a := e.id) (l₁ := h :: T1) (l₂ := T2)).symm
    · intro _; simpa [locs] using h2
    · rw [if_neg (by simp)]
      refine List.perm_middle.trans ?_
      exact (List.perm_append_singleton _ _).symm

end
end Verif.Lru.Ptr
