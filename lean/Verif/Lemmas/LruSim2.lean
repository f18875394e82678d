import Verif.Lemmas.LruSim
/-
Lookup, release and insertion.
-/
namespace Verif.Lru.Ptr

variable {τ σ β γ : Type} {vw : β → γ} {E : Env} {I : Joint τ σ β γ} {ad : Deleter σ β} {pd : PDeleter τ γ} {f : Elem β → σ → σ} {G : Cell γ → τ → Res τ}
  {Z : List Nat} {Q : List (Item β)} {pw : PWorld τ γ} {w w' : World σ β}

theorem perm_set {A B : List (Elem β)} {e e' : Elem β} (hi : e'.id = e.id) (hk : e'.key = e.key) :
    ((A ++ e' :: B).map (fun e => (e.key, e.id))).Perm ((A ++ e :: B).map (fun e => (e.key, e.id))) := by
  simp [hi, hk]

theorem pinKey_sim {upd : Bool} {k : Bytes} (s : Sim I Z Q pw w) :
    ∃ p', pinKey E upd k pw.cache = .ok (p', ((Lru.pinKey upd k w).2).map (·.ptr)) ∧
      Sim I Z Q { pw with cache := p' } (Lru.pinKey upd k w).1 := by
  unfold pinKey Lru.pinKey
  rw [s.tab.find]
  cases hf : findKey k w.cache.nodes with
  | none => exact ⟨_, rfl, s⟩
  | some e =>
    obtain ⟨he, rfl⟩ := (findKey_iff s.tab.keys).mp hf
    obtain ⟨A, B, hn, hd, hA, hB⟩ := nodes_split he s.rep.idsN
    simp only [Option.map_some, bind, Except.bind, load_ok (s.rep.cellN e he)]
    have hpin : (cellOf I.view e).pin = e.pin := rfl
    have hun : (cellOf I.view e).units = e.units := rfl
    have hptr : (cellOf I.view e).ptr = e.ptr := rfl
    simp only [hpin, hun, hptr]
    obtain ⟨a1, a2, a3, a4, a5⟩ := s.rep.sel
    have hset : ∀ e' : Elem β, e'.id = e.id → setElem e' (A ++ e :: B) = A ++ e' :: B :=
      fun e' h => setElem_mid e' h hA hB
    rw [hn, hset _ (by rfl)]
    have fin : ∀ (c0 : Cache β) (p0 : PCache γ) (e0 : Elem β), Rep I.view Z p0 c0 → c0.nodes = A ++ e0 :: B → 
        e0.id = e.id → cellOf I.view e0 = cellOf I.view e → p0.table = pw.cache.table → c0.defer = w.cache.defer → 
        c0.nextId = w.cache.nextId → c0.units = w.cache.units → c0.maxUnits = w.cache.maxUnits →
        c0.maxIdle = w.cache.maxIdle → c0.lru = w.cache.lru →
        Sim I Z Q { pw with cache := store e.id { cellOf I.view e with pin := e.pin + 1 } p0 }
          { w with cache := { w.cache with
              nodes := A ++ { e with pin := e.pin + 1, linked := e0.linked } :: B, pinnedUnits := c0.pinnedUnits } } := by
      intro c0 p0 e0 r0 hn0 hi0 hc0 ht0 hd0 hx0 h1 h2 h3 h4
      refine ⟨⟨?_, s.tick, ?_⟩, ?_⟩
      rotate_left
      · have := items_set (c := w.cache) (c' := { w.cache with
              nodes := A ++ { e with pin := e.pin + 1, linked := e0.linked } :: B, pinnedUnits := c0.pinnedUnits }) hn rfl rfl rfl
        simp only [this]
        exact s.inv
      rotate_left
      · have := r0.storeN hn0 (e' := { e with pin := e.pin + 1, linked := e0.linked }) hi0.symm rfl
        rw [hi0] at this
        convert this using 2
        all_goals (first | rfl | exact hd0.symm | exact hx0.symm | exact h1.symm | exact h2.symm | exact h3.symm | exact h4.symm)
      · show Tab p0.table _
        rw [ht0]
        refine s.tab.congr ?_
        rw [hn]
        exact perm_set rfl rfl
    by_cases hp : e.pin = 0
    · simp only [if_pos hp]
      have r1 : Rep I.view Z { pw.cache with pinnedUnits := pw.cache.pinnedUnits + e.units }
          { w.cache with pinnedUnits := w.cache.pinnedUnits + e.units } :=
        s.rep.like a1 (by simp only; rw [a2]) a3 a4 a5
      by_cases hc : pw.cache.lru = true ∧ upd = true
      · rw [if_pos hc]
        obtain ⟨nx, pv, h1, h2, h3, h4⟩ := r1.take E hn
        rw [h1]
        simp only
        rw [a5] at hc
        rw [if_pos ⟨hp, hc⟩]
        have r2 := h2.put (e := { e with linked := false }) (A := A) (B := B) rfl (r1.cellN e he) rfl h3 h4
        exact ⟨_, rfl, fin _ _ _ r2 rfl rfl rfl rfl rfl rfl rfl rfl rfl rfl⟩
      · rw [if_neg hc]
        rw [a5] at hc
        rw [if_neg (fun h => hc h.2)]
        exact ⟨_, rfl, fin _ _ _ r1 hn rfl rfl rfl rfl rfl rfl rfl rfl rfl⟩
    · simp only [if_neg hp]
      rw [if_neg (fun h => hp h.1)]
      exact ⟨_, rfl, fin _ _ _ s.rep hn rfl rfl rfl rfl rfl rfl rfl rfl rfl⟩

theorem lookup_sim {upd : Bool} {k : Bytes} {r : Option (Elem β)} (D : Follows I ad pd) (s : Sim I Z Q pw w)
    (h : Lru.lookup E ad upd k w = .ok (w', r)) :
    ∃ pw', lookup E pd upd k pw = .ok (pw', r.map (·.ptr)) ∧ Sim I Z Q pw' w' := by
  unfold Lru.lookup at h
  unfold lookup
  simp only [bind, Except.bind] at h ⊢
  cases hx : Lru.removeExpired E ad w with
  | error e => rw [hx] at h; cases h
  | ok w1 =>
    rw [hx] at h
    simp only [Except.ok.injEq] at h
    obtain ⟨pw1, b1, b2⟩ := removeExpired_sim D s hx
    obtain ⟨p', c1, c2⟩ := pinKey_sim (E := E) (upd := upd) (k := k) b2
    rw [b1]
    simp only [c1]
    rw [h] at c2 ⊢
    exact ⟨_, rfl, c2⟩

/-! ### Release -/

theorem length_le_of_nodup {l : List Nat} {n : Nat} (hd : l.Nodup) (h : ∀ i ∈ l, i < n) : l.length ≤ n := by
  have : l.Subperm (List.range n) := List.subperm_of_subset hd (fun i hi => List.mem_range.mpr (h i hi))
  simpa using this.length_le

/-- The walk towards `prev` along a deferred list. -/
theorem search_chain {p : PCache γ} {h v : Nat} : ∀ (xs : List Nat) (x n : Nat), xs.length + 1 < n →
    List.IsChain (fun x y => p.prev x = some y) (locs (x :: (xs ++ [h]))) →
    (∀ i ∈ x :: xs, i ≠ h ∧ ∃ c, p.cell i = some c) →
    ∃ j, searchDeferred h v p n (some (.elem x)) = .ok (some (.elem j)) ∧ j ∈ x :: (xs ++ [h]) ∧
      ((∃ c, p.cell j = some c ∧ c.ptr = v) ∨ (j = h ∧ ∀ i ∈ x :: xs, ∀ c, p.cell i = some c → c.ptr ≠ v))
  | xs, x, 0, hn, _, _ => by omega
  | xs, x, n + 1, hn, hc, hx => by
    obtain ⟨hxh, c, hcx⟩ := hx x (by simp)
    unfold searchDeferred
    rw [if_pos (by simpa using hxh)]
    simp only [bind, Except.bind, load_ok hcx]
    by_cases hv : c.ptr = v
    · rw [if_neg (by simpa using hv)]
      exact ⟨x, rfl, by simp, .inl ⟨c, hcx, hv⟩⟩
    · rw [if_pos hv]
      have hal : Alive p (.elem x) := by show (p.cell x).isSome; rw [hcx]; rfl
      simp only [getPrev, deref_alive hal, bind, Except.bind]
      cases xs with
      | nil =>
        have : p.prev (.elem x) = some (.elem h) := by
          simpa [locs] using hc
        rw [this]
        obtain ⟨m, rfl⟩ : ∃ m, n = m + 1 := ⟨n - 1, by simp at hn; omega⟩
        refine ⟨h, by simp [searchDeferred], by simp, .inr ⟨rfl, ?_⟩⟩
        intro i hi c' hc'
        simp at hi; subst hi
        rw [hcx] at hc'; cases hc'
        exact hv
      | cons y ys =>
        have hc2 : List.IsChain (fun x y => p.prev x = some y) (.elem x :: .elem y :: locs (ys ++ [h])) := hc
        rw [List.isChain_cons_cons] at hc2
        rw [hc2.1]
        obtain ⟨j, h1, h2, h3⟩ := search_chain ys y n (by simp at hn; omega) hc2.2
          (fun i hi => hx i (by simp at hi ⊢; tauto))
        refine ⟨j, h1, by simp at h2 ⊢; tauto, ?_⟩
        rcases h3 with h3 | ⟨h3, h4⟩
        · exact .inl h3
        · refine .inr ⟨h3, ?_⟩
          intro i hi c' hc'
          rcases List.mem_cons.mp hi with rfl | hi
          · rw [hcx] at hc'; cases hc'; exact hv
          · exact h4 i hi c' hc'

/-- The search in `ReleaseWithOptions` finds an element with the value if there is one. -/
theorem search_ring {p : PCache γ} {c : Cache β} (r : Rep vw Z p c) {G : List (Bytes × List Nat)}
    (hG : Groups p.next p.prev p.defer c.defer G) {k : Bytes} {h : Nat} (ha : assoc k p.defer = some h) (v : Nat) :
    ∃ e ∈ c.defer, e.key = k ∧
      (do searchDeferred h v p (p.nextId + 1) (← getPrev (some (.elem h)) p)) = .ok (some (.elem e.id)) ∧
      (e.ptr ≠ v → ∀ x ∈ c.defer, x.key = k → x.ptr ≠ v) := by
  obtain ⟨G1, G2, t, hGe⟩ := hG.at ha
  have hgm : (k, h :: t) ∈ G := by rw [hGe]; simp
  have hring := ring_back (hG.ring _ hgm)
  have hal := r.groupAlive hG hgm
  have hh : Alive p (.elem h) := hal _ (by simp [locs])
  have hgd := hG.nodup r.idsD hgm
  have hel : ∀ i ∈ h :: t, ∃ e ∈ c.defer, e.id = i ∧ e.key = k ∧ p.cell i = some (cellOf vw e) := by
    intro i hi
    obtain ⟨e, he, h1, h2⟩ := hG.key _ hgm i hi
    exact ⟨e, he, h1, h2, by rw [← h1]; exact r.cellD e he⟩
  have hlen : (h :: t).length ≤ p.nextId := by
    refine length_le_of_nodup hgd ?_
    intro i hi
    obtain ⟨e, he, h1, _⟩ := hel i hi
    rw [r.nextId, ← h1]
    exact r.fresh e.id (by unfold idsOf; simp; exact .inr (.inl ⟨e, he, rfl⟩))
  have hmem : ∀ x ∈ c.defer, x.key = k → x.id ∈ h :: t := fun x hx hk => (hG.mem_iff r.idsD hGe hx).mpr hk
  simp only [getPrev, deref_alive hh, bind, Except.bind]
  have hring' : List.IsChain (fun x y => p.prev x = some y) (locs (h :: (t.reverse ++ [h]))) := by
    simpa [locs] using hring
  cases ht : t.reverse with
  | nil =>
    have htn : t = [] := by simpa using ht
    subst htn
    have : p.prev (.elem h) = some (.elem h) := by simpa [locs] using hring'
    rw [this]
    obtain ⟨e, he, h1, h2, h3⟩ := hel h (by simp)
    refine ⟨e, he, h2, by simp [searchDeferred, h1], ?_⟩
    intro hne x hx hk
    have := hmem x hx hk
    simp at this
    have := List.inj_on_of_nodup_map r.idsD hx he (by rw [this, h1])
    rw [this]; exact hne
  | cons y ys =>
    rw [ht] at hring'
    have hc2 : List.IsChain (fun x y => p.prev x = some y) (.elem h :: .elem y :: locs (ys ++ [h])) := hring'
    rw [List.isChain_cons_cons] at hc2
    rw [hc2.1]
    have hsub : ∀ i, i ∈ y :: ys ↔ i ∈ t := by intro i; rw [← ht]; simp
    have hlen2 : t.length = ys.length + 1 := by rw [← List.length_reverse, ht]; rfl
    obtain ⟨j, h1, h2, h3⟩ := search_chain (p := p) (h := h) (v := v) ys y (p.nextId + 1)
      (by simp at hlen; omega) hc2.2 (by
        intro i hi
        have hi' := (hsub i).mp hi
        obtain ⟨e, _, _, _, he⟩ := hel i (by simp [hi'])
        refine ⟨?_, _, he⟩
        rintro rfl
        exact (List.nodup_cons.mp hgd).1 hi')
    have hj : j ∈ h :: t := by
      rw [← List.cons_append, List.mem_append] at h2
      rcases h2 with h2 | h2
      · simp [(hsub j).mp h2]
      · simp at h2; simp [h2]
    obtain ⟨e, he, e1, e2, e3⟩ := hel j hj
    subst e1
    refine ⟨e, he, e2, h1, ?_⟩
    intro hne x hx hk
    rcases h3 with ⟨c', hc', hv⟩ | ⟨hjh, hno⟩
    · rw [e3] at hc'; cases hc'; exact absurd hv hne
    · have hxm := hmem x hx hk
      by_cases hxe : x.id = e.id
      · have := List.inj_on_of_nodup_map r.idsD hx he hxe
        rw [this]; exact hne
      · have : x.id ∈ t := by
          rcases List.mem_cons.mp hxm with h | h
          · exact absurd (h.trans hjh.symm) hxe
          · exact h
        exact hno x.id ((hsub _).mpr this) _ (r.cellD x hx)

/-- No two deferred elements have the same key and value. -/
def UniqueDeferred (c : Cache β) : Prop :=
  ∀ a ∈ c.defer, ∀ b ∈ c.defer, a.key = b.key → a.ptr = b.ptr → a = b

theorem releaseDeferred_none {k : Bytes} {v : Nat} (s : Sim I Z Q pw w)
    (h : w.cache.defer.find? (fun e => e.key == k && e.ptr == v) = none) :
    releaseDeferred E pd k v pw = .ok none := by
  unfold releaseDeferred
  cases ha : assoc k pw.cache.defer with
  | none => rfl
  | some i =>
    obtain ⟨G, hG⟩ := s.rep.groups
    obtain ⟨e, he, hk, h1, h2⟩ := search_ring s.rep hG ha v
    have hne : e.ptr ≠ v := by
      have := List.find?_eq_none.mp h e he
      simpa [hk] using this
    simp only [bind, Except.bind] at h1 ⊢
    cases hp : getPrev (some (.elem i)) pw.cache with
    | error x => rw [hp] at h1; cases h1
    | ok q =>
      rw [hp] at h1
      simp only at h1 ⊢
      rw [h1]
      simp only [load_ok (s.rep.cellD e he)]
      have : (cellOf I.view e).ptr = e.ptr := rfl
      simp only [this]
      rw [if_neg hne]

theorem items_midD {c : Cache β} {A B : List (Elem β)} {e : Elem β} (hn : c.defer = A ++ e :: B) (Q : List (Item β)) :
    (items c ++ Q).Perm (items { c with defer := A ++ B } ++ itemOf e :: Q) := by
  unfold items
  rw [hn]
  simp only [List.map_append, List.map_cons]
  refine List.Perm.trans ?_ (List.perm_middle).symm
  simp only [List.append_assoc, List.cons_append]
  rw [← List.append_assoc, ← List.append_assoc (List.map itemOf c.nodes)]
  exact List.perm_middle

theorem releaseDeferred_sim {k : Bytes} {v : Nat} {e : Elem β} (hq : Quiet I f G) (s : Sim I Z Q pw w) (hu : UniqueDeferred w.cache)
    (hf : w.cache.defer.find? (fun e => e.key == k && e.ptr == v) = some e)
    (h : Lru.releaseDeferred E (pureDel f) e w = .ok w') :
    ∃ pw', releaseDeferred E (extDel G) k v pw = .ok (some pw') ∧ Sim I Z Q pw' w' := by
  have he := List.mem_of_find?_eq_some hf
  have hkv := List.find?_some hf
  simp only [Bool.and_eq_true, beq_iff_eq] at hkv
  obtain ⟨rfl, rfl⟩ := hkv
  obtain ⟨Gr, hG⟩ := s.rep.groups
  unfold releaseDeferred
  cases ha : assoc e.key pw.cache.defer with
  | none =>
    obtain ⟨G1, G2, l, hGe, _⟩ := hG.of s.rep.idsD he
    exact absurd rfl (hG.none ha (e.key, l) (by rw [hGe]; simp))
  | some i =>
    obtain ⟨x, hx, hk, h1, h2⟩ := search_ring s.rep hG ha e.ptr
    have hxe : x = e := by
      by_cases hp : x.ptr = e.ptr
      · exact hu x hx e he hk hp
      · exact absurd rfl (h2 hp e he rfl)
    subst hxe
    simp only [bind, Except.bind] at h1 ⊢
    cases hp : getPrev (some (.elem i)) pw.cache with
    | error x => rw [hp] at h1; cases h1
    | ok q =>
      rw [hp] at h1
      simp only at h1 ⊢
      rw [h1]
      simp only [load_ok (s.rep.cellD x he)]
      have hptr : (cellOf I.view x).ptr = x.ptr := rfl
      have hpin : (cellOf I.view x).pin = x.pin := rfl
      simp only [hptr, hpin, if_true]
      unfold Lru.releaseDeferred at h
      simp only [bind, Except.bind] at h
      cases hA : assertThat E (x.pin > 0) with
      | error e => rw [hA] at h; cases h
      | ok u =>
        rw [hA] at h
        simp only at h ⊢
        obtain ⟨A, B, hn, hd, hAi, hBi⟩ := nodes_split he s.rep.idsD
        have r1 := s.rep.storeD hn (e' := { x with pin := x.pin - 1 }) rfl rfl
        have hcell : cellOf I.view { x with pin := x.pin - 1 } = { cellOf I.view x with pin := x.pin - 1 } := rfl
        rw [hcell] at r1
        by_cases hz : x.pin - 1 = 0
        · rw [if_pos hz] at h ⊢
          obtain ⟨p1, nx, pv, df, b1, b2, b3⟩ := r1.takeD E (e := { x with pin := x.pin - 1 }) (A := A) (B := B) rfl ha
          unfold undefer
          simp only [bind, Except.bind]
          simp only [hptr] at b1 b2
          rw [b1]
          simp only
          rw [b2]
          simp only
          rw [hd] at h
          obtain ⟨pw', c1, c2, c3, c4⟩ := discard_quiet (E := E) hq (Z := Z) (Q := Q) (e := { x with pin := x.pin - 1 })
            (pw := { pw with cache := { store x.id { cellOf I.view x with pin := x.pin - 1 } pw.cache with next := nx, prev := pv, defer := df } })
            (w := { w with cache := { w.cache with defer := A ++ B } })
            ⟨b3, s.tick, I.perm (items_midD hn Q) s.inv⟩ (by simp [store]; rfl) h
          simp only [hptr] at c1
          rw [c1]
          refine ⟨pw', rfl, ⟨c2, ?_⟩⟩
          rw [c3]
          refine s.tab.congr ?_
          rw [c4]
        · rw [if_neg hz] at h ⊢
          simp only [Except.ok.injEq] at h
          subst h
          have hset : setElem { x with pin := x.pin - 1 } w.cache.defer = A ++ { x with pin := x.pin - 1 } :: B := by
            rw [hn]; exact setElem_mid _ rfl hAi hBi
          rw [hset]
          refine ⟨_, rfl, ⟨⟨r1, s.tick, ?_⟩, s.tab.congr (List.Perm.refl _)⟩⟩
          have hi : items { w.cache with defer := A ++ { x with pin := x.pin - 1 } :: B } = items w.cache := by
            unfold items
            rw [hn]
            simp [itemOf]
          simp only [hi]
          exact s.inv

end Verif.Lru.Ptr
