import Verif.Lemmas.LruSim2
/-
Release to the table, insertion, size changes.
-/
namespace Verif.Lru.Ptr

variable {τ σ β γ : Type} {vw : β → γ} {E : Env} {I : Joint τ σ β γ} {ad : Deleter σ β} {pd : PDeleter τ γ} {f : Elem β → σ → σ} {G : Cell γ → τ → Res τ}
  {Z : List Nat} {Q : List (Item β)} {pw : PWorld τ γ} {w w' : World σ β}

theorem Sim.setPinned (s : Sim I Z Q pw w) (x : Int) :
    Sim I Z Q { pw with cache := { pw.cache with pinnedUnits := pw.cache.pinnedUnits - x } }
      { w with cache := { w.cache with pinnedUnits := w.cache.pinnedUnits - x } } := by
  obtain ⟨a1, a2, a3, a4, a5⟩ := s.rep.sel
  exact ⟨⟨s.rep.like a1 (by simp only; rw [a2]) a3 a4 a5, s.tick, s.inv⟩, s.tab.congr (List.Perm.refl _)⟩

theorem releaseTable_sim {upd : Bool} {v : Nat} {e : Elem β} (D : Follows I ad pd) (s : Sim I Z Q pw w) (he : e ∈ w.cache.nodes)
    (h : Lru.releaseTable E ad upd e.key v e w = .ok w') :
    ∃ pw', releaseTable E pd upd e.key v pw = .ok pw' ∧ Sim I Z Q pw' w' ∧ w'.cache.defer ⊆ w.cache.defer := by
  unfold releaseTable
  have hf : findKey e.key w.cache.nodes = some e := (findKey_iff s.tab.keys).mpr ⟨he, rfl⟩
  rw [s.tab.find, hf]
  simp only [Option.map_some, bind, Except.bind, load_ok (s.rep.cellN e he)]
  unfold Lru.releaseTable at h
  simp only [bind, Except.bind] at h
  have hpin : (cellOf I.view e).pin = e.pin := rfl
  have hptr : (cellOf I.view e).ptr = e.ptr := rfl
  have hun : (cellOf I.view e).units = e.units := rfl
  simp only [hpin, hptr, hun]
  cases hA : assertThat E (e.ptr = v) with
  | error x => rw [hA] at h; cases h
  | ok u =>
    rw [hA] at h
    simp only at h ⊢
    cases hA2 : assertThat E (e.pin > 0) with
    | error x => rw [hA2] at h; cases h
    | ok u2 =>
      rw [hA2] at h
      simp only at h ⊢
      obtain ⟨A, B, hn, hd, hA', hB'⟩ := nodes_split he s.rep.idsN
      rw [s.rep.lru]
      generalize htouch : (w.cache.lru && upd) = touch at h ⊢
      -- the world after the clock reading and the stores
      have s1 : Sim I Z Q (if touch = true then pw.ticked else pw) (if touch = true then w.ticked else w) := by
        split
        · exact s.ticked
        · exact s
      have hnow : pw.now E = w.now E := s.now
      rw [hnow]
      have hc1 : (if touch = true then pw.ticked else pw).cache = pw.cache := by split <;> rfl
      have hc2 : (if touch = true then w.ticked else w).cache = w.cache := by split <;> rfl
      generalize hpw1 : (if touch = true then pw.ticked else pw) = pw1 at *
      generalize hw1 : (if touch = true then w.ticked else w) = w1 at *
      generalize hlu : (if touch = true then w.now E else e.lastUse) = lu at *
      have hlu' : (if touch = true then w.now E else (cellOf I.view e).lastUse) = lu := hlu
      rw [hlu']
      rw [hc1]
      rw [hc2] at h
      have he1 : ∀ l, cellOf I.view { e with lastUse := lu, pin := e.pin - 1, linked := l } =
        { key := (cellOf I.view e).key, ptr := e.ptr, val := (cellOf I.view e).val, pin := e.pin - 1, units := e.units, lastUse := lu } :=
        fun _ => rfl
      have r1 := s.rep.storeN hn (e' := { e with lastUse := lu, pin := e.pin - 1 }) rfl rfl
      rw [he1] at r1
      have hset : setElem { e with lastUse := lu, pin := e.pin - 1 } w.cache.nodes =
          A ++ { e with lastUse := lu, pin := e.pin - 1 } :: B := by
        rw [hn]; exact setElem_mid _ rfl hA' hB'
      have hst : ∀ i (c : Cell γ) (p : PCache γ), (store i c p).table = p.table := fun _ _ _ => rfl
      have s2 : Sim I Z Q { pw1 with cache := (store e.id
            { key := (cellOf I.view e).key, ptr := e.ptr, val := (cellOf I.view e).val, pin := e.pin - 1, units := e.units, lastUse := lu }
            pw.cache) }
          { w1 with cache := { w.cache with nodes := setElem { e with lastUse := lu, pin := e.pin - 1 } w.cache.nodes } } := by
        rw [hset]
        refine ⟨⟨r1, s1.tick, ?_⟩, ?_⟩
        · have := items_set (c := w.cache) (c' := { w.cache with nodes := A ++ { e with lastUse := lu, pin := e.pin - 1 } :: B })
            hn rfl rfl rfl
          simp only [this]
          have := s1.inv
          rwa [hc2] at this
        simp only [hst]
        refine s.tab.congr ?_
        rw [hn]
        exact perm_set rfl rfl
      by_cases hz : e.pin - 1 = 0
      · rw [if_pos hz] at h ⊢
        by_cases ht : touch = true
        · rw [if_pos ht] at h ⊢
          unfold linkFront at h
          by_cases hl : e.linked = true
          · rw [if_pos hl] at h; cases h
          · rw [if_neg hl] at h
            have hl' : e.linked = false := by simpa using hl
            obtain ⟨nx, pv, b1, b2⟩ := r1.front (e := { e with lastUse := lu, pin := e.pin - 1 }) (A := A) (B := B) rfl hl'
            simp only at b1
            rw [b1]
            simp only at h ⊢
            have s3 : Sim I Z Q { pw1 with cache := { (store e.id
                  { key := (cellOf I.view e).key, ptr := e.ptr, val := (cellOf I.view e).val, pin := e.pin - 1, units := e.units, lastUse := lu }
                  pw.cache) with next := nx, prev := pv } }
                { w1 with cache := { w.cache with nodes :=
                  { e with lastUse := lu, pin := e.pin - 1, linked := true } :: dropId e.id w.cache.nodes } } := by
              rw [hd]
              refine ⟨⟨b2, s1.tick, ?_⟩, ?_⟩
              · have := s1.inv
                rw [hc2] at this
                refine I.perm ?_ this
                refine List.Perm.append_right _ ?_
                unfold items
                rw [hn]
                simp only [List.map_append, List.map_cons, List.cons_append, List.append_assoc]
                exact List.perm_middle
              simp only [hst]
              refine s.tab.congr ?_
              rw [hn]
              refine (List.Perm.map _ (List.perm_middle (a := { e with lastUse := lu, pin := e.pin - 1, linked := true })).symm).trans ?_
              exact perm_set rfl rfl
            have s4 := s3.setPinned e.units
            simp only at s4
            by_cases ho : ((store e.id
                { key := (cellOf I.view e).key, ptr := e.ptr, val := (cellOf I.view e).val, pin := e.pin - 1, units := e.units, lastUse := lu }
                pw.cache).units > (store e.id
                { key := (cellOf I.view e).key, ptr := e.ptr, val := (cellOf I.view e).val, pin := e.pin - 1, units := e.units, lastUse := lu }
                pw.cache).maxUnits)
            · have ho' : w.cache.units > w.cache.maxUnits := by rw [← s.rep.units, ← s.rep.maxUnits]; exact ho
              rw [if_pos ho'] at h
              rw [if_pos ho]
              obtain ⟨pw', c1, c2, c3⟩ := remove_sim D s4 h
              refine ⟨pw', c1, c2, c3 fun x hx => ?_⟩
              have hx' := (findKey_iff (k := e.key) (e := { e with lastUse := lu, pin := e.pin - 1, linked := true })
                s4.tab.keys).mpr ⟨List.mem_cons_self, rfl⟩
              simp only at hx'
              rw [hx'] at hx
              cases hx
              show e.pin - 1 ≤ 0
              omega
            · have ho' : ¬ w.cache.units > w.cache.maxUnits := by rw [← s.rep.units, ← s.rep.maxUnits]; exact ho
              rw [if_neg ho'] at h
              rw [if_neg ho]
              simp only [Except.ok.injEq] at h
              subst h
              exact ⟨_, rfl, s4, List.Subset.refl _⟩
        · rw [if_neg ht] at h ⊢
          have s4 := s2.setPinned e.units
          by_cases ho : ((store e.id
              { key := (cellOf I.view e).key, ptr := e.ptr, val := (cellOf I.view e).val, pin := e.pin - 1, units := e.units, lastUse := lu }
              pw.cache).units > (store e.id
              { key := (cellOf I.view e).key, ptr := e.ptr, val := (cellOf I.view e).val, pin := e.pin - 1, units := e.units, lastUse := lu }
              pw.cache).maxUnits)
          · have ho' : w.cache.units > w.cache.maxUnits := by rw [← s.rep.units, ← s.rep.maxUnits]; exact ho
            rw [if_pos ho'] at h
            rw [if_pos ho]
            obtain ⟨pw', c1, c2, c3⟩ := remove_sim D s4 h
            refine ⟨pw', c1, c2, c3 fun x hx => ?_⟩
            have hx' := (findKey_iff (k := e.key) (e := { e with lastUse := lu, pin := e.pin - 1 })
              s4.tab.keys).mpr ⟨by simp only; rw [hset]; simp, rfl⟩
            simp only at hx'
            rw [hx'] at hx
            cases hx
            show e.pin - 1 ≤ 0
            omega
          · have ho' : ¬ w.cache.units > w.cache.maxUnits := by rw [← s.rep.units, ← s.rep.maxUnits]; exact ho
            rw [if_neg ho'] at h
            rw [if_neg ho]
            simp only [Except.ok.injEq] at h
            subst h
            exact ⟨_, rfl, s4, List.Subset.refl _⟩
      · rw [if_neg hz] at h ⊢
        simp only [Except.ok.injEq] at h
        subst h
        exact ⟨_, rfl, s2, List.Subset.refl _⟩

/-- The deleter leaves the cache alone, and no two deferred elements are confused. -/
def Easy (I : Joint τ σ β γ) (ad : Deleter σ β) (pd : PDeleter τ γ) (c : Cache β) : Prop :=
  ∃ f G, ad = pureDel f ∧ pd = extDel G ∧ Quiet I f G ∧ UniqueDeferred c

/-- The value is not among the deferred ones. -/
theorem release_here {upd : Bool} {k : Bytes} {v : Nat} (D : Follows I ad pd) (s : Sim I Z Q pw w)
    (hf : w.cache.defer.find? (fun e => e.key == k && e.ptr == v) = none) (h : Lru.release E ad upd k v w = .ok w') :
    ∃ pw', release E pd upd k v pw = .ok pw' ∧ Sim I Z Q pw' w' ∧ w'.cache.defer ⊆ w.cache.defer := by
  unfold Lru.release at h
  unfold release
  rw [hf] at h
  simp only [releaseDeferred_none s hf, bind, Except.bind]
  simp only at h
  cases hk : findKey k w.cache.nodes with
  | none => rw [hk] at h; cases h
  | some e =>
    rw [hk] at h
    obtain ⟨he, rfl⟩ := (findKey_iff s.tab.keys).mp hk
    exact releaseTable_sim D s he h

theorem release_sim {upd : Bool} {k : Bytes} {v : Nat} (D : Follows I ad pd) (s : Sim I Z Q pw w)
    (hd : Easy I ad pd w.cache) (h : Lru.release E ad upd k v w = .ok w') :
    ∃ pw', release E pd upd k v pw = .ok pw' ∧ Sim I Z Q pw' w' := by
  cases hf : w.cache.defer.find? (fun e => e.key == k && e.ptr == v) with
  | none => exact drop_keeps (release_here D s hf h)
  | some e =>
    unfold Lru.release at h
    unfold release
    rw [hf] at h
    obtain ⟨f, G, rfl, rfl, hq, hu⟩ := hd
    obtain ⟨pw', b1, b2⟩ := releaseDeferred_sim hq s hu hf h
    refine ⟨pw', ?_, b2⟩
    simp only [b1, bind, Except.bind]

/-! ### Insertion -/

theorem addPinned_sim {k : Bytes} {v : Nat} {x : β} {u : Nat} (s : Sim I Z (⟨k, v, x⟩ :: Q) pw w)
    (hk : findKey k w.cache.nodes = none) :
    ∃ pw', addPinned E k v (I.view x) u pw = .ok pw' ∧ Sim I Z Q pw' (Lru.addPinned E k v x u w) := by
  let e : Elem β := { id := w.cache.nextId, key := k, ptr := v, val := x, pin := 1, units := u,
                      lastUse := w.now E, linked := false }
  obtain ⟨a1, a2, a3, a4, a5⟩ := s.rep.sel
  have r1 := s.rep.alloc (e := e) rfl rfl
  have r2 : Rep I.view Z { pw.cache with
        cell := Function.update pw.cache.cell pw.cache.nextId (some (cellOf I.view e)),
        next := Function.update pw.cache.next (.elem pw.cache.nextId) none,
        prev := Function.update pw.cache.prev (.elem pw.cache.nextId) none,
        nextId := pw.cache.nextId + 1,
        units := pw.cache.units + u, pinnedUnits := pw.cache.pinnedUnits + u,
        table := assign k pw.cache.nextId pw.cache.table }
      { w.cache with nodes := e :: w.cache.nodes, nextId := w.cache.nextId + 1,
                     units := w.cache.units + u, pinnedUnits := w.cache.pinnedUnits + u } := by
    refine r1.like (by simp only; rw [a1]) (by simp only; rw [a2]) a3 a4 a5 ?_ ?_ ?_
    · simp only [s.rep.nextId]; rfl
    · simp only [s.rep.nextId]; rfl
    · simp only [s.rep.nextId]; rfl
  have tab : ∀ c' : Cache β, (∃ l, c'.nodes = { e with linked := l } :: w.cache.nodes) →
      Tab (assign k pw.cache.nextId pw.cache.table) c' := by
    rintro c' ⟨l, hc⟩
    rw [s.rep.nextId]
    refine s.tab.assign (e := { e with linked := l }) hk ?_ hc
    intro y hy
    exact s.rep.fresh y.id (by unfold idsOf; simp; exact .inl ⟨y, hy, rfl⟩)
  have hcell : cellOf I.view e = { key := k, ptr := v, val := I.view x, pin := 1, units := u, lastUse := pw.now E } := by
    rw [s.now]; rfl
  rw [hcell] at r2
  have hI : ∀ l, I.holds pw.ext w.ext (w.cache.nextId + 1)
      (items { w.cache with nodes := { e with linked := l } :: w.cache.nodes } ++ Q) := by
    intro l
    exact I.mono (I.perm List.perm_middle s.inv)
  unfold addPinned Lru.addPinned
  simp only [bind, Except.bind]
  by_cases hl : pw.cache.lru = false
  · rw [if_pos hl]
    obtain ⟨nx, pv, b1, b2⟩ := r2.front (e := e) (A := []) (B := w.cache.nodes) rfl rfl
    have hid : e.id = pw.cache.nextId := s.rep.nextId.symm
    rw [hid] at b1
    rw [b1]
    refine ⟨_, rfl, ⟨⟨?_, by simp only [s.tick], hI _⟩, ?_⟩⟩
    · have hwl : w.cache.lru = false := by rw [← a5]; exact hl
      simp only [hwl, Bool.not_false]
      simp only [hwl] at b2
      exact b2
    · exact tab _ ⟨_, rfl⟩
  · rw [if_neg hl]
    refine ⟨_, rfl, ⟨⟨?_, by simp only [s.tick], hI _⟩, ?_⟩⟩
    · have hwl : w.cache.lru = true := by rw [← a5]; simpa using hl
      simp only [hwl, Bool.not_true]
      simp only [hwl] at r2
      exact r2
    · exact tab _ ⟨_, rfl⟩

/-- Insertion under a key that is not in the table. -/
theorem insertPinned_sim {k : Bytes} {v : Nat} {x : β} {u : Nat} (D : Follows I ad pd) (s : Sim I Z (⟨k, v, x⟩ :: Q) pw w)
    (hk : findKey k w.cache.nodes = none) (h : Lru.insertPinned E ad k v x u w = .ok w') :
    ∃ pw', insertPinned E pd k v (I.view x) u pw = .ok pw' ∧ Sim I Z Q pw' w' ∧ w'.cache.defer ⊆ w.cache.defer := by
  unfold Lru.insertPinned at h
  unfold insertPinned
  simp only [bind, Except.bind] at h ⊢
  have hr : Lru.remove E ad k w = .ok w := by unfold Lru.remove; rw [hk]
  rw [hr] at h
  obtain ⟨pw1, b1, b2, _⟩ := remove_sim D s hr
  obtain ⟨pw2, c1, c2⟩ := addPinned_sim (E := E) (v := v) (x := x) (u := u) b2 hk
  rw [b1]
  simp only [c1]
  obtain ⟨pw3, d1, d2, d3⟩ := gc_sim D c2 h
  exact ⟨pw3, d1, d2, d3⟩

theorem insertPinned_quiet {k : Bytes} {v : Nat} {x : β} {u : Nat} (q : Quiet I f G) (s : Sim I Z (⟨k, v, x⟩ :: Q) pw w)
    (h : Lru.insertPinned E (pureDel f) k v x u w = .ok w') :
    ∃ pw', insertPinned E (extDel G) k v (I.view x) u pw = .ok pw' ∧ Sim I Z Q pw' w' := by
  unfold Lru.insertPinned at h
  unfold insertPinned
  simp only [bind, Except.bind] at h ⊢
  cases hr : Lru.remove E (pureDel f) k w with
  | error e => rw [hr] at h; cases h
  | ok w1 =>
    rw [hr] at h
    obtain ⟨pw1, b1, b2, _⟩ := remove_sim q.follows s hr
    obtain ⟨pw2, c1, c2⟩ := addPinned_sim (E := E) (v := v) (x := x) (u := u) b2 (remove_key s.tab.keys s.rep.idsN hr)
    rw [b1]
    simp only [c1]
    exact drop_keeps (gc_sim q.follows c2 h)

end Verif.Lru.Ptr
