import Verif.Lemmas.LruDefer
import Verif.Lemmas.LruCache
/-
Each operation of the pointer-level model does what the operation of `Model/LruCache.lean` does.
-/
namespace Verif.Lru.Ptr

variable {τ σ β γ : Type} {vw : β → γ}

/-! ### The table -/

section
variable {t : List (Bytes × Nat)} {c : Cache β}

theorem Tab.tkeys (h : Tab t c) : (t.map (·.1)).Nodup := by
  refine (h.perm.map _).nodup_iff.mpr ?_
  rw [List.map_map]; exact h.keys

theorem Tab.find (h : Tab t c) (k : Bytes) : assoc k t = (findKey k c.nodes).map (·.id) := by
  cases hf : findKey k c.nodes with
  | none =>
    rw [Option.map_none, assoc_none]
    intro x hx hk
    obtain ⟨e, he, rfl⟩ := List.mem_map.mp (h.perm.mem_iff.mp hx)
    exact findKey_none.mp hf e he hk
  | some e =>
    obtain ⟨he, hk⟩ := (findKey_iff h.keys).mp hf
    rw [Option.map_some, assoc_iff h.tkeys]
    refine h.perm.mem_iff.mpr (List.mem_map.mpr ⟨e, he, ?_⟩)
    rw [hk]

theorem Tab.length (h : Tab t c) : t.length = c.nodes.length := by
  rw [h.perm.length_eq, List.length_map]

theorem Tab.congr (h : Tab t c) {c' : Cache β}
    (hp : (c'.nodes.map (fun e => (e.key, e.id))).Perm (c.nodes.map (fun e => (e.key, e.id)))) : Tab t c' := by
  refine ⟨h.perm.trans hp.symm, ?_, h.sorted⟩
  have := (hp.map (·.1)).nodup_iff.mpr (by rw [List.map_map]; exact h.keys)
  rwa [List.map_map] at this

theorem Tab.erase (h : Tab t c) {A B : List (Elem β)} {e : Elem β} (hn : c.nodes = A ++ e :: B) {c' : Cache β}
    (hc : c'.nodes = A ++ B) : Tab (erase e.key t) c' := by
  have hk := h.keys
  rw [hn] at hk
  obtain ⟨hA, hB⟩ := mid_keys hk
  refine ⟨?_, ?_, h.sorted.sublist List.filter_sublist⟩
  · unfold Ptr.erase
    refine (h.perm.filter _).trans ?_
    rw [hn, hc, List.filter_map, List.filter_append, List.filter_cons]
    have h1 : A.filter ((fun x => !(x.1 == e.key)) ∘ fun x : Elem β => (x.key, x.id)) = A := by
      rw [List.filter_eq_self]; intro a ha; simpa using hA a ha
    have h2 : B.filter ((fun x => !(x.1 == e.key)) ∘ fun x : Elem β => (x.key, x.id)) = B := by
      rw [List.filter_eq_self]; intro a ha; simpa using hB a ha
    rw [h1, h2]; simp
  · rw [hc]
    refine hk.sublist (List.Sublist.map _ ?_)
    simp

theorem Tab.assign (h : Tab t c) {e : Elem β} (hk : findKey e.key c.nodes = none)
    (hi : ∀ x ∈ c.nodes, x.id < e.id) {c' : Cache β} (hc : c'.nodes = e :: c.nodes) :
    Tab (assign e.key e.id t) c' := by
  have ha : assoc e.key t = none := by rw [h.find, hk]; rfl
  rw [assign_new ha]
  refine ⟨?_, ?_, ?_⟩
  · rw [hc, List.map_cons]
    exact (List.perm_append_singleton _ _).trans (h.perm.cons _)
  · rw [hc, List.map_cons, List.nodup_cons]
    refine ⟨?_, h.keys⟩
    intro hm
    obtain ⟨x, hx, hxk⟩ := List.mem_map.mp hm
    exact findKey_none.mp hk x hx hxk
  · rw [List.pairwise_append]
    refine ⟨h.sorted, by simp, ?_⟩
    intro a ha b hb
    simp at hb; subst hb
    obtain ⟨x, hx, rfl⟩ := List.mem_map.mp (h.perm.mem_iff.mp ha)
    exact hi x hx

end

/-! ### The simulation relation -/

/-- A value in the cache: its key, its address and what it holds. -/
structure Item (β : Type) where
  key : Bytes
  ptr : Nat
  val : β

def itemOf (e : Elem β) : Item β := ⟨e.key, e.ptr, e.val⟩

/-- The values the cache owns. -/
def items (c : Cache β) : List (Item β) := (c.nodes ++ c.defer).map itemOf

/-- An invariant between the states the two deleters act on, the next fresh address, and the values that
exist. -/
structure Joint (τ σ β γ : Type) where
  /-- what the pointer-level cache keeps of a value -/
  view : β → γ
  holds : τ → σ → Nat → List (Item β) → Prop
  perm : ∀ {x y n l l'}, List.Perm l l' → holds x y n l → holds x y n l'
  mono : ∀ {x y n l}, holds x y n l → holds x y (n + 1) l

/-- The elements `Z` are being deleted; the values `Q` belong to deleters that are running. -/
structure RSim (I : Joint τ σ β γ) (Z : List Nat) (Q : List (Item β)) (pw : PWorld τ γ) (w : World σ β) : Prop where
  rep : Rep I.view Z pw.cache w.cache
  tick : pw.tick = w.tick
  inv : I.holds pw.ext w.ext w.cache.nextId (items w.cache ++ Q)

structure Sim (I : Joint τ σ β γ) (Z : List Nat) (Q : List (Item β)) (pw : PWorld τ γ) (w : World σ β) : Prop
    extends RSim I Z Q pw w where
  tab : Tab pw.cache.table w.cache

/-- The pointer-level deleter does what the other one does; it may call the cache. -/
structure Follows (I : Joint τ σ β γ) (ad : Deleter σ β) (pd : PDeleter τ γ) : Prop where
  run : ∀ {Z : List Nat} {Q : List (Item β)} {e : Elem β} {pw : PWorld τ γ} {w w' : World σ β},
    Sim I (e.id :: Z) (itemOf e :: Q) pw w → findKey e.key w.cache.nodes = none → ad e w = .ok w' →
    ∃ pw', pd (cellOf I.view e) pw = .ok pw' ∧ Sim I (e.id :: Z) Q pw' w' ∧ w'.cache.defer ⊆ w.cache.defer

/-- A deleter that acts on its own state only. -/
def extDel (G : Cell γ → τ → Res τ) : PDeleter τ γ := fun c w => do
  let x ← G c w.ext
  .ok { w with ext := x }

structure Quiet (I : Joint τ σ β γ) (f : Elem β → σ → σ) (G : Cell γ → τ → Res τ) : Prop where
  run : ∀ {x y n l e}, I.holds x y n (itemOf e :: l) → ∃ x', G (cellOf I.view e) x = .ok x' ∧ I.holds x' (f e y) n l

theorem Quiet.follows {I : Joint τ σ β γ} {f : Elem β → σ → σ} {G : Cell γ → τ → Res τ} (q : Quiet I f G) :
    Follows I (pureDel f) (extDel G) := by
  refine ⟨?_⟩
  intro Z Q e pw w w' s _ h
  simp only [pureDel, Except.ok.injEq] at h
  subst h
  obtain ⟨x', h1, h2⟩ := q.run (I.perm List.perm_middle s.inv)
  refine ⟨{ pw with ext := x' }, ?_, ⟨⟨s.rep, s.tick, h2⟩, s.tab⟩, List.Subset.refl _⟩
  simp only [extDel, h1, bind, Except.bind]

/-- The deleters of `C83`. -/
def pDel (g : Cell β → σ → σ) : PDeleter σ β := fun c w => .ok { w with ext := g c w.ext }
def aDel (g : Cell β → σ → σ) : Deleter σ β := pureDel (fun e => g (cellOf id e))

def sameExt (σ β : Type) : Joint σ σ β β := ⟨id, fun x y _ _ => x = y, fun _ h => h, fun h => h⟩

theorem quiet_same (g : Cell β → σ → σ) : Quiet (sameExt σ β) (fun e => g (cellOf id e)) (fun c x => .ok (g c x)) :=
  ⟨fun h => ⟨_, rfl, by have := h; simp only [sameExt] at this ⊢; rw [this]⟩⟩

theorem Sim.ext {Z : List Nat} {Q : List (Item β)} {pw : PWorld σ β} {w : World σ β} (s : Sim (sameExt σ β) Z Q pw w) :
    pw.ext = w.ext := s.inv

theorem follows_same (g : Cell β → σ → σ) : Follows (sameExt σ β) (aDel g) (pDel g) := (quiet_same g).follows

theorem assert_ok {E : Env} {q : Prop} [Decidable q] {x : Unit} (h : assertThat E q = .ok x) :
    ∀ r : Prop, [Decidable r] → (q → r) → assertThat E r = .ok () := by
  intro r _ hqr
  unfold assertThat at h ⊢
  cases hd : E.dbg with
  | false => simp
  | true =>
    rw [hd] at h
    by_cases hq : q
    · simp [hqr hq]
    · simp [hq] at h

section
variable {E : Env} {I : Joint τ σ β γ} {ad : Deleter σ β} {pd : PDeleter τ γ} {f : Elem β → σ → σ} {G : Cell γ → τ → Res τ}
  {Z : List Nat} {Q : List (Item β)} {pw : PWorld τ γ} {w w' : World σ β}

/-- The counters change alike. -/
theorem Rep.like {p p' : PCache γ} {c c' : Cache β} (r : Rep vw Z p c)
    (hu : p'.units = c'.units) (hp : p'.pinnedUnits = c'.pinnedUnits) (hm : p'.maxUnits = c'.maxUnits)
    (hi : p'.maxIdle = c'.maxIdle) (hl : p'.lru = c'.lru)
    (h1 : p'.cell = p.cell := by rfl) (h2 : p'.next = p.next := by rfl) (h3 : p'.prev = p.prev := by rfl)
    (h4 : p'.defer = p.defer := by rfl) (h5 : p'.nextId = p.nextId := by rfl)
    (h6 : c'.nodes = c.nodes := by rfl) (h7 : c'.defer = c.defer := by rfl)
    (h8 : c'.nextId = c.nextId := by rfl) : Rep vw Z p' c' := by
  have := r.scalars c'.units c'.pinnedUnits c'.maxUnits c'.maxIdle c'.lru p'.table
  cases p'; cases c'
  simp only at *
  subst h1 h2 h3 h4 h5 h6 h7 h8 hu hp hm hi hl
  exact this

theorem load_ok {p : PCache γ} {i : Nat} {c : Cell γ} (h : p.cell i = some c) :
    load (some (.elem i)) p = .ok (i, c) := by simp [load, h]

theorem items_mid {c : Cache β} {A B : List (Elem β)} {e : Elem β} (hn : c.nodes = A ++ e :: B) (Q : List (Item β)) :
    (items c ++ Q).Perm (items { c with nodes := A ++ B } ++ itemOf e :: Q) := by
  unfold items
  rw [hn]
  simp only [List.map_append, List.map_cons]
  refine List.Perm.trans ?_ (List.perm_middle).symm
  simp only [List.append_assoc, List.cons_append]
  exact List.perm_middle

theorem items_set {c c' : Cache β} {A B : List (Elem β)} {e e' : Elem β} (hn : c.nodes = A ++ e :: B)
    (hn' : c'.nodes = A ++ e' :: B) (hd : c'.defer = c.defer) (hi : itemOf e' = itemOf e) : items c' = items c := by
  unfold items
  rw [hn, hn', hd]
  simp [hi]

theorem discard_quiet {e : Elem β} (q : Quiet I f G) (s : RSim I (e.id :: Z) (itemOf e :: Q) pw w)
    (hc : pw.cache.cell e.id = some (cellOf I.view e)) (h : Lru.discard E (pureDel f) e w = .ok w') :
    ∃ pw', discard E (extDel G) e.id pw = .ok pw' ∧ RSim I Z Q pw' w' ∧ pw'.cache.table = pw.cache.table ∧
      w'.cache.nodes = w.cache.nodes := by
  unfold Lru.discard at h
  simp only [bind, Except.bind] at h
  cases ha : assertThat E (e.pin = 0) with
  | error x => rw [ha] at h; cases h
  | ok u =>
    rw [ha] at h
    simp only [pureDel, Except.ok.injEq] at h
    subst h
    have ha' : assertThat E ((cellOf I.view e).pin = 0) = .ok () := assert_ok ha _ id
    have r : Rep I.view (e.id :: Z) { pw.cache with units := pw.cache.units - e.units }
        { w.cache with units := w.cache.units - e.units } := by
      exact s.rep.like (by simp only [s.rep.units]) s.rep.pinnedUnits s.rep.maxUnits s.rep.maxIdle s.rep.lru
    obtain ⟨cell, h1, h2⟩ := r.free
    obtain ⟨x', g1, g2⟩ := q.run (I.perm List.perm_middle s.inv)
    refine ⟨{ cache := { pw.cache with units := pw.cache.units - e.units, cell := cell }, tick := pw.tick,
              ext := x' }, ?_, ⟨h2, s.tick, g2⟩, rfl, rfl⟩
    unfold discard
    simp only [bind, Except.bind, load_ok hc, ha', extDel, g1]
    have : (cellOf I.view e).units = e.units := rfl
    simp only [this]
    rw [h1]

theorem discard_sim {e : Elem β} (D : Follows I ad pd) (s : Sim I (e.id :: Z) (itemOf e :: Q) pw w)
    (hc : pw.cache.cell e.id = some (cellOf I.view e)) (hk : findKey e.key w.cache.nodes = none)
    (h : Lru.discard E ad e w = .ok w') :
    ∃ pw', discard E pd e.id pw = .ok pw' ∧ Sim I Z Q pw' w' ∧ w'.cache.defer ⊆ w.cache.defer := by
  unfold Lru.discard at h
  simp only [bind, Except.bind] at h
  cases ha : assertThat E (e.pin = 0) with
  | error x => rw [ha] at h; cases h
  | ok u =>
    rw [ha] at h
    simp only at h
    have ha' : assertThat E ((cellOf I.view e).pin = 0) = .ok () := assert_ok ha _ id
    have r : Rep I.view (e.id :: Z) { pw.cache with units := pw.cache.units - e.units }
        { w.cache with units := w.cache.units - e.units } := by
      exact s.rep.like (by simp only [s.rep.units]) s.rep.pinnedUnits s.rep.maxUnits s.rep.maxIdle s.rep.lru
    obtain ⟨pw1, g1, g2, g3⟩ := D.run (pw := { pw with cache := { pw.cache with units := pw.cache.units - e.units } })
      (w := { w with cache := { w.cache with units := w.cache.units - e.units } })
      ⟨⟨r, s.tick, s.inv⟩, s.tab.congr (List.Perm.refl _)⟩ hk h
    obtain ⟨cell, h1, h2⟩ := g2.rep.free
    refine ⟨{ pw1 with cache := { pw1.cache with cell := cell } }, ?_, ⟨⟨h2, g2.tick, g2.inv⟩, g2.tab⟩, g3⟩
    unfold discard
    have : (cellOf I.view e).units = e.units := rfl
    simp only [bind, Except.bind, load_ok hc, ha', this, g1]
    rw [h1]

theorem Rep.sel {p : PCache γ} {c : Cache β} (r : Rep vw Z p c) : 
    p.units = c.units ∧ p.pinnedUnits = c.pinnedUnits ∧ p.maxUnits = c.maxUnits ∧ p.maxIdle = c.maxIdle ∧
      p.lru = c.lru := ⟨r.units, r.pinnedUnits, r.maxUnits, r.maxIdle, r.lru⟩

/-- `Remove(Elem*)` of a pinned element. -/
theorem removeElem_pinned {c : Cache β} {A B : List (Elem β)} {e : Elem β} (r : Rep I.view Z pw.cache c)
    (hn : c.nodes = A ++ e :: B) (ht : pw.tick = w.tick)
    (hx : I.holds pw.ext w.ext w.cache.nextId (items w.cache ++ itemOf e :: Q))
    (hw : w.cache = { c with nodes := A ++ B }) (hp : e.pin > 0) (h : Lru.removeElem E ad e w = .ok w') :
    ∃ pw', removeElem E pd e.id pw = .ok pw' ∧ RSim I Z Q pw' w' ∧ pw'.cache.table = pw.cache.table ∧
      w'.cache.nodes = w.cache.nodes := by
  obtain ⟨nx, pv, h1, h2, h3, h4⟩ := r.take E hn
  rw [← hw] at h2
  have hc : pw.cache.cell e.id = some (cellOf I.view e) := r.cellN e (by rw [hn]; simp)
  have hl := load_ok (p := { pw.cache with next := nx, prev := pv }) hc
  unfold Lru.removeElem at h
  unfold removeElem
  simp only [bind, Except.bind, h1, hl]
  have hpin : (cellOf I.view e).pin = e.pin := rfl
  rw [if_pos hp] at h
  simp only [Except.ok.injEq] at h
  subst h
  rw [if_pos (by rw [hpin]; exact hp)]
  obtain ⟨a1, a2, a3, a4, a5⟩ := h2.sel
  have r2 : Rep I.view (e.id :: Z)
      { pw.cache with next := nx, prev := pv, pinnedUnits := pw.cache.pinnedUnits - e.units }
      { w.cache with pinnedUnits := w.cache.pinnedUnits - e.units } :=
    h2.like a1 (by simp only at a2 ⊢; rw [a2]) a3 a4 a5
  obtain ⟨nx', pv', df, b1, b2⟩ := r2.deferIt hc
  refine ⟨{ pw with cache := { pw.cache with next := nx', prev := pv', defer := df, pinnedUnits := pw.cache.pinnedUnits - e.units } },
    ?_, ⟨b2, ht, ?_⟩, rfl, rfl⟩
  · have e1 : (cellOf I.view e).units = e.units := rfl
    have e2 : (cellOf I.view e).key = e.key := rfl
    rw [e1, e2, b1]
  · refine I.perm ?_ hx
    unfold items
    simp only [List.map_append, List.map_cons]
    rw [List.append_assoc, List.append_assoc, List.cons_append]
    refine List.Perm.append_left _ ?_
    refine List.perm_middle.trans ?_
    exact List.Perm.refl _

theorem removeElem_quiet {c : Cache β} {A B : List (Elem β)} {e : Elem β} (q : Quiet I f G) (r : Rep I.view Z pw.cache c)
    (hn : c.nodes = A ++ e :: B) (ht : pw.tick = w.tick)
    (hx : I.holds pw.ext w.ext w.cache.nextId (items w.cache ++ itemOf e :: Q))
    (hw : w.cache = { c with nodes := A ++ B }) (h : Lru.removeElem E (pureDel f) e w = .ok w') :
    ∃ pw', removeElem E (extDel G) e.id pw = .ok pw' ∧ RSim I Z Q pw' w' ∧ pw'.cache.table = pw.cache.table ∧
      w'.cache.nodes = w.cache.nodes := by
  by_cases hp : e.pin > 0
  · exact removeElem_pinned r hn ht hx hw hp h
  · obtain ⟨nx, pv, h1, h2, h3, h4⟩ := r.take E hn
    rw [← hw] at h2
    have hc : pw.cache.cell e.id = some (cellOf I.view e) := r.cellN e (by rw [hn]; simp)
    have hl := load_ok (p := { pw.cache with next := nx, prev := pv }) hc
    unfold Lru.removeElem at h
    unfold removeElem
    simp only [bind, Except.bind, h1, hl]
    have hpin : (cellOf I.view e).pin = e.pin := rfl
    rw [if_neg hp] at h
    rw [if_neg (by rw [hpin]; exact hp)]
    exact discard_quiet q (pw := { pw with cache := { pw.cache with next := nx, prev := pv } }) ⟨h2, ht, hx⟩ hc h

theorem removeElem_sim {c : Cache β} {A B : List (Elem β)} {e : Elem β} (D : Follows I ad pd) (r : Rep I.view Z pw.cache c)
    (hn : c.nodes = A ++ e :: B) (ht : pw.tick = w.tick)
    (hx : I.holds pw.ext w.ext w.cache.nextId (items w.cache ++ itemOf e :: Q))
    (hw : w.cache = { c with nodes := A ++ B }) (hk : findKey e.key w.cache.nodes = none)
    (hT : Tab pw.cache.table w.cache) (h : Lru.removeElem E ad e w = .ok w') :
    ∃ pw', removeElem E pd e.id pw = .ok pw' ∧ Sim I Z Q pw' w' ∧ (e.pin ≤ 0 → w'.cache.defer ⊆ w.cache.defer) := by
  by_cases hp : e.pin > 0
  · obtain ⟨pw', b1, b2, b3, b4⟩ := removeElem_pinned (pd := pd) r hn ht hx hw hp h
    refine ⟨pw', b1, ⟨b2, ?_⟩, fun h0 => absurd hp (by omega)⟩
    rw [b3]
    exact hT.congr (by rw [b4])
  · obtain ⟨nx, pv, h1, h2, h3, h4⟩ := r.take E hn
    rw [← hw] at h2
    have hc : pw.cache.cell e.id = some (cellOf I.view e) := r.cellN e (by rw [hn]; simp)
    have hl := load_ok (p := { pw.cache with next := nx, prev := pv }) hc
    unfold Lru.removeElem at h
    unfold removeElem
    simp only [bind, Except.bind, h1, hl]
    have hpin : (cellOf I.view e).pin = e.pin := rfl
    rw [if_neg hp] at h
    rw [if_neg (by rw [hpin]; exact hp)]
    obtain ⟨pw', b1, b2, b3⟩ := discard_sim D (pw := { pw with cache := { pw.cache with next := nx, prev := pv } })
      ⟨⟨h2, ht, hx⟩, hT⟩ hc hk h
    exact ⟨pw', b1, b2, fun _ => b3⟩

theorem nodes_split {l : List (Elem β)} {e : Elem β} (he : e ∈ l) (hd : (l.map (·.id)).Nodup) :
    ∃ A B, l = A ++ e :: B ∧ dropId e.id l = A ++ B ∧ (∀ a ∈ A, a.id ≠ e.id) ∧ (∀ b ∈ B, b.id ≠ e.id) := by
  obtain ⟨A, B, rfl⟩ := List.append_of_mem he
  obtain ⟨hA, hB⟩ := mid_ids hd
  exact ⟨A, B, rfl, dropId_mid hA hB, hA, hB⟩

theorem dropped_key {l A B : List (Elem β)} {e : Elem β} (hn : l = A ++ e :: B) (hk : (l.map (·.key)).Nodup) :
    findKey e.key (A ++ B) = none := by
  rw [hn] at hk
  obtain ⟨kA, kB⟩ := mid_keys hk
  rw [findKey_none]
  intro x hx
  rcases List.mem_append.mp hx with hx | hx
  · exact kA x hx
  · exact kB x hx

theorem remove_sim {k : Bytes} (D : Follows I ad pd) (s : Sim I Z Q pw w) (h : Lru.remove E ad k w = .ok w') :
    ∃ pw', remove E pd k pw = .ok pw' ∧ Sim I Z Q pw' w' ∧
      ((∀ e, findKey k w.cache.nodes = some e → e.pin ≤ 0) → w'.cache.defer ⊆ w.cache.defer) := by
  unfold Lru.remove at h
  unfold remove
  rw [s.tab.find]
  cases hf : findKey k w.cache.nodes with
  | none =>
    rw [hf] at h
    simp only [Except.ok.injEq] at h
    subst h
    exact ⟨pw, rfl, s, fun _ => List.Subset.refl _⟩
  | some e =>
    rw [hf] at h
    simp only at h
    obtain ⟨he, rfl⟩ := (findKey_iff s.tab.keys).mp hf
    obtain ⟨A, B, hn, hd, _, _⟩ := nodes_split he s.rep.idsN
    obtain ⟨pw', b1, b2, b3⟩ := removeElem_sim (E := E) D (Z := Z)
      (pw := { pw with cache := { pw.cache with table := erase e.key pw.cache.table } })
      (c := w.cache) (A := A) (B := B) (e := e)
      (s.rep.like s.rep.units s.rep.pinnedUnits s.rep.maxUnits s.rep.maxIdle s.rep.lru) hn s.tick
      (w := { w with cache := { w.cache with nodes := dropId e.id w.cache.nodes } })
      (by rw [hd]; exact I.perm (items_mid hn Q) s.inv) (by rw [hd])
      (by show findKey e.key (dropId e.id w.cache.nodes) = none; rw [hd]; exact dropped_key hn s.tab.keys)
      (s.tab.erase hn hd) h
    exact ⟨pw', b1, b2, fun hp => b3 (hp e rfl)⟩

/-- A deleter that leaves the cache alone does not put the key back. -/
theorem remove_key {k : Bytes} (hk : (w.cache.nodes.map (·.key)).Nodup) (hd : (w.cache.nodes.map (·.id)).Nodup)
    (h : Lru.remove E (pureDel f) k w = .ok w') : findKey k w'.cache.nodes = none := by
  unfold Lru.remove at h
  cases hf : findKey k w.cache.nodes with
  | none =>
    rw [hf] at h
    simp only [Except.ok.injEq] at h
    subst h
    exact hf
  | some e =>
    rw [hf] at h
    simp only at h
    obtain ⟨he, rfl⟩ := (findKey_iff hk).mp hf
    obtain ⟨A, B, hn, hd, _, _⟩ := nodes_split he hd
    have hfin : w'.cache.nodes = dropId e.id w.cache.nodes := by
      unfold Lru.removeElem Lru.discard at h
      simp only [bind, Except.bind, pureDel] at h
      split at h
      · simp only [Except.ok.injEq] at h; subst h; rfl
      · split at h
        · cases h
        · simp only [Except.ok.injEq] at h; subst h; rfl
    rw [hfin, hd]
    exact dropped_key hn hk

/-! ### The main chain -/

/-- A cursor: `none` is `&head_`. -/
def toLoc : Option Nat → Loc
  | none => .head
  | some i => .elem i

theorem toLoc_head {cur : Option Nat} : (some (toLoc cur) ≠ some Loc.head) ↔ cur.isSome := by
  cases cur <;> simp [toLoc]

theorem getLast_locs (l : List Nat) : (Loc.head :: locs l).getLast? = some (toLoc l.getLast?) := by
  rcases List.eq_nil_or_concat l with rfl | ⟨T, j, rfl⟩
  · rfl
  · simp [locs, toLoc, List.getLast?_cons]

theorem ringLast_eq (l : List (Elem β)) : ringLast l = (linkedIds l).getLast? := by
  simp [ringLast, linkedIds]

theorem ringFirst_eq (l : List (Elem β)) : ringFirst l = (linkedIds l).head? := by
  simp [ringFirst, linkedIds]

theorem Rep.prevHead {p : PCache γ} {c : Cache β} (r : Rep vw Z p c) :
    p.prev .head = some (toLoc (ringLast c.nodes)) := by
  have := (ring_mid (A := []) (B := locs (linkedIds c.nodes)) r.ring).2
  rw [List.append_nil, getLast_locs] at this
  rw [this, ringLast_eq]

theorem head_locs_eq (l : List Nat) (X : List Loc) : (locs l ++ Loc.head :: X).head? = some (toLoc l.head?) := by
  cases l <;> simp [locs, toLoc]

theorem Rep.nextHead {p : PCache γ} {c : Cache β} (r : Rep vw Z p c) :
    p.next .head = some (toLoc (ringFirst c.nodes)) := by
  have := (ring_mid (A := []) (B := locs (linkedIds c.nodes)) r.ring).1
  rw [List.append_nil, head_locs_eq] at this
  rw [this, ringFirst_eq]

theorem Rep.ringSplit {p : PCache γ} {c : Cache β} (r : Rep vw Z p c) {A B : List (Elem β)} {e : Elem β}
    (hn : c.nodes = A ++ e :: B) (hl : e.linked = true) :
    Ring p.next p.prev ((.head :: locs (linkedIds A)) ++ .elem e.id :: locs (linkedIds B)) := by
  have := r.ring
  rw [hn, linkedIds_append, linkedIds_cons, if_pos hl] at this
  simpa [locs] using this

theorem Rep.prevElem {p : PCache γ} {c : Cache β} (r : Rep vw Z p c) {A B : List (Elem β)} {e : Elem β}
    (hn : c.nodes = A ++ e :: B) (hl : e.linked = true) :
    p.prev (.elem e.id) = some (toLoc (ringPrev e.id c.nodes)) := by
  have h1 := (ring_mid (r.ringSplit hn hl)).2
  have hA := (mid_ids (by rw [← hn]; exact r.idsN)).1
  rw [hn, ringPrev_mid hA, ringLast_eq, ← getLast_locs, h1]
  rw [← List.cons_append, List.getLast?_append_of_ne_nil _ (by simp)]

theorem Rep.nextElem {p : PCache γ} {c : Cache β} (r : Rep vw Z p c) {A B : List (Elem β)} {e : Elem β}
    (hn : c.nodes = A ++ e :: B) (hl : e.linked = true) :
    p.next (.elem e.id) = some (toLoc (ringNext e.id c.nodes)) := by
  have h1 := (ring_mid (r.ringSplit hn hl)).1
  have hA := (mid_ids (by rw [← hn]; exact r.idsN)).1
  rw [hn, ringNext_mid hA, ringFirst_eq, h1]
  rw [List.append_assoc, List.cons_append, head_locs_eq]

theorem Rep.overfull {p : PCache γ} {c : Cache β} (r : Rep vw Z p c) : p.overfull ↔ c.overfull := by
  unfold PCache.overfull Cache.overfull
  rw [r.units, r.maxUnits]

theorem getPrev_ok {p : PCache γ} {c : Cache β} (r : Rep vw Z p c) {e : Elem β} (he : e ∈ c.nodes) :
    getPrev (some (.elem e.id)) p = .ok (p.prev (.elem e.id)) := by
  have : Alive p (.elem e.id) := by show (p.cell e.id).isSome; rw [r.cellN e he]; rfl
  simp [getPrev, deref_alive this, bind, Except.bind]

theorem getNext_ok {p : PCache γ} {c : Cache β} (r : Rep vw Z p c) {e : Elem β} (he : e ∈ c.nodes) :
    getNext (some (.elem e.id)) p = .ok (p.next (.elem e.id)) := by
  have : Alive p (.elem e.id) := by show (p.cell e.id).isSome; rw [r.cellN e he]; rfl
  simp [getNext, deref_alive this, bind, Except.bind]

theorem findId_some {i : Nat} {l : List (Elem β)} {e : Elem β} (h : findId i l = some e) : e ∈ l ∧ e.id = i := by
  unfold findId at h
  have h1 := List.mem_of_find?_eq_some h
  have h2 := List.find?_some h
  exact ⟨h1, by simpa using h2⟩

theorem drop_keeps {α : Type} {p q : α → Prop} {r : Prop} (h : ∃ x, p x ∧ q x ∧ r) : ∃ x, p x ∧ q x := by
  obtain ⟨x, h1, h2, _⟩ := h
  exact ⟨x, h1, h2⟩

theorem gcStep_sim {e : Elem β} (D : Follows I ad pd) (s : Sim I Z Q pw w) (he : e ∈ w.cache.nodes)
    (h : Lru.gcStep E ad e w = .ok w') :
    ∃ pw', gcStep E pd e.id (cellOf I.view e) pw = .ok pw' ∧ Sim I Z Q pw' w' ∧ w'.cache.defer ⊆ w.cache.defer := by
  unfold Lru.gcStep at h
  unfold gcStep
  have hpin : (cellOf I.view e).pin = e.pin := rfl
  have hkey : (cellOf I.view e).key = e.key := rfl
  rw [hpin, hkey, s.tab.find]
  by_cases hp : e.pin = 0
  · rw [if_pos hp] at h ⊢
    have hf : findKey e.key w.cache.nodes = some e := (findKey_iff s.tab.keys).mpr ⟨he, rfl⟩
    rw [hf] at h ⊢
    simp only [Option.map_some, bind, Except.bind] at h ⊢
    have ha : assertThat E True = .ok () := by simp [assertThat]
    rw [ha] at h ⊢
    simp only at h ⊢
    obtain ⟨A, B, hn, hd, _, _⟩ := nodes_split he s.rep.idsN
    rw [hd] at h
    have r1 : Rep I.view Z { pw.cache with table := erase e.key pw.cache.table } w.cache :=
      s.rep.like s.rep.units s.rep.pinnedUnits s.rep.maxUnits s.rep.maxIdle s.rep.lru
    obtain ⟨nx, pv, h1, h2, _, _⟩ := r1.take E hn
    rw [h1]
    simp only
    exact discard_sim D (Z := Z)
      (pw := { pw with cache := { pw.cache with table := erase e.key pw.cache.table, next := nx, prev := pv } })
      (w := { w with cache := { w.cache with nodes := A ++ B } })
      ⟨⟨h2, s.tick, I.perm (items_mid hn Q) s.inv⟩, s.tab.erase hn rfl⟩ (s.rep.cellN e he) (dropped_key hn s.tab.keys) h
  · rw [if_neg hp] at h ⊢
    simp only [Except.ok.injEq] at h
    subst h
    exact ⟨pw, rfl, s, List.Subset.refl _⟩

theorem gcLoop_sim (D : Follows I ad pd) : ∀ (n : Nat) (cur : Option Nat) (pw : PWorld τ γ) (w w' : World σ β), Sim I Z Q pw w →
    Lru.gcLoop E ad n cur w = .ok w' →
    ∃ pw', gcLoop E pd n (some (toLoc cur)) pw = .ok pw' ∧ Sim I Z Q pw' w' ∧ w'.cache.defer ⊆ w.cache.defer
  | n, none, pw, w, w', s, h => by
    have hw : w' = w := by cases n <;> simpa [Lru.gcLoop, eq_comm] using h
    subst hw
    refine ⟨pw, ?_, s, List.Subset.refl _⟩
    cases n <;> simp [gcLoop, toLoc]
  | 0, some i, pw, w, w', s, h => by
    simp only [Lru.gcLoop] at h
    simp only [gcLoop, s.rep.overfull, toLoc]
    split at h
    · cases h
    · rename_i ho
      simp only [Except.ok.injEq] at h
      subst h
      exact ⟨pw, by simp [ho], s, List.Subset.refl _⟩
  | n + 1, some i, pw, w, w', s, h => by
    simp only [Lru.gcLoop] at h
    simp only [gcLoop, s.rep.overfull, toLoc]
    by_cases ho : w.cache.overfull
    · rw [if_pos ho] at h
      rw [if_pos ⟨ho, by simp⟩]
      cases hf : findId i w.cache.nodes with
      | none => rw [hf] at h; cases h
      | some e =>
        rw [hf] at h
        simp only at h
        obtain ⟨he, rfl⟩ := findId_some hf
        obtain ⟨A, B, hn, _, _, _⟩ := nodes_split he s.rep.idsN
        by_cases hl : e.linked = true
        · rw [if_pos hl] at h
          simp only [bind, Except.bind] at h ⊢
          cases hg : Lru.gcStep E ad e w with
          | error x => rw [hg] at h; cases h
          | ok w1 =>
            rw [hg] at h
            simp only at h
            obtain ⟨pw1, b1, b2, b3⟩ := gcStep_sim D s he hg
            rw [getPrev_ok s.rep he, load_ok (s.rep.cellN e he), s.rep.prevElem hn hl]
            simp only [b1]
            obtain ⟨pw2, c1, c2, c3⟩ := gcLoop_sim D n _ pw1 w1 w' b2 h
            exact ⟨pw2, c1, c2, List.Subset.trans c3 b3⟩
        · rw [if_neg hl] at h; cases h
    · rw [if_neg ho] at h
      simp only [Except.ok.injEq] at h
      subst h
      exact ⟨pw, by simp [ho], s, List.Subset.refl _⟩

theorem gc_sim (D : Follows I ad pd) (s : Sim I Z Q pw w) (h : Lru.garbageCollect E ad w = .ok w') :
    ∃ pw', garbageCollect E pd pw = .ok pw' ∧ Sim I Z Q pw' w' ∧ w'.cache.defer ⊆ w.cache.defer := by
  unfold garbageCollect
  rw [s.tab.length, s.rep.prevHead]
  exact gcLoop_sim D _ _ _ _ _ s h

theorem idleLoop_sim {thr : Int} (D : Follows I ad pd) : ∀ (n : Nat) (cur : Option Nat) (last : Int) (pw : PWorld τ γ) (w w' : World σ β),
    Sim I Z Q pw w → Lru.idleLoop E ad thr n cur last w = .ok w' →
    ∃ pw', idleLoop E pd thr n (some (toLoc cur)) last pw = .ok pw' ∧ Sim I Z Q pw' w'
  | n, none, last, pw, w, w', s, h => by
    have hw : w' = w := by cases n <;> simpa [Lru.idleLoop, eq_comm] using h
    subst hw
    refine ⟨pw, ?_, s⟩
    cases n <;> simp [idleLoop, toLoc]
  | 0, some i, last, pw, w, w', s, h => by
    simp only [Lru.idleLoop] at h; cases h
  | n + 1, some i, last, pw, w, w', s, h => by
    simp only [Lru.idleLoop] at h
    show ∃ pw', idleLoop E pd thr (n + 1) (some (.elem i)) last pw = .ok pw' ∧ Sim I Z Q pw' w'
    simp only [idleLoop]
    rw [if_pos (by simp)]
    cases hf : findId i w.cache.nodes with
    | none => rw [hf] at h; cases h
    | some e =>
      rw [hf] at h
      simp only at h
      obtain ⟨he, rfl⟩ := findId_some hf
      obtain ⟨A, B, hn, _, _, _⟩ := nodes_split he s.rep.idsN
      by_cases hl : e.linked = true
      · rw [if_pos hl] at h
        simp only [bind, Except.bind] at h ⊢
        rw [load_ok (s.rep.cellN e he)]
        have hlast : (cellOf I.view e).lastUse = e.lastUse := rfl
        simp only [hlast]
        by_cases ht : e.lastUse < thr
        · rw [if_pos ht] at h ⊢
          cases ha : assertThat E (last ≤ e.lastUse + 1) with
          | error x => rw [ha] at h; cases h
          | ok u =>
            rw [ha] at h
            simp only at h ⊢
            cases ha2 : assertThat E (e.pin = 0 ∨ w.cache.lru = false) with
            | error x => rw [ha2] at h; cases h
            | ok u2 =>
              rw [ha2] at h
              simp only at h
              have ha3 : assertThat E ((cellOf I.view e).pin = 0 ∨ pw.cache.lru = false) = .ok () :=
                assert_ok ha2 _ (fun h => by rw [s.rep.lru]; exact h)
              rw [getPrev_ok s.rep he, s.rep.prevElem hn hl]
              simp only [ha3]
              have hkey : (cellOf I.view e).key = e.key := rfl
              rw [hkey]
              cases hg : Lru.remove E ad e.key w with
              | error x => rw [hg] at h; cases h
              | ok w1 =>
                rw [hg] at h
                simp only at h
                obtain ⟨pw1, b1, b2, _⟩ := remove_sim D s hg
                rw [b1]
                exact idleLoop_sim D n _ _ pw1 w1 w' b2 h
        · rw [if_neg ht] at h ⊢
          simp only [Except.ok.injEq] at h
          subst h
          exact ⟨pw, rfl, s⟩
      · rw [if_neg hl] at h; cases h

theorem Sim.ticked (s : Sim I Z Q pw w) : Sim I Z Q pw.ticked w.ticked :=
  ⟨⟨s.rep, by simp [PWorld.ticked, World.ticked, s.tick], s.inv⟩, s.tab⟩

theorem Sim.now (s : Sim I Z Q pw w) : pw.now E = w.now E := by simp [PWorld.now, World.now, s.tick]

theorem discardIdle_sim {m : Int} (D : Follows I ad pd) (s : Sim I Z Q pw w) (h : Lru.discardIdle E ad m w = .ok w') :
    ∃ pw', discardIdle E pd m pw = .ok pw' ∧ Sim I Z Q pw' w' := by
  unfold Lru.discardIdle at h
  unfold discardIdle
  split at h
  · rename_i hm
    rw [if_pos hm]
    simp only [Except.ok.injEq] at h
    subst h
    exact ⟨pw, rfl, s⟩
  · rename_i hm
    rw [if_neg hm, s.tab.length, s.rep.prevHead, s.now]
    exact idleLoop_sim D _ _ _ _ _ _ s.ticked h

theorem removeExpired_sim (D : Follows I ad pd) (s : Sim I Z Q pw w) (h : Lru.removeExpired E ad w = .ok w') :
    ∃ pw', removeExpired E pd pw = .ok pw' ∧ Sim I Z Q pw' w' := by
  unfold Lru.removeExpired at h
  unfold removeExpired
  rw [s.rep.maxIdle]
  split at h
  · rename_i hm
    rw [if_pos hm]
    exact discardIdle_sim D s h
  · rename_i hm
    rw [if_neg hm]
    simp only [Except.ok.injEq] at h
    subst h
    exact ⟨pw, rfl, s⟩

theorem setTimeout_sim {cy : Option Int} {lru : Bool} (D : Follows I ad pd) (s : Sim I Z Q pw w)
    (h : Lru.setTimeout E ad cy lru w = .ok w') :
    ∃ pw', setTimeout E pd cy lru pw = .ok pw' ∧ Sim I Z Q pw' w' := by
  cases cy with
  | none =>
    simp only [Lru.setTimeout, Except.ok.injEq] at h
    subst h
    refine ⟨_, rfl, ⟨⟨?_, s.tick, s.inv⟩, s.tab.congr (List.Perm.refl _)⟩⟩
    exact s.rep.like s.rep.units s.rep.pinnedUnits s.rep.maxUnits rfl rfl
  | some c =>
    simp only [Lru.setTimeout] at h
    simp only [setTimeout, s.rep.maxIdle, s.rep.lru]
    split at h
    · rename_i hm
      rw [if_pos hm]
      simp only [bind, Except.bind] at h ⊢
      cases ha : assertThat E False with
      | error x => rw [ha] at h; cases h
      | ok u =>
        rw [ha] at h
        simp only [Except.ok.injEq] at h
        subst h
        exact ⟨pw, rfl, s⟩
    · rename_i hm
      rw [if_neg hm]
      refine discardIdle_sim D ?_ h
      exact ⟨⟨s.rep.like s.rep.units s.rep.pinnedUnits s.rep.maxUnits rfl rfl, s.tick, s.inv⟩,
        s.tab.congr (List.Perm.refl _)⟩

theorem setMaxSize_sim {n : Int} (D : Follows I ad pd) (s : Sim I Z Q pw w) (h : Lru.setMaxSize E ad n w = .ok w') :
    ∃ pw', setMaxSize E pd n pw = .ok pw' ∧ Sim I Z Q pw' w' := by
  refine drop_keeps (gc_sim D ?_ h)
  exact ⟨⟨s.rep.like s.rep.units s.rep.pinnedUnits rfl s.rep.maxIdle s.rep.lru, s.tick, s.inv⟩,
    s.tab.congr (List.Perm.refl _)⟩

theorem unpinnedLoop_sim (D : Follows I ad pd) : ∀ (n : Nat) (cur : Option Nat) (pw : PWorld τ γ) (w w' : World σ β),
    Sim I Z Q pw w → Lru.unpinnedLoop E ad n cur w = .ok w' →
    ∃ pw', unpinnedLoop E pd n (some (toLoc cur)) pw = .ok pw' ∧ Sim I Z Q pw' w'
  | n, none, pw, w, w', s, h => by
    have hw : w' = w := by cases n <;> simpa [Lru.unpinnedLoop, eq_comm] using h
    subst hw
    refine ⟨pw, ?_, s⟩
    cases n <;> simp [unpinnedLoop, toLoc]
  | 0, some i, pw, w, w', s, h => by
    simp only [Lru.unpinnedLoop] at h; cases h
  | n + 1, some i, pw, w, w', s, h => by
    simp only [Lru.unpinnedLoop] at h
    show ∃ pw', unpinnedLoop E pd (n + 1) (some (.elem i)) pw = .ok pw' ∧ Sim I Z Q pw' w'
    simp only [unpinnedLoop]
    rw [if_pos (by simp)]
    cases hf : findId i w.cache.nodes with
    | none => rw [hf] at h; cases h
    | some e =>
      rw [hf] at h
      simp only at h
      obtain ⟨he, rfl⟩ := findId_some hf
      obtain ⟨A, B, hn, _, _, _⟩ := nodes_split he s.rep.idsN
      by_cases hl : e.linked = true
      · rw [if_pos hl] at h
        simp only [bind, Except.bind] at h ⊢
        rw [getNext_ok s.rep he, s.rep.nextElem hn hl, load_ok (s.rep.cellN e he)]
        have hkey : (cellOf I.view e).key = e.key := rfl
        have hpin : (cellOf I.view e).pin = e.pin := rfl
        simp only [hkey, hpin]
        by_cases hp : e.pin = 0
        · rw [if_pos hp] at h ⊢
          cases hg : Lru.remove E ad e.key w with
          | error x => rw [hg] at h; cases h
          | ok w1 =>
            rw [hg] at h
            simp only at h
            obtain ⟨pw1, b1, b2, _⟩ := remove_sim D s hg
            rw [b1]
            exact unpinnedLoop_sim D n _ pw1 w1 w' b2 h
        · rw [if_neg hp] at h ⊢
          exact unpinnedLoop_sim D n _ pw w w' s h
      · rw [if_neg hl] at h; cases h

theorem removeUnpinned_sim (D : Follows I ad pd) (s : Sim I Z Q pw w) (h : Lru.removeUnpinned E ad w = .ok w') :
    ∃ pw', removeUnpinned E pd pw = .ok pw' ∧ Sim I Z Q pw' w' := by
  unfold removeUnpinned
  rw [s.tab.length, s.rep.nextHead]
  exact unpinnedLoop_sim D _ _ _ _ _ s h

end
end Verif.Lru.Ptr
