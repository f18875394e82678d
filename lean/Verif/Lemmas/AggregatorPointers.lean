import Verif.Model.AggregatorPointers
import Verif.Lemmas.LruSim4
/-
The objects of an aggregator and the entries of its cache correspond.
-/
namespace Verif
open Lru Lru.Ptr

variable {R ν : Type}

def entryOf (i : Item ν) : Nat × ν := (i.ptr, i.val)

/-- Writing through a pointer, on items. -/
def setItem (p : Nat) (v : ν) (i : Item ν) : Item ν := if i.ptr == p then { i with val := v } else i

/-- The live objects are those the entries point to, one each. -/
structure Owns (good : Bytes → ν → Prop) (m : Mem R ν) (sl : Slot R) (n : Nat) (l : List (Item ν)) : Prop where
  slot : m.slot = sl
  heap : m.heap.Perm (l.map entryOf)
  ptrs : (l.map (·.ptr)).Nodup
  bound : ∀ i ∈ l, i.ptr < n
  good : ∀ i ∈ l, good i.key i.val

theorem Owns.perm {good : Bytes → ν → Prop} {m : Mem R ν} {sl : Slot R} {n : Nat} {l l' : List (Item ν)} (hp : l.Perm l')
    (h : Owns good m sl n l) : Owns good m sl n l' :=
  ⟨h.slot, h.heap.trans (hp.map _), (hp.map _).nodup_iff.mp h.ptrs, fun i hi => h.bound i (hp.mem_iff.mpr hi),
    fun i hi => h.good i (hp.mem_iff.mpr hi)⟩

def owns (R : Type) (good : Bytes → ν → Prop) : Joint (Mem R ν) (Slot R) ν Unit :=
  ⟨fun _ => (), fun m sl n l => Owns good m sl n l, fun hp h => h.perm hp,
    fun h => ⟨h.slot, h.heap, h.ptrs, fun i hi => Nat.lt_succ_of_lt (h.bound i hi), h.good⟩⟩

section
variable {good : Bytes → ν → Prop} {m : Mem R ν} {sl : Slot R} {n : Nat} {l : List (Item ν)}

theorem Owns.keys (h : Owns good m sl n l) : (m.heap.map (·.1)).Nodup := by
  refine (h.heap.map _).nodup_iff.mpr ?_
  rw [List.map_map]
  exact h.ptrs

theorem find_of_mem {H : List (Nat × ν)} (hd : (H.map (·.1)).Nodup) {x : Nat × ν} (hx : x ∈ H) :
    H.find? (fun y => y.1 == x.1) = some x := by
  induction H with
  | nil => cases hx
  | cons a H ih =>
    rw [List.map_cons, List.nodup_cons] at hd
    rw [List.find?_cons]
    rcases List.mem_cons.mp hx with rfl | hx
    · simp
    · have : ¬ a.1 = x.1 := fun he => hd.1 (List.mem_map.mpr ⟨x, hx, he.symm⟩)
      have h2 : (a.1 == x.1) = false := by simpa using this
      rw [h2]
      exact ih hd.2 hx

theorem Owns.find (h : Owns good m sl n l) {i : Item ν} (hi : i ∈ l) :
    m.heap.find? (fun y => y.1 == i.ptr) = some (entryOf i) :=
  find_of_mem h.keys (h.heap.mem_iff.mpr (List.mem_map.mpr ⟨i, hi, rfl⟩))

theorem Owns.get (h : Owns good m sl n l) {i : Item ν} (hi : i ∈ l) : m.get i.ptr = .ok i.val := by
  unfold Mem.get
  rw [h.find hi]
  rfl

theorem setItem_ptr (p : Nat) (v : ν) (i : Item ν) : (setItem p v i).ptr = i.ptr := by
  unfold setItem; split <;> rfl

theorem setItem_key (p : Nat) (v : ν) (i : Item ν) : (setItem p v i).key = i.key := by
  unfold setItem; split <;> rfl

theorem setItem_ptrs (p : Nat) (v : ν) (l : List (Item ν)) : (l.map (setItem p v)).map (·.ptr) = l.map (·.ptr) := by
  rw [List.map_map]; exact List.map_congr_left (fun i _ => setItem_ptr p v i)

theorem Owns.put (h : Owns good m sl n l) {i : Item ν} (hi : i ∈ l) (v : ν) (hv : good i.key v) :
    ∃ m', m.put i.ptr v = .ok m' ∧ Owns good m' sl n (l.map (setItem i.ptr v)) := by
  unfold Mem.put
  rw [h.find hi]
  refine ⟨_, rfl, h.slot, ?_, ?_, ?_, ?_⟩
  · refine (h.heap.map _).trans (List.Perm.of_eq ?_)
    rw [List.map_map, List.map_map]
    apply List.map_congr_left
    intro j _
    simp only [Function.comp, entryOf, setItem]
    by_cases hj : j.ptr = i.ptr <;> simp [hj]
  · rw [setItem_ptrs]; exact h.ptrs
  · intro j hj
    obtain ⟨k, hk, rfl⟩ := List.mem_map.mp hj
    rw [setItem_ptr]; exact h.bound k hk
  · intro j hj
    obtain ⟨k, hk, rfl⟩ := List.mem_map.mp hj
    rw [setItem_key]
    unfold setItem
    split
    · rename_i he
      have : k = i := List.inj_on_of_nodup_map h.ptrs hk hi (by simpa using he)
      subst this; exact hv
    · exact h.good k hk

theorem Owns.delete {i : Item ν} (h : Owns good m sl n (i :: l)) :
    ∃ m', m.delete i.ptr = .ok m' ∧ Owns good m' sl n l := by
  unfold Mem.delete
  rw [h.find (i := i) (by simp)]
  have hp := h.ptrs
  rw [List.map_cons, List.nodup_cons] at hp
  refine ⟨_, rfl, h.slot, ?_, hp.2, fun j hj => h.bound j (by simp [hj]), fun j hj => h.good j (by simp [hj])⟩
  refine (h.heap.filter _).trans (List.Perm.of_eq ?_)
  rw [List.map_cons, List.filter_cons]
  simp only [entryOf, beq_self_eq_true, Bool.not_true, Bool.false_eq_true, ↓reduceIte]
  rw [List.filter_eq_self]
  intro x hx
  obtain ⟨j, hj, rfl⟩ := List.mem_map.mp hx
  have : ¬ j.ptr = i.ptr := fun he => hp.1 (List.mem_map.mpr ⟨j, hj, he⟩)
  simpa [entryOf] using this

theorem Owns.alloc (h : Owns good m sl n l) (k : Bytes) (v : ν) (hv : good k v) :
    ∃ m', m.alloc n v = .ok m' ∧ Owns good m' sl (n + 1) (⟨k, n, v⟩ :: l) := by
  unfold Mem.alloc
  have : m.heap.find? (fun y => y.1 == n) = none := by
    rw [List.find?_eq_none]
    intro x hx
    obtain ⟨j, hj, rfl⟩ := List.mem_map.mp (h.heap.mem_iff.mp hx)
    have := h.bound j hj
    simp only [entryOf, beq_iff_eq]
    omega
  rw [this]
  refine ⟨_, rfl, h.slot, ?_, ?_, ?_, ?_⟩
  · rw [List.map_cons]
    exact List.Perm.cons _ h.heap
  · rw [List.map_cons, List.nodup_cons]
    refine ⟨?_, h.ptrs⟩
    intro hm
    obtain ⟨j, hj, he⟩ := List.mem_map.mp hm
    have := h.bound j hj
    simp only at he
    omega
  · intro j hj
    rcases List.mem_cons.mp hj with rfl | hj
    · exact Nat.lt_succ_self _
    · exact Nat.lt_succ_of_lt (h.bound j hj)
  · intro j hj
    rcases List.mem_cons.mp hj with rfl | hj
    · exact hv
    · exact h.good j hj

theorem Owns.add (h : Owns good m sl n l) (merge : R → R → Option R) (r : R) :
    Owns good (m.add merge r) (addRemovedItem merge r sl) n l :=
  ⟨by unfold Mem.add; rw [h.slot], h.heap, h.ptrs, h.bound, h.good⟩

end

/-! ### The cache of pointers -/
section
variable {good : Bytes → ν → Prop} {E : Env} {Z : List Nat} {Q : List (Item ν)} {pw : PAgg R ν}
  {w w' : World (Slot R) ν} {ad : Deleter (Slot R) ν} {pd : PDeleter (Mem R ν) Unit}

/-- Nothing but the cache and the clock. -/
def bare (τ σ : Type) (ν : Type) : Joint τ σ ν Unit := ⟨fun _ => (), fun _ _ _ _ => True, fun _ h => h, fun h => h⟩

theorem toBare (s : Sim (owns R good) Z Q pw w) (Q' : List (Item ν)) : Sim (bare (Mem R ν) (Slot R) ν) Z Q' pw w :=
  ⟨⟨s.rep, s.tick, trivial⟩, s.tab⟩

theorem ofBare {Q' : List (Item ν)} (s : Sim (bare (Mem R ν) (Slot R) ν) Z Q' pw w)
    (h : Owns good pw.ext w.ext w.cache.nextId (items w.cache ++ Q)) : Sim (owns R good) Z Q pw w :=
  ⟨⟨s.rep, s.tick, h⟩, s.tab⟩

theorem setVal_unit (v : Nat) (pw : PAgg R ν) : Ptr.setVal v () pw = pw := by
  unfold Ptr.setVal
  have : (fun i => (pw.cache.cell i).map (fun c => if c.ptr == v then { c with val := () } else c)) = pw.cache.cell := by
    funext i
    cases pw.cache.cell i with
    | none => rfl
    | some c => simp
  rw [this]

theorem items_setVal (p : Nat) (v : ν) (w : World (Slot R) ν) :
    items (Lru.setVal p v w).cache = (items w.cache).map (setItem p v) := by
  unfold items Lru.setVal
  simp only [List.map_append, List.map_map]
  congr 1 <;>
  · apply List.map_congr_left
    intro e _
    simp only [Function.comp, setItem, itemOf]
    by_cases h : (e.ptr == p) = true <;> simp [h]

theorem sim_ext (s : Sim (owns R good) Z Q pw w) {x : Mem R ν} {y : Slot R}
    (h : Owns good x y w.cache.nextId (items w.cache ++ Q)) :
    Sim (owns R good) Z Q { pw with ext := x } { w with ext := y } :=
  ⟨⟨s.rep, s.tick, h⟩, s.tab⟩

theorem sim_tick (s : Sim (owns R good) Z Q pw w) (t : Nat) :
    Sim (owns R good) Z Q { pw with tick := t } { w with tick := t } :=
  ⟨⟨s.rep, rfl, s.inv⟩, s.tab⟩

theorem sim_ticked (s : Sim (owns R good) Z Q pw w) : Sim (owns R good) Z Q pw.ticked w.ticked :=
  ⟨⟨s.rep, by simp only [PWorld.ticked, World.ticked, s.tick], s.inv⟩, s.tab⟩

theorem sim_get (s : Sim (owns R good) Z Q pw w) {i : Item ν} (hi : i ∈ items w.cache ++ Q) :
    PAgg.get i.ptr pw = .ok i.val := Owns.get s.inv hi

theorem setItem_other {p : Nat} {v : ν} {l : List (Item ν)} (h : ∀ i ∈ l, i.ptr ≠ p) : l.map (setItem p v) = l := by
  rw [List.map_congr_left (g := id) (fun i hi => ?_), List.map_id]
  unfold setItem
  simp [h i hi]

theorem sim_put (s : Sim (owns R good) Z Q pw w) {i : Item ν} (hi : i ∈ items w.cache) (v : ν) (hv : good i.key v) :
    ∃ pw', PAgg.put i.ptr v pw = .ok pw' ∧ pw'.tick = pw.tick ∧ Sim (owns R good) Z Q pw' (Lru.setVal i.ptr v w) := by
  have hI : Owns good pw.ext w.ext w.cache.nextId (items w.cache ++ Q) := s.inv
  obtain ⟨m', h1, h2⟩ := hI.put (List.mem_append_left Q hi) v hv
  refine ⟨{ pw with ext := m' }, ?_, rfl, ?_⟩
  · unfold PAgg.put; rw [h1]; rfl
  · have hb : Sim (bare (Mem R ν) (Slot R) ν) Z Q { pw with ext := m' } w := ⟨⟨s.rep, s.tick, trivial⟩, s.tab⟩
    have hs := setVal_sim (v := i.ptr) (x := v) hb trivial
    rw [show (bare (Mem R ν) (Slot R) ν).view v = () from rfl, setVal_unit] at hs
    refine ofBare hs ?_
    show Owns good m' w.ext w.cache.nextId _
    rw [items_setVal]
    rw [List.map_append, setItem_other (l := Q)] at h2
    · exact h2
    · intro j hj he
      have hp := hI.ptrs
      rw [List.map_append, List.nodup_append] at hp
      exact hp.2.2 _ (List.mem_map.mpr ⟨i, hi, rfl⟩) _ (List.mem_map.mpr ⟨j, hj, rfl⟩) he.symm

theorem sim_delete {i : Item ν} (s : Sim (owns R good) Z (i :: Q) pw w) :
    ∃ pw', PAgg.delete i.ptr pw = .ok pw' ∧ Sim (owns R good) Z Q pw' w := by
  have hI : Owns good pw.ext w.ext w.cache.nextId (items w.cache ++ i :: Q) := s.inv
  obtain ⟨m', h1, h2⟩ := (hI.perm List.perm_middle).delete
  refine ⟨{ pw with ext := m' }, ?_, ⟨s.rep, s.tick, h2⟩, s.tab⟩
  unfold PAgg.delete; rw [h1]; rfl

theorem sim_add (s : Sim (owns R good) Z Q pw w) (merge : R → R → Option R) (r : R) :
    Sim (owns R good) Z Q (PAgg.add merge r pw) { w with ext := addRemovedItem merge r w.ext } :=
  sim_ext s (Owns.add s.inv merge r)

/-! ### Cache calls -/

theorem notDeferred (s : Sim (owns R good) Z Q pw w) {i : Item ν}
    (hi : i ∈ w.cache.nodes.map itemOf ∨ i ∈ Q) (k : Bytes) :
    w.cache.defer.find? (fun e => e.key == k && e.ptr == i.ptr) = none := by
  have hI : Owns good pw.ext w.ext w.cache.nextId (items w.cache ++ Q) := s.inv
  have hp := hI.ptrs
  rw [show items w.cache ++ Q = w.cache.nodes.map itemOf ++ (w.cache.defer.map itemOf ++ Q) by
    rw [items, List.map_append, List.append_assoc]] at hp
  rw [List.find?_eq_none]
  intro e he hk
  simp only [Bool.and_eq_true, beq_iff_eq] at hk
  have h1 : e.ptr ∈ (w.cache.defer.map itemOf ++ Q).map (·.ptr) := by
    rw [List.map_append, List.map_map]
    exact List.mem_append_left _ (List.mem_map.mpr ⟨e, he, rfl⟩)
  rw [List.map_append, List.nodup_append] at hp
  rcases hi with hi | hi
  · exact hp.2.2 _ (List.mem_map.mpr ⟨i, hi, rfl⟩) _ h1 hk.2.symm
  · have hp2 := hp.2.1
    rw [List.map_append, List.nodup_append] at hp2
    refine hp2.2.2 _ (List.mem_map.mpr ⟨itemOf e, List.mem_map.mpr ⟨e, he, rfl⟩, rfl⟩) _
      (List.mem_map.mpr ⟨i, hi, rfl⟩) hk.2

theorem lookup_cases {upd : Bool} {k : Bytes} {r : Option (Lru.Elem ν)} (h : Lru.lookup E ad upd k w = .ok (w', r)) :
    match r with
    | none => findKey k w'.cache.nodes = none
    | some e => e ∈ w'.cache.nodes ∧ e.key = k := by
  unfold Lru.lookup at h
  simp only [bind, Except.bind] at h
  cases hx : Lru.removeExpired E ad w with
  | error e => rw [hx] at h; cases h
  | ok w1 =>
    rw [hx] at h
    simp only [Except.ok.injEq] at h
    unfold Lru.pinKey at h
    cases hf : findKey k w1.cache.nodes with
    | none =>
      rw [hf] at h
      cases h
      exact hf
    | some e =>
      rw [hf] at h
      cases h
      refine ⟨?_, ?_⟩
      · have he : e ∈ w1.cache.nodes := List.mem_of_find?_eq_some hf
        simp only [setElem]
        exact List.mem_map.mpr ⟨e, he, by simp⟩
      · have := List.find?_some hf
        simpa using this

theorem insert_old {k : Bytes} {p : Nat} {v : ν} (D : Follows (owns R good) ad pd)
    (s : Sim (owns R good) Z (⟨k, p, v⟩ :: Q) pw w) (hk : findKey k w.cache.nodes = none)
    (h : Lru.insert E ad k p v 1 w = .ok w') :
    ∃ pw', insertP E pd k p () 1 pw = .ok pw' ∧ Sim (owns R good) Z Q pw' w' ∧ w'.cache.defer ⊆ w.cache.defer := by
  unfold Lru.insert at h
  unfold insertP
  simp only [bind, Except.bind] at h ⊢
  cases hx : Lru.insertPinned E ad k p v 1 w with
  | error e => rw [hx] at h; cases h
  | ok w1 =>
    rw [hx] at h
    obtain ⟨pw1, a1, a2, a3⟩ := insertPinned_sim D s hk hx
    rw [show (owns R good).view v = () from rfl] at a1
    rw [a1]
    have hn := notDeferred s (i := ⟨k, p, v⟩) (.inr (by simp)) k
    have hn1 : w1.cache.defer.find? (fun e => e.key == k && e.ptr == p) = none := by
      rw [List.find?_eq_none] at hn ⊢
      exact fun e he => hn e (a3 he)
    obtain ⟨pw2, b1, b2, b3⟩ := release_here D a2 hn1 h
    exact ⟨pw2, b1, b2, List.Subset.trans b3 a3⟩

/-- `new` and `Insert` under a key that is not in the cache. -/
theorem insert_new {k : Bytes} {v : ν} (D : Follows (owns R good) ad pd)
    (s : Sim (owns R good) Z Q pw w) (hk : findKey k w.cache.nodes = none) (hv : good k v)
    (h : Lru.insert E ad k w.cache.nextId v 1 w = .ok w') :
    ∃ pw1 pw', PAgg.alloc v pw = .ok (pw1, w.cache.nextId) ∧ insertP E pd k w.cache.nextId () 1 pw1 = .ok pw' ∧
      Sim (owns R good) Z Q pw' w' := by
  have hI : Owns good pw.ext w.ext w.cache.nextId (items w.cache ++ Q) := s.inv
  obtain ⟨m1, a1, a2⟩ := hI.alloc k v hv
  have hnid : pw.cache.nextId = w.cache.nextId := s.rep.nextId
  refine ⟨{ pw with ext := m1 }, ?_⟩
  have halloc : PAgg.alloc v pw = .ok ({ pw with ext := m1 }, w.cache.nextId) := by
    unfold PAgg.alloc
    rw [hnid, a1]; rfl
  have sb : Sim (bare (Mem R ν) (Slot R) ν) Z (⟨k, w.cache.nextId, v⟩ :: Q) { pw with ext := m1 } w :=
    ⟨⟨s.rep, s.tick, trivial⟩, s.tab⟩
  unfold Lru.insert at h
  unfold insertP
  simp only [bind, Except.bind] at h ⊢
  cases hx : Lru.insertPinned E ad k w.cache.nextId v 1 w with
  | error e => rw [hx] at h; cases h
  | ok w1 =>
    rw [hx] at h
    unfold Lru.insertPinned at hx
    unfold Ptr.insertPinned
    simp only [bind, Except.bind] at hx ⊢
    have hr : Lru.remove E ad k w = .ok w := by unfold Lru.remove; rw [hk]
    have hpr : Ptr.remove E pd k ({ pw with ext := m1 } : PAgg R ν) = .ok { pw with ext := m1 } := by
      unfold Ptr.remove
      have := s.tab.find k
      rw [hk] at this
      simp only [this, Option.map_none]
    rw [hr] at hx
    rw [hpr]
    simp only at hx ⊢
    obtain ⟨pw2, b1, b2⟩ := addPinned_sim (E := E) (v := w.cache.nextId) (x := v) (u := 1) sb hk
    rw [show (bare (Mem R ν) (Slot R) ν).view v = () from rfl] at b1
    have hext : pw2.ext = m1 := by
      unfold Ptr.addPinned at b1
      simp only [bind, Except.bind] at b1
      split at b1
      · split at b1
        · cases b1
        · cases b1; rfl
      · cases b1; rfl
    have s2 : Sim (owns R good) Z Q pw2 (Lru.addPinned E k w.cache.nextId v 1 w) := by
      refine ofBare b2 ?_
      rw [hext]
      exact a2
    rw [b1]
    simp only
    obtain ⟨pw3, c1, c2, c3⟩ := gc_sim D s2 hx
    rw [c1]
    have hn1 : w1.cache.defer.find? (fun e => e.key == k && e.ptr == w.cache.nextId) = none := by
      rw [List.find?_eq_none]
      intro e he hke
      simp only [Bool.and_eq_true, beq_iff_eq] at hke
      have h1 : e ∈ w.cache.defer := c3 he
      have := hI.bound (itemOf e) (List.mem_append_left _ (List.mem_map.mpr ⟨e, List.mem_append_right _ h1, rfl⟩))
      simp only [itemOf] at this
      omega
    obtain ⟨pw4, d1, d2, _⟩ := release_here D c2 hn1 h
    exact ⟨pw4, halloc, d1, d2⟩

/-- Write through the pointer found and release it. -/
theorem write_release {k : Bytes} {e : Lru.Elem ν} {v : ν} {t : Nat} (D : Follows (owns R good) ad pd)
    (s : Sim (owns R good) Z Q pw w) (he : e ∈ w.cache.nodes) (hv : good e.key v)
    (h : Lru.release E ad true k e.ptr { Lru.setVal e.ptr v w with tick := t } = .ok w') :
    ∃ pw1 pw', PAgg.get e.ptr pw = .ok e.val ∧ PAgg.put e.ptr v pw = .ok pw1 ∧ pw1.tick = pw.tick ∧
      PAgg.get e.ptr pw1 = .ok v ∧
      Ptr.release E pd true k e.ptr { pw1 with tick := t } = .ok pw' ∧ Sim (owns R good) Z Q pw' w' := by
  have hi : itemOf e ∈ items w.cache := List.mem_map.mpr ⟨e, List.mem_append_left _ he, rfl⟩
  have hg : PAgg.get e.ptr pw = .ok e.val := sim_get s (i := itemOf e) (List.mem_append_left _ hi)
  obtain ⟨pw1, a1, a0, a2⟩ := sim_put s hi v hv
  have he1 : { e with val := v } ∈ (Lru.setVal e.ptr v w).cache.nodes :=
    List.mem_map.mpr ⟨e, he, by simp⟩
  have hg1 : PAgg.get e.ptr pw1 = .ok v :=
    sim_get a2 (i := ⟨e.key, e.ptr, v⟩) (List.mem_append_left _ (List.mem_map.mpr
      ⟨_, List.mem_append_left _ he1, rfl⟩))
  have hn := notDeferred (sim_tick a2 t) (i := ⟨e.key, e.ptr, v⟩) (.inl (List.mem_map.mpr ⟨_, he1, rfl⟩)) k
  obtain ⟨pw2, b1, b2, _⟩ := release_here D (sim_tick a2 t) hn h
  exact ⟨pw1, pw2, hg, a1, a0, hg1, b1, b2⟩

/-! ### Methods -/

/-- A state with objects stands for a state without. -/
structure Stands (good : Bytes → ν → Prop) (ps : PAggState ν) (s : AggState ν) : Prop where
  tick : ps.tick = s.tick
  callback : ps.callback = s.callback
  none : s.cache = none → ps.cache = none ∧ ps.heap = []
  some : ∀ c, s.cache = some c → ∃ pc, ps.cache = some pc ∧
    ∀ x : Slot R, Sim (owns R good) [] [] { cache := pc, tick := ps.tick, ext := ⟨ps.heap, x⟩ }
      { cache := c, tick := s.tick, ext := x }

theorem buffer_sim {α : Type} {ps : PAggState ν} {s s' : AggState ν} {d a : α} {fl : List R}
    {body : World (Slot R) ν → Res (World (Slot R) ν × α)} {pbody : PAgg R ν → Res (PAgg R ν × α)}
    (hS : Stands (R := R) good ps s)
    (hb : ∀ {pw : PAgg R ν} {w w' : World (Slot R) ν} {a : α}, Sim (owns R good) [] [] pw w → body w = .ok (w', a) →
      ∃ pw', pbody pw = .ok (pw', a) ∧ Sim (owns R good) [] [] pw' w')
    (h : withBuffer s d body = .ok (s', a, fl)) :
    ∃ ps', withBufferP ps d pbody = .ok (ps', a, fl) ∧ Stands (R := R) good ps' s' := by
  unfold withBuffer at h
  unfold withBufferP
  cases hc : s.cache with
  | none =>
    rw [hc] at h
    cases h
    obtain ⟨h1, h2⟩ := hS.none hc
    rw [h1]
    exact ⟨ps, rfl, hS⟩
  | some c =>
    rw [hc] at h
    obtain ⟨pc, h1, h2⟩ := hS.some c hc
    rw [h1]
    simp only [bind, Except.bind] at h ⊢
    cases hx : body { cache := c, tick := s.tick, ext := Option.some [] } with
    | error e => rw [hx] at h; cases h
    | ok y =>
      obtain ⟨w1, a1⟩ := y
      rw [hx] at h
      cases h
      obtain ⟨pw1, b1, b2⟩ := hb (h2 (Option.some [])) hx
      rw [b1]
      have hO : Owns good pw1.ext w1.ext w1.cache.nextId (items w1.cache ++ []) := b2.inv
      refine ⟨{ ps with cache := Option.some pw1.cache, heap := pw1.ext.heap, tick := pw1.tick },
        by simp only [hO.slot, hS.callback], b2.tick, hS.callback, fun hn => by simp at hn, ?_⟩
      intro c' hc'
      simp only [Option.some.injEq] at hc'
      subst hc'
      refine ⟨_, rfl, fun x => ⟨⟨b2.rep, b2.tick, ?_⟩, b2.tab⟩⟩
      exact ⟨rfl, hO.heap, hO.ptrs, hO.bound, hO.good⟩

theorem new_owns (n : Int) (x : Slot R) :
    Sim (owns R good) [] [] { cache := PCache.new n, tick := 0, ext := ⟨[], x⟩ }
      { cache := (Cache.new n : Cache ν), tick := 0, ext := x } := by
  refine ⟨⟨?_, rfl, ⟨rfl, ?_, ?_, ?_, ?_⟩⟩, ⟨by simp [PCache.new, Cache.new], by simp [Cache.new], by simp [PCache.new]⟩⟩
  · exact
      { units := rfl, pinnedUnits := rfl, maxUnits := rfl, maxIdle := rfl, lru := rfl, nextId := rfl,
        ids := by simp [idsOf, Cache.new], fresh := by simp [idsOf, Cache.new],
        live := by simp [idsOf, Cache.new, PCache.new], cellN := by simp [Cache.new], cellD := by simp [Cache.new],
        ring := by
          show Ring _ _ [Loc.head]
          rw [ring_cons]
          exact List.isChain_pair.mpr ⟨by simp [PCache.new], by simp [PCache.new]⟩,
        off := by simp [Cache.new],
        groups := ⟨[], by simp [PCache.new], by simp, by simp, by simp [Cache.new], by simp, by simp⟩ }
  all_goals simp [items, Cache.new]

/-- What the constructors of the aggregators do. -/
def newA (E : Env) (cfg : AggConfig) (del : Deleter (Slot R) ν) (ms : Int) (lru : Bool) : Res (AggState ν) :=
  if cfg.numEntries > 0 then do
    let w ← Lru.setTimeout E del (cfg.timeout ms) lru { cache := Cache.new cfg.numEntries, tick := 0, ext := none }
    .ok { cache := some w.cache, tick := w.tick, callback := false }
  else .ok { cache := none, tick := 0, callback := false }

theorem newP_sim {cfg : AggConfig} {ms : Int} {lru : Bool} {s : AggState ν} (D : Follows (owns R good) ad pd)
    (h : newA E cfg ad ms lru = .ok s) :
    ∃ ps, newP E cfg pd ms lru = .ok ps ∧ Stands (R := R) good ps s := by
  unfold newA at h
  unfold newP
  split at h
  · rename_i hn
    rw [if_pos hn]
    simp only [bind, Except.bind] at h ⊢
    cases hx : Lru.setTimeout E ad (cfg.timeout ms) lru { cache := Cache.new cfg.numEntries, tick := 0, ext := none } with
    | error e => rw [hx] at h; cases h
    | ok w1 =>
      rw [hx] at h
      cases h
      obtain ⟨pw1, b1, b2⟩ := setTimeout_sim D (new_owns cfg.numEntries none) hx
      rw [b1]
      have hO : Owns good pw1.ext w1.ext w1.cache.nextId (items w1.cache ++ []) := b2.inv
      refine ⟨{ cache := some pw1.cache, heap := pw1.ext.heap, tick := pw1.tick, callback := false }, rfl,
        b2.tick, rfl, fun hn => by simp at hn, ?_⟩
      intro c' hc'
      simp only [Option.some.injEq] at hc'
      subst hc'
      exact ⟨_, rfl, fun x => ⟨⟨b2.rep, b2.tick, ⟨rfl, hO.heap, hO.ptrs, hO.bound, hO.good⟩⟩, b2.tab⟩⟩
  · rename_i hn
    rw [if_neg hn]
    cases h
    exact ⟨_, rfl, rfl, rfl, fun _ => ⟨rfl, rfl⟩, fun c hc => by simp at hc⟩

theorem Stands.setCallback {ps : PAggState ν} {s : AggState ν} (h : Stands (R := R) good ps s) (b : Bool) :
    Stands (R := R) good (ps.setFlushCallback b) (s.setFlushCallback b) :=
  ⟨h.tick, rfl, h.none, h.some⟩

end
end Verif
