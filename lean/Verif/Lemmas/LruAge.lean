import Verif.Lemmas.LruQuiet
/-
The cache in age-based mode with an arbitrary deleter, which may call back into the cache: what each
operation does up to the point where it calls the deleter.
-/
namespace Verif.Lru

variable {σ β : Type}

/-- The world with other nodes. -/
def World.upd (w : World σ β) (N : List (Elem β)) (nid : Nat) (t : Nat) (x : σ) : World σ β :=
  { cache := { w.cache with nodes := N, units := N.length, nextId := nid }, tick := t, ext := x }

/-- Age-based mode, nothing deferred, every node linked and of size 1. -/
structure AgeN (w : World σ β) : Prop where
  distinct : Distinct w.cache.nodes
  ptrs : (w.cache.nodes.map (·.ptr)).Nodup
  elem : ∀ e ∈ w.cache.nodes, e.linked = true ∧ e.units = 1 ∧ e.id < w.cache.nextId ∧ e.ptr < w.cache.nextId
  defer : w.cache.defer = []
  units : w.cache.units = w.cache.nodes.length
  lru : w.cache.lru = false

theorem World.upd_self (w : World σ β) (h : AgeN w) : w.upd w.cache.nodes w.cache.nextId w.tick w.ext = w := by
  unfold World.upd
  rw [← h.units]

theorem gcLoop_idle (E : Env) (del : Deleter σ β) (n : Nat) (cur : Option Nat) (w : World σ β)
    (h : ¬ w.cache.overfull) : gcLoop E del n cur w = .ok w := by
  cases cur with
  | none => cases n <;> rfl
  | some i => cases n <;> simp [gcLoop, if_neg h]

/-- Garbage collection changes nothing if everything is pinned. -/
theorem gcLoop_pinned (E : Env) (del : Deleter σ β) (w : World σ β) (hd : Distinct w.cache.nodes)
    (hl : ∀ e ∈ w.cache.nodes, e.linked = true) (hp : ∀ e ∈ w.cache.nodes, e.pin ≠ 0) :
    ∀ (n : Nat) (A : List (Elem β)) (B : List (Elem β)), w.cache.nodes = A ++ B → A.length ≤ n →
      gcLoop E del n (ringLast A) w = .ok w := by
  intro n A
  induction A using List.reverseRecOn generalizing n with
  | nil => intro B _ _; cases n <;> rfl
  | append_singleton A e ih =>
    intro B hn hlen
    by_cases ho : w.cache.overfull
    · have hn' : w.cache.nodes = A ++ e :: B := by rw [hn]; simp
      have hle := hl e (by simp [hn'])
      have hr : ringLast (A ++ [e]) = some e.id := by simp [ringLast, List.filter_append, hle]
      rw [hr]
      simp only [List.length_append, List.length_cons, List.length_nil] at hlen
      cases n with
      | zero => omega
      | succ n =>
        have hd' := hd
        rw [hn'] at hd'
        have hA := (mid_ids hd'.ids).1
        have hpe := hp e (by simp [hn'])
        simp only [gcLoop, if_pos ho]
        rw [hn', findId_mid hA]
        simp only [hle, if_true, gcStep, if_neg hpe, bind, Except.bind]
        rw [ringPrev_mid hA]
        exact ih n (e :: B) hn' (by omega)
    · exact gcLoop_idle _ _ _ _ _ ho

theorem garbageCollect_pinned (E : Env) (del : Deleter σ β) (w : World σ β) (hd : Distinct w.cache.nodes)
    (hl : ∀ e ∈ w.cache.nodes, e.linked = true) (hp : ∀ e ∈ w.cache.nodes, e.pin ≠ 0) :
    garbageCollect E del w = .ok w :=
  gcLoop_pinned E del w hd hl hp _ _ [] (by simp) (by omega)

/-- Garbage collection of a cache that is overfull by one and whose oldest entry `e` is unpinned. -/
theorem garbageCollect_one (E : Env) (del : Deleter σ β) (w : World σ β) (A : List (Elem β)) (e : Elem β)
    (hn : w.cache.nodes = A ++ [e]) (hd : Distinct w.cache.nodes) (hl : e.linked = true) (hp : e.pin = 0)
    (ho : w.cache.overfull) (w1 : World σ β)
    (hw1 : w1 = { w with cache := { w.cache with nodes := A, units := w.cache.units - e.units } }) :
    (∀ err, del e w1 = .error err → garbageCollect E del w = .error err) ∧
    ∀ w2, del e w1 = .ok w2 → ¬ w2.cache.overfull → garbageCollect E del w = .ok w2 := by
  have hd' := hd
  rw [hn] at hd'
  have hA := (mid_ids hd'.ids).1
  have hr : ringLast w.cache.nodes = some e.id := by rw [hn]; simp [ringLast, List.filter_append, hl]
  have hlen : ∃ n, w.cache.nodes.length + E.extraFuel = n + 1 := ⟨A.length + E.extraFuel, by rw [hn]; simp; omega⟩
  obtain ⟨n, hlen⟩ := hlen
  have hstep : gcStep E del e w = del e w1 := by
    unfold gcStep
    rw [if_pos hp, hn, findKey_mid (mid_keys hd'.keys).1]
    simp only [assertThat, decide_true, Bool.not_true, Bool.and_false, Bool.false_eq_true, if_false, bind, Except.bind,
      discard, hp]
    rw [dropId_mid hA (by simp), List.append_nil, hw1]
  have key : garbageCollect E del w = (del e w1).bind (fun w' => gcLoop E del n (ringPrev e.id w.cache.nodes) w') := by
    unfold garbageCollect
    rw [hlen, hr]
    simp only [gcLoop, if_pos ho]
    rw [hn, findId_mid hA]
    simp only [hl, if_true, hstep]
    rfl
  rw [key]
  constructor
  · intro err h; rw [h]; rfl
  · intro w2 h h2
    rw [h]
    exact gcLoop_idle _ _ _ _ _ h2

/-- The pinned new entry. -/
abbrev newElem (E : Env) (k : Bytes) (p : Nat) (v : β) (w : World σ β) (pin : Int) : Elem β :=
  ⟨w.cache.nextId, k, p, v, pin, 1, w.now E, true⟩

/-- The world in which it has been added. -/
abbrev withNew (E : Env) (k : Bytes) (p : Nat) (v : β) (w : World σ β) : World σ β :=
  { w with
    tick := w.tick + 1
    cache := { w.cache with
      nodes := newElem E k p v w 1 :: w.cache.nodes
      units := w.cache.units + 1
      pinnedUnits := w.cache.pinnedUnits + 1
      nextId := w.cache.nextId + 1 } }

theorem insertPinned_eq (E : Env) (del : Deleter σ β) (k : Bytes) (p : Nat) (v : β) (w : World σ β) (h : AgeN w)
    (hk : ∀ e ∈ w.cache.nodes, e.key ≠ k) :
    insertPinned E del k p v 1 w = garbageCollect E del (withNew E k p v w) := by
  unfold insertPinned remove
  rw [findKey_none.mpr hk]
  have : addPinned E k p v 1 w = withNew E k p v w := by
    simp [addPinned, withNew, newElem, h.lru]
  simp only [bind, Except.bind, this]

theorem release_eq (E : Env) (del : Deleter σ β) (k : Bytes) (e : Elem β) (w : World σ β) (A B : List (Elem β))
    (hn : w.cache.nodes = A ++ e :: B) (hdis : Distinct w.cache.nodes) (hdef : w.cache.defer = [])
    (hlru : w.cache.lru = false) (hk : e.key = k) (hpin : e.pin = 1) :
    release E del true k e.ptr w =
      (let w2 : World σ β := { w with cache := { w.cache with
          nodes := A ++ { e with pin := 0 } :: B, pinnedUnits := w.cache.pinnedUnits - e.units } }
       if w2.cache.overfull then remove E del k w2 else .ok w2) := by
  have hd := hdis
  rw [hn] at hd
  obtain ⟨hA, hB⟩ := mid_ids hd.ids
  unfold release
  rw [hdef]
  simp only [List.find?_nil]
  rw [hn, ← hk, findKey_mid (mid_keys hd.keys).1]
  simp only [releaseTable, assertThat, decide_true, Bool.not_true, Bool.and_false, Bool.false_eq_true, if_false, bind,
    Except.bind, hpin, gt_iff_lt, show ((0 : Int) < 1) = True from by simp, hlru, Bool.false_and, Int.sub_self, if_true]
  rw [hn]
  have hset : setElem ({ e with pin := 0 } : Elem β) (A ++ e :: B) = A ++ ({ e with pin := 0 } : Elem β) :: B :=
    setElem_mid (e := e) _ rfl hA hB
  rw [hset]

/-- Insertion into a cache that has room. -/
theorem insert_room (E : Env) (del : Deleter σ β) (k : Bytes) (p : Nat) (v : β) (w : World σ β) (h : AgeN w)
    (hk : ∀ e ∈ w.cache.nodes, e.key ≠ k) (hroom : (w.cache.nodes.length : Int) < w.cache.maxUnits) :
    insert E del k p v 1 w =
      .ok (w.upd (newElem E k p v w 0 :: w.cache.nodes) (w.cache.nextId + 1) (w.tick + 1) w.ext) := by
  have hu := h.units
  have hno : ¬ (w.cache.units + 1 > w.cache.maxUnits) := by omega
  unfold insert
  rw [insertPinned_eq E del k p v w h hk]
  unfold garbageCollect
  rw [gcLoop_idle]
  · simp only [bind, Except.bind]
    have hdist : Distinct (newElem E k p v w 1 :: w.cache.nodes) := by
      refine ⟨?_, ?_⟩
      · simp only [List.map_cons, List.nodup_cons, List.mem_map, not_exists, not_and]
        refine ⟨fun e he h' => ?_, h.distinct.ids⟩
        have := (h.elem e he).2.2.1; omega
      · simp only [List.map_cons, List.nodup_cons, List.mem_map, not_exists, not_and]
        exact ⟨fun e he h' => hk e he h', h.distinct.keys⟩
    refine (release_eq E del k (newElem E k p v w 1) (withNew E k p v w) [] w.cache.nodes rfl hdist h.defer h.lru rfl rfl).trans ?_
    simp only
    rw [if_neg (by simpa [Cache.overfull] using hno)]
    simp only [World.upd, List.nil_append, List.length_cons]
    congr 3
    · rw [hu]; push_cast; rfl
    · show w.cache.pinnedUnits + 1 - ((1 : Nat) : Int) = _
      omega
  · simpa [Cache.overfull] using hno

/-- Insertion that needed an eviction, after which the new entry is still there. -/
theorem insert_evicted (E : Env) (del : Deleter σ β) (k : Bytes) (p : Nat) (v : β) (w : World σ β) (h : AgeN w)
    (hk : ∀ e ∈ w.cache.nodes, e.key ≠ k) (w2 : World σ β)
    (hgc : garbageCollect E del (withNew E k p v w) = .ok w2) (A B : List (Elem β))
    (hn : w2.cache.nodes = A ++ newElem E k p v w 1 :: B) (hd : Distinct w2.cache.nodes) (hdef : w2.cache.defer = [])
    (hlru : w2.cache.lru = false) (ho : ¬ w2.cache.overfull) :
    insert E del k p v 1 w = .ok { w2 with cache := { w2.cache with
      nodes := A ++ newElem E k p v w 0 :: B, pinnedUnits := w2.cache.pinnedUnits - 1 } } := by
  unfold insert
  rw [insertPinned_eq E del k p v w h hk, hgc]
  simp only [bind, Except.bind]
  refine (release_eq E del k (newElem E k p v w 1) w2 A B hn hd hdef hlru rfl rfl).trans ?_
  simp only
  rw [if_neg ho]
  rfl

theorem insert_gc_error (E : Env) (del : Deleter σ β) (k : Bytes) (p : Nat) (v : β) (w : World σ β) (h : AgeN w)
    (hk : ∀ e ∈ w.cache.nodes, e.key ≠ k) (err : Fault)
    (hgc : garbageCollect E del (withNew E k p v w) = .error err) : insert E del k p v 1 w = .error err := by
  unfold insert
  rw [insertPinned_eq E del k p v w h hk, hgc]
  rfl

/-- Insertion into a full cache in which everything is pinned: the new entry is removed again. -/
theorem insert_all_pinned (E : Env) (del : Deleter σ β) (k : Bytes) (p : Nat) (v : β) (w : World σ β) (h : AgeN w)
    (hk : ∀ e ∈ w.cache.nodes, e.key ≠ k) (hp : ∀ e ∈ w.cache.nodes, e.pin ≠ 0)
    (ho : (w.cache.nodes.length : Int) = w.cache.maxUnits) :
    insert E del k p v 1 w = del (newElem E k p v w 0)
      (w.upd w.cache.nodes (w.cache.nextId + 1) (w.tick + 1) w.ext) := by
  have hu := h.units
  have hdist : Distinct (newElem E k p v w 1 :: w.cache.nodes) := by
    refine ⟨?_, ?_⟩
    · simp only [List.map_cons, List.nodup_cons, List.mem_map, not_exists, not_and]
      refine ⟨fun e he h' => ?_, h.distinct.ids⟩
      have := (h.elem e he).2.2.1; omega
    · simp only [List.map_cons, List.nodup_cons, List.mem_map, not_exists, not_and]
      exact ⟨fun e he h' => hk e he h', h.distinct.keys⟩
  unfold insert
  rw [insertPinned_eq E del k p v w h hk, garbageCollect_pinned]
  · simp only [bind, Except.bind]
    refine (release_eq E del k (newElem E k p v w 1) (withNew E k p v w) [] w.cache.nodes rfl hdist h.defer h.lru rfl
      rfl).trans ?_
    simp only
    rw [if_pos (by simp only [Cache.overfull]; omega)]
    unfold remove
    rw [show findKey k ([] ++ ({ newElem E k p v w 1 with pin := 0 } : Elem β) :: w.cache.nodes) =
      some (newElem E k p v w 0) from findKey_mid (e := newElem E k p v w 0) (A := []) (by simp)]
    simp only [removeElem, discard, assertThat, decide_true, Bool.not_true, Bool.and_false, Bool.false_eq_true, if_false,
      bind, Except.bind, gt_iff_lt, Int.lt_irrefl]
    have hdrop : dropId w.cache.nextId ([] ++ ({ newElem E k p v w 1 with pin := 0 } : Elem β) :: w.cache.nodes) =
        w.cache.nodes := by
      have := dropId_mid (e := newElem E k p v w 0) (A := []) (B := w.cache.nodes) (by simp)
        (fun b hb h' => by have := (h.elem b hb).2.2.1; simp only at h'; omega)
      simpa using this
    rw [hdrop]
    congr 1
    simp only [World.upd]
    congr 2
    · rw [← hu]; push_cast; omega
    · push_cast; omega
  · exact hdist
  · intro e he
    rcases List.mem_cons.mp he with rfl | he
    · rfl
    · exact (h.elem e he).1
  · intro e he
    rcases List.mem_cons.mp he with rfl | he
    · simp
    · exact hp e he

end Verif.Lru
