import Verif.Lemmas.LruBuild
/-
The cache as the aggregators use it: between calls nothing is pinned, every entry has size 1 and
the deleter does not re-enter the cache.  The cache then is a list of entries, most recent first.
-/
namespace Verif.Lru

variable {σ β : Type}

/-- What matters of an entry. -/
structure Ent (β : Type) where
  key : Bytes
  val : β
  used : Int
  deriving DecidableEq

/-- Capacity, idle limit in cycles (negative: none), eviction mode. -/
structure Params where
  cap : Int
  limit : Int
  lru : Bool
  deriving DecidableEq

def viewE (e : Elem β) : Ent β := ⟨e.key, e.val, e.lastUse⟩

/-- The resting elements. -/
structure Rest (n : Nat) (l : List (Elem β)) : Prop where
  distinct : Distinct l
  ptrs : (l.map (·.ptr)).Nodup
  elem : ∀ e ∈ l, e.pin = 0 ∧ e.linked = true ∧ e.units = 1 ∧ e.id < n ∧ e.ptr < n

structure Quiet (P : Params) (L : List (Ent β)) (c : Cache β) : Prop where
  rest : Rest c.nextId c.nodes
  view : c.nodes.map viewE = L
  defer : c.defer = []
  units : c.units = c.nodes.length
  pinned : c.pinnedUnits = 0
  room : (c.nodes.length : Int) ≤ P.cap
  pos : 1 ≤ P.cap
  cap : c.maxUnits = P.cap
  limit : c.maxIdle = P.limit
  lru : c.lru = P.lru

/-- Sorted by last use, most recent first, all at or after the epoch. -/
def Sorted (L : List (Ent β)) : Prop :=
  L.Pairwise (fun a b => b.used ≤ a.used) ∧ ∀ x ∈ L, 0 ≤ x.used

theorem Rest.sublist {n : Nat} {a b : List (Elem β)} (h : Rest n b) (s : a.Sublist b) : Rest n a :=
  ⟨h.distinct.sublist s, h.ptrs.sublist (s.map _), fun e he => h.elem e (s.subset he)⟩

theorem Rest.perm {n : Nat} {a b : List (Elem β)} (h : Rest n b) (s : a.Perm b) : Rest n a :=
  ⟨h.distinct.perm s, (s.map _).nodup_iff.mpr h.ptrs, fun e he => h.elem e (s.subset he)⟩

theorem Rest.mono {n m : Nat} {l : List (Elem β)} (h : Rest n l) (hm : n ≤ m) : Rest m l :=
  ⟨h.distinct, h.ptrs, fun e he => by have := h.elem e he; grind⟩

theorem Rest.sumUnits {n : Nat} {l : List (Elem β)} (h : Rest n l) : Lru.sumUnits l = l.length := by
  have : ∀ l : List (Elem β), (∀ e ∈ l, e.units = 1) → Lru.sumUnits l = l.length := by
    intro l
    induction l with
    | nil => intro _; simp
    | cons e l ih =>
      intro h
      simp only [List.mem_cons, forall_eq_or_imp] at h
      rw [sumUnits_cons, ih h.2, h.1]
      simp; omega
  exact this l (fun e he => (h.elem e he).2.2.1)

/-- The entries that stay and those that leave (least recent first) at time `now`. -/
def keepOf (P : Params) (now : Int) (L : List (Ent β)) : List (Ent β) :=
  if 0 ≤ P.limit then (L.reverse.dropWhile (fun x => decide (x.used < now - P.limit))).reverse else L
def goneOf (P : Params) (now : Int) (L : List (Ent β)) : List (Ent β) :=
  if 0 ≤ P.limit then L.reverse.takeWhile (fun x => decide (x.used < now - P.limit)) else []
/-- Clock readings of an expiry check. -/
def ticksOf (P : Params) : Nat := if 0 ≤ P.limit then 1 else 0

theorem keep_gone (P : Params) (now : Int) (L : List (Ent β)) :
    L.reverse = goneOf P now L ++ (keepOf P now L).reverse := by
  unfold goneOf keepOf
  split
  · simp
  · simp

theorem keep_sublist (P : Params) (now : Int) (L : List (Ent β)) : (keepOf P now L).Sublist L := by
  unfold keepOf
  split
  · have := (List.dropWhile_sublist (l := L.reverse) (fun x => decide (x.used < now - P.limit))).reverse
    simpa using this
  · exact List.Sublist.refl _

theorem keep_perm (P : Params) (now : Int) (L : List (Ent β)) :
    (goneOf P now L ++ keepOf P now L).Perm L := by
  have h : (goneOf P now L ++ (keepOf P now L).reverse).Perm L := by
    rw [← keep_gone]; exact List.reverse_perm L
  exact ((List.reverse_perm _).symm.append_left _).trans h

theorem idleScan_linked (thr : Int) (l : List (Elem β)) (h : ∀ e ∈ l, e.linked = true) :
    idleScan thr l = (l.dropWhile (fun e => decide (e.lastUse < thr)),
      l.takeWhile (fun e => decide (e.lastUse < thr))) := by
  induction l with
  | nil => rfl
  | cons e l ih =>
    simp only [List.mem_cons, forall_eq_or_imp] at h
    simp only [idleScan, h.1, if_true, ih h.2]
    by_cases hlt : e.lastUse < thr <;> simp [hlt]

theorem unpinned_all {l : List (Elem β)} (h : ∀ e ∈ l, e.pin = 0) : unpinned l = l ∧ pinnedOf l = [] := by
  constructor
  · unfold unpinned
    rw [List.filter_eq_self]
    intro e he; simp [h e he]
  · unfold pinnedOf
    rw [List.filter_eq_nil_iff]
    intro e he; simp [h e he]

/-- `pureDel` for deleters that only look at the value. -/
abbrev valDel (g : β → σ → σ) : Deleter σ β := pureDel (fun e s => g e.val s)

def outOf (g : β → σ → σ) (G : List (Ent β)) (s : σ) : σ := G.foldl (fun s x => g x.val s) s

theorem outOf_view (g : β → σ → σ) (l : List (Elem β)) (s : σ) :
    l.foldl (fun s e => g e.val s) s = outOf g (l.map viewE) s := by
  unfold outOf
  rw [List.foldl_map]
  rfl

theorem outOf_append (g : β → σ → σ) (a b : List (Ent β)) (s : σ) :
    outOf g (a ++ b) s = outOf g b (outOf g a s) := by
  simp [outOf, List.foldl_append]

theorem Quiet.sorted_asserts {P : Params} {L : List (Ent β)} {c : Cache β} (q : Quiet P L c)
    (hs : Sorted L) (thr : Int) : idleAsserts c.lru thr 0 c.nodes.reverse := by
  apply idleAsserts_of_sorted
  · rw [List.pairwise_reverse]
    have := hs.1
    rw [← q.view, List.pairwise_map] at this
    exact this.imp (fun h _ _ => h)
  · intro e he _
    have := hs.2 (viewE e) (by rw [← q.view]; exact List.mem_map_of_mem (by simpa using he))
    simp only [viewE] at this; omega
  · intro _ e he _
    exact (q.rest.elem e (by simpa using he)).1

/-- Removing some resting entries keeps the cache quiet. -/
theorem Quiet.rm {P : Params} {L : List (Ent β)} {w : World σ β} (q : Quiet P L w.cache)
    (f : Elem β → σ → σ) (kept gone : List (Elem β)) (hs : kept.Sublist w.cache.nodes)
    (hp : (gone ++ kept).Perm w.cache.nodes) :
    Quiet P (kept.map viewE) (rmWorld f w kept gone []).cache := by
  have hg : Lru.sumUnits gone = gone.length := by
    have : Rest w.cache.nextId gone := (q.rest.perm hp).sublist (List.sublist_append_left _ _)
    exact this.sumUnits
  have hl := hp.length_eq
  have hu := q.units
  have hr := q.room
  simp only [List.length_append] at hl
  refine ⟨q.rest.sublist hs, rfl, ?_, ?_, ?_, ?_, q.pos, q.cap, q.limit, q.lru⟩
  · simpa [rmWorld] using q.defer
  · simp only [rmWorld, hg, hu]; omega
  · simpa [rmWorld] using q.pinned
  · show (kept.length : Int) ≤ P.cap
    omega

theorem removeExpired_quiet (E : Env) (g : β → σ → σ) {P : Params} {L : List (Ent β)} (w : World σ β)
    (q : Quiet P L w.cache) (hs : E.dbg = true → Sorted L) :
    ∃ w', removeExpired E (valDel g) w = .ok w' ∧ Quiet P (keepOf P (w.now E) L) w'.cache ∧
      w'.tick = w.tick + ticksOf P ∧ w'.ext = outOf g (goneOf P (w.now E) L) w.ext ∧
      w'.cache.nextId = w.cache.nextId := by
  unfold removeExpired
  rw [q.limit]
  by_cases hl : 0 ≤ P.limit
  · rw [if_pos hl, discardIdle_pure E _ P.limit w q.rest.distinct
      (fun e he => Int.le_of_eq (q.rest.elem e he).1.symm) hl
      (fun hd => q.sorted_asserts (hs hd) _)]
    refine ⟨_, rfl, ?_⟩
    have hlk : ∀ e ∈ w.cache.nodes.reverse, e.linked = true := fun e he =>
      (q.rest.elem e (by simpa using he)).2.1
    rw [idleScan_linked _ _ hlk]
    set thr := w.now E - P.limit with hthr
    set p : Elem β → Bool := fun e => decide (e.lastUse < thr) with hp
    have hpin : ∀ e ∈ w.cache.nodes.reverse.takeWhile p, e.pin = 0 := fun e he =>
      (q.rest.elem e (by simpa using (List.takeWhile_sublist p).subset he)).1
    rw [(unpinned_all hpin).1, (unpinned_all hpin).2]
    have hv : (w.cache.nodes.reverse).map viewE = L.reverse := by rw [List.map_reverse, q.view]
    have hpc : (fun x : Ent β => decide (x.used < thr)) ∘ viewE = p := rfl
    have hkeep : ((w.cache.nodes.reverse.dropWhile p).reverse).map viewE = keepOf P (w.now E) L := by
      unfold keepOf
      rw [if_pos hl, ← hv, List.dropWhile_map, hpc, List.map_reverse]
    have hgone : (w.cache.nodes.reverse.takeWhile p).map viewE = goneOf P (w.now E) L := by
      unfold goneOf
      rw [if_pos hl, ← hv, List.takeWhile_map, hpc]
    refine ⟨?_, ?_, ?_, rfl⟩
    · rw [← hkeep]
      refine Quiet.rm (w := w.ticked) (L := L) q _ _ _ ?_ ?_
      · simpa [World.ticked] using (List.dropWhile_sublist (l := w.cache.nodes.reverse) p).reverse
      · have h1 : (w.cache.nodes.reverse.takeWhile p ++ (w.cache.nodes.reverse.dropWhile p).reverse).Perm
            (w.cache.nodes.reverse.takeWhile p ++ w.cache.nodes.reverse.dropWhile p) :=
          (List.reverse_perm _).append_left _
        rw [List.takeWhile_append_dropWhile] at h1
        exact h1.trans (List.reverse_perm _)
    · simp [rmWorld, World.ticked, ticksOf, hl]
    · rw [← hgone, ← outOf_view]; rfl
  · rw [if_neg hl]
    refine ⟨w, rfl, ?_, ?_, ?_, rfl⟩
    · simpa [keepOf, hl] using q
    · simp [ticksOf, hl]
    · simp [goneOf, hl, outOf]

/-- The world while entry `e` is pinned by a lookup. -/
def pinnedWorld (w : World σ β) (A : List (Elem β)) (e : Elem β) (B : List (Elem β)) : World σ β :=
  { w with cache := { w.cache with
      nodes := A ++ { e with pin := 1, linked := !w.cache.lru } :: B, pinnedUnits := 1 } }

theorem pinKey_none (upd : Bool) (k : Bytes) (w : World σ β) (h : ∀ e ∈ w.cache.nodes, e.key ≠ k) :
    pinKey upd k w = (w, none) := by
  unfold pinKey
  rw [findKey_none.mpr h]

theorem pinKey_some {P : Params} {L : List (Ent β)} (w : World σ β) (q : Quiet P L w.cache)
    (A B : List (Elem β)) (e : Elem β) (hn : w.cache.nodes = A ++ e :: B) :
    pinKey true e.key w = (pinnedWorld w A e B, some { e with pin := 1, linked := !w.cache.lru }) := by
  have hd := q.rest.distinct
  rw [hn] at hd
  have he := q.rest.elem e (by simp [hn])
  unfold pinKey
  rw [hn, findKey_mid (mid_keys hd.keys).1]
  obtain ⟨hA, hB⟩ := mid_ids hd.ids
  have hlk : (if e.pin = 0 ∧ w.cache.lru = true ∧ True then false else e.linked) = !w.cache.lru := by
    rw [he.1, he.2.1]; cases w.cache.lru <;> simp
  have hpi : e.pin + 1 = 1 := by rw [he.1]; rfl
  have hpu : (if e.pin = 0 then w.cache.pinnedUnits + (e.units : Int) else w.cache.pinnedUnits) = 1 := by
    rw [if_pos he.1, q.pinned, he.2.2.1]; rfl
  simp only [hlk, hpi, hpu]
  rw [setElem_mid (e := e) { e with pin := 1, linked := !w.cache.lru } rfl hA hB]
  rfl

/-- Writing through the pointer of the pinned entry. -/
theorem setVal_pinned {P : Params} {L : List (Ent β)} (w : World σ β) (q : Quiet P L w.cache)
    (A B : List (Elem β)) (e : Elem β) (hn : w.cache.nodes = A ++ e :: B) (v : β) :
    setVal e.ptr v (pinnedWorld w A e B) = pinnedWorld w A { e with val := v } B := by
  have hd := q.rest.ptrs
  rw [hn] at hd
  have hAB : (∀ a ∈ A, a.ptr ≠ e.ptr) ∧ ∀ b ∈ B, b.ptr ≠ e.ptr := by
    simp only [List.map_append, List.map_cons, List.nodup_append, List.nodup_cons, List.mem_map,
      List.mem_cons] at hd
    constructor
    · intro a ha h
      exact hd.2.2 a.ptr ⟨a, ha, rfl⟩ e.ptr (Or.inl rfl) h
    · intro b hb h
      exact hd.2.1.1 ⟨b, hb, h⟩
  have hid : ∀ l : List (Elem β), (∀ a ∈ l, a.ptr ≠ e.ptr) →
      l.map (fun x => if x.ptr == e.ptr then { x with val := v } else x) = l := by
    intro l hl
    conv => rhs; rw [← List.map_id l]
    apply List.map_congr_left
    intro a ha
    simp [hl a ha]
  unfold setVal pinnedWorld
  simp only [List.map_append, List.map_cons, hid A hAB.1, hid B hAB.2, q.defer, List.map_nil,
    beq_self_eq_true, if_true]

/-- The world after the release. -/
def releasedWorld (E : Env) (w : World σ β) (A : List (Elem β)) (e : Elem β) (B : List (Elem β)) :
    World σ β :=
  { w with
    tick := if w.cache.lru then w.tick + 1 else w.tick
    cache := { w.cache with
      nodes := if w.cache.lru then { e with lastUse := w.now E } :: (A ++ B) else A ++ e :: B } }

theorem release_pinned (E : Env) (g : β → σ → σ) {P : Params} {L : List (Ent β)} (w : World σ β)
    (q : Quiet P L w.cache) (A B : List (Elem β)) (e : Elem β) (v : β) (t : Nat)
    (hn : w.cache.nodes = A ++ e :: B) :
    release E (valDel g) true e.key e.ptr { pinnedWorld w A { e with val := v } B with tick := t } =
      .ok (releasedWorld E { w with tick := t } A { e with val := v } B) := by
  have hd := q.rest.distinct
  rw [hn] at hd
  have he := q.rest.elem e (by simp [hn])
  obtain ⟨hA, hB⟩ := mid_ids hd.ids
  have hfind : findKey e.key (A ++ ({ e with val := v, pin := 1, linked := !w.cache.lru } : Elem β) :: B) =
      some { e with val := v, pin := 1, linked := !w.cache.lru } :=
    findKey_mid (e := ({ e with val := v, pin := 1, linked := !w.cache.lru } : Elem β)) (mid_keys hd.keys).1
  have hover : ¬ w.cache.overfull := by
    have h1 := q.units; have h2 := q.room; have h3 := q.cap
    unfold Cache.overfull; omega
  have hpu := q.pinned
  unfold release
  rw [show ({ pinnedWorld w A { e with val := v } B with tick := t } : World σ β).cache.defer = [] from q.defer]
  simp only [List.find?_nil]
  rw [show ({ pinnedWorld w A { e with val := v } B with tick := t } : World σ β).cache.nodes =
    A ++ ({ e with val := v, pin := 1, linked := !w.cache.lru } : Elem β) :: B from rfl, hfind]
  simp only [releaseTable, assertThat, pinnedWorld, Bool.and_true, decide_true, Bool.not_true, Bool.and_false,
    Bool.false_eq_true, if_false, bind, Except.bind, gt_iff_lt, show ((0 : Int) < 1) = True from by simp,
    Int.sub_self, if_true]
  cases hl : w.cache.lru with
  | true =>
    have hdrop : dropId e.id (A ++ ({ e with val := v, pin := 1, linked := false } : Elem β) :: B) = A ++ B :=
      dropId_mid (e := ({ e with val := v, pin := 1, linked := false } : Elem β)) hA hB
    simp only [linkFront, World.ticked, World.now, Bool.not_true, Bool.false_eq_true, if_false, if_true, hdrop,
      releasedWorld, hl]
    rw [if_neg (by simpa [Cache.overfull] using hover)]
    obtain ⟨hp0, hl0, hu0, _⟩ := he
    congr 2
    simp [hp0, hl0, hu0, hpu]
  | false =>
    have hset : setElem ({ e with val := v, pin := 0, linked := true } : Elem β)
        (A ++ ({ e with val := v, pin := 1, linked := true } : Elem β) :: B) =
        A ++ ({ e with val := v, pin := 0, linked := true } : Elem β) :: B :=
      setElem_mid (e := ({ e with val := v, pin := 1, linked := true } : Elem β)) _ rfl hA hB
    simp only [Bool.not_false, Bool.false_eq_true, if_false, hset, releasedWorld, hl]
    rw [if_neg (by simpa [Cache.overfull] using hover)]
    obtain ⟨hp0, hl0, hu0, _⟩ := he
    congr 2
    simp [hp0, hl0, hu0, hpu]

/-! ### On entries -/

def findL (k : Bytes) (L : List (Ent β)) : Option (Ent β) := L.find? (fun x => x.key == k)

/-- The list after a use of `k` that leaves value `v`. -/
def putL (lru : Bool) (k : Bytes) (v : β) (now : Int) (L : List (Ent β)) : List (Ent β) :=
  if lru then ⟨k, v, now⟩ :: L.filter (fun x => !(x.key == k))
  else L.map (fun x => if x.key == k then { x with val := v } else x)

/-- The list after an insertion of `k`, which it does not contain. -/
def insL (cap : Int) (k : Bytes) (v : β) (now : Int) (L : List (Ent β)) : List (Ent β) :=
  ⟨k, v, now⟩ :: (if (L.length : Int) < cap then L else L.dropLast)
/-- The evicted entry. -/
def evL (cap : Int) (L : List (Ent β)) : List (Ent β) :=
  if (L.length : Int) < cap then [] else L.getLast?.toList

theorem Quiet.keys {P : Params} {L : List (Ent β)} {c : Cache β} (q : Quiet P L c) :
    (L.map (·.key)).Nodup := by
  have := q.rest.distinct.keys
  rw [← q.view, List.map_map]
  exact this

theorem findL_none {k : Bytes} {L : List (Ent β)} : findL k L = none ↔ ∀ x ∈ L, x.key ≠ k := by
  simp [findL, List.find?_eq_none]

theorem findL_some {k : Bytes} {L : List (Ent β)} (hk : (L.map (·.key)).Nodup) {x : Ent β} :
    findL k L = some x ↔ x ∈ L ∧ x.key = k := by
  induction L with
  | nil => simp [findL]
  | cons y L ih =>
    simp only [List.map_cons, List.nodup_cons, List.mem_map, not_exists, not_and] at hk
    unfold findL at ih ⊢
    simp only [List.find?_cons]
    by_cases hy : y.key = k
    · simp only [hy, beq_self_eq_true, Option.some.injEq, List.mem_cons]
      constructor
      · rintro rfl; exact ⟨Or.inl rfl, hy⟩
      · rintro ⟨rfl | hm, hx⟩
        · rfl
        · exact absurd (hx.trans hy.symm) (hk.1 x hm)
    · have : (y.key == k) = false := by simp [hy]
      simp only [this, ih hk.2, List.mem_cons]
      constructor
      · rintro ⟨h1, h2⟩; exact ⟨Or.inr h1, h2⟩
      · rintro ⟨rfl | hm, hx⟩
        · exact absurd hx hy
        · exact ⟨hm, hx⟩

theorem released_quiet (E : Env) {P : Params} {L : List (Ent β)} (w : World σ β)
    (q : Quiet P L w.cache) (A B : List (Elem β)) (e : Elem β) (v : β) (t : Nat)
    (hn : w.cache.nodes = A ++ e :: B) :
    Quiet P (putL P.lru e.key v (E.clk t) L)
      (releasedWorld E { w with tick := t } A { e with val := v } B).cache := by
  have hr := q.rest
  rw [hn] at hr
  have hu := q.units
  have hro := q.room
  rw [hn] at hu hro
  have hsame : ∀ (u : Int), Rest w.cache.nextId (A ++ ({ e with val := v, lastUse := u } : Elem β) :: B) := by
    intro u
    refine ⟨⟨?_, ?_⟩, ?_, ?_⟩
    · simpa using hr.distinct.ids
    · simpa using hr.distinct.keys
    · simpa using hr.ptrs
    · intro x hx
      simp only [List.mem_append, List.mem_cons] at hx
      rcases hx with h | rfl | h
      · exact hr.elem x (by simp [h])
      · exact hr.elem e (by simp)
      · exact hr.elem x (by simp [h])
  have hkeys := mid_keys hr.distinct.keys
  have hview : L = A.map viewE ++ viewE e :: B.map viewE := by rw [← q.view, hn]; simp
  cases hl : P.lru with
  | true =>
    have hwl : w.cache.lru = true := by rw [q.lru, hl]
    have hperm : (({ e with val := v, lastUse := E.clk t } : Elem β) :: (A ++ B)).Perm
        (A ++ ({ e with val := v, lastUse := E.clk t } : Elem β) :: B) := List.perm_middle.symm
    have hcache : (releasedWorld E { w with tick := t } A { e with val := v } B).cache.nodes =
        ({ e with val := v, lastUse := E.clk t } : Elem β) :: (A ++ B) := by
      simp [releasedWorld, hwl, World.now]
    refine ⟨?_, ?_, q.defer, ?_, q.pinned, ?_, q.pos, q.cap, q.limit, q.lru⟩
    · rw [hcache]; exact (hsame _).perm hperm
    · rw [hcache]
      simp only [putL, if_true, hview]
      have hfA : (A.map viewE).filter (fun x => !(x.key == e.key)) = A.map viewE := by
        rw [List.filter_eq_self]
        intro x hx
        obtain ⟨a, ha, rfl⟩ := List.mem_map.mp hx
        simpa [viewE] using hkeys.1 a ha
      have hfB : (B.map viewE).filter (fun x => !(x.key == e.key)) = B.map viewE := by
        rw [List.filter_eq_self]
        intro x hx
        obtain ⟨a, ha, rfl⟩ := List.mem_map.mp hx
        simpa [viewE] using hkeys.2 a ha
      rw [List.filter_append, List.filter_cons, hfA, hfB]
      simp [viewE]
    · rw [hcache]
      show w.cache.units = _
      rw [hu]; simp; omega
    · rw [hcache]; simp at hro ⊢; omega
  | false =>
    have hwl : w.cache.lru = false := by rw [q.lru, hl]
    have hcache : (releasedWorld E { w with tick := t } A { e with val := v } B).cache.nodes =
        A ++ ({ e with val := v } : Elem β) :: B := by
      simp [releasedWorld, hwl]
    refine ⟨?_, ?_, q.defer, ?_, q.pinned, ?_, q.pos, q.cap, q.limit, q.lru⟩
    · rw [hcache]; exact hsame e.lastUse
    · rw [hcache]
      simp only [putL, Bool.false_eq_true, if_false, hview]
      have hid : ∀ l : List (Elem β), (∀ a ∈ l, a.key ≠ e.key) →
          (l.map viewE).map (fun x => if x.key == e.key then { x with val := v } else x) = l.map viewE := by
        intro l hl
        rw [List.map_map]
        apply List.map_congr_left
        intro a ha
        simp [viewE, hl a ha]
      simp only [List.map_append, List.map_cons]
      rw [hid A hkeys.1, hid B hkeys.2]
      simp [viewE]
    · rw [hcache]
      show w.cache.units = _
      rw [hu]; simp
    · rw [hcache]; simpa using hro

theorem findL_view {P : Params} {L : List (Ent β)} {c : Cache β} (q : Quiet P L c) {k : Bytes} {x : Ent β}
    (h : findL k L = some x) : ∃ A e B, c.nodes = A ++ e :: B ∧ viewE e = x ∧ e.key = k := by
  obtain ⟨hm, hk⟩ := (findL_some q.keys).mp h
  rw [← q.view, List.mem_map] at hm
  obtain ⟨e, he, rfl⟩ := hm
  obtain ⟨A, B, hAB⟩ := List.append_of_mem he
  exact ⟨A, e, B, hAB, rfl, hk⟩

theorem lookup_quiet_none (E : Env) (g : β → σ → σ) {P : Params} {L : List (Ent β)} (k : Bytes) (w : World σ β)
    (q : Quiet P L w.cache) (hs : E.dbg = true → Sorted L) (hf : findL k (keepOf P (w.now E) L) = none) :
    ∃ w', lookup E (valDel g) true k w = .ok (w', none) ∧ Quiet P (keepOf P (w.now E) L) w'.cache ∧
      w'.tick = w.tick + ticksOf P ∧ w'.ext = outOf g (goneOf P (w.now E) L) w.ext := by
  obtain ⟨w', h1, h2, h3, h4, _⟩ := removeExpired_quiet E g w q hs
  refine ⟨w', ?_, h2, h3, h4⟩
  unfold lookup
  rw [h1]
  simp only [bind, Except.bind]
  rw [pinKey_none]
  intro e he hk
  refine findL_none.mp hf (viewE e) ?_ hk
  rw [← h2.view]
  exact List.mem_map_of_mem he

theorem lookup_quiet_some (E : Env) (g : β → σ → σ) {P : Params} {L : List (Ent β)} (k : Bytes) (w : World σ β)
    (q : Quiet P L w.cache) (hs : E.dbg = true → Sorted L) (x : Ent β)
    (hf : findL k (keepOf P (w.now E) L) = some x) :
    ∃ w1 e, lookup E (valDel g) true k w = .ok (w1, some e) ∧ e.val = x.val ∧
      w1.tick = w.tick + ticksOf P ∧ w1.ext = outOf g (goneOf P (w.now E) L) w.ext ∧
      ∀ v t w2, (w2 = { setVal e.ptr v w1 with tick := t } ∨ (v = x.val ∧ w2 = { w1 with tick := t })) →
        ∃ w3, release E (valDel g) true k e.ptr w2 = .ok w3 ∧
          Quiet P (putL P.lru k v (E.clk t) (keepOf P (w.now E) L)) w3.cache ∧
          w3.tick = t + (if P.lru then 1 else 0) ∧
          w3.ext = outOf g (goneOf P (w.now E) L) w.ext := by
  obtain ⟨w', h1, h2, h3, h4, _⟩ := removeExpired_quiet E g w q hs
  obtain ⟨A, e, B, hn, rfl, rfl⟩ := findL_view h2 hf
  refine ⟨pinnedWorld w' A e B, { e with pin := 1, linked := !w'.cache.lru }, ?_, rfl, h3, h4, ?_⟩
  · unfold lookup
    rw [h1]
    simp only [bind, Except.bind]
    rw [pinKey_some w' h2 A B e hn]
  · intro v t w2 hw2
    have hw2' : w2 = { pinnedWorld w' A { e with val := v } B with tick := t } := by
      rcases hw2 with rfl | ⟨rfl, rfl⟩
      · show ({ setVal e.ptr v (pinnedWorld w' A e B) with tick := t } : World σ β) = _
        rw [setVal_pinned w' h2 A B e hn v]
      · rfl
    rw [hw2']
    refine ⟨_, release_pinned E g w' h2 A B e v t hn, released_quiet E w' h2 A B e v t hn, ?_, h4⟩
    simp only [releasedWorld, h2.lru]
    split <;> rfl

theorem remove_quiet (E : Env) (g : β → σ → σ) {P : Params} {L : List (Ent β)} (k : Bytes) (w : World σ β)
    (q : Quiet P L w.cache) (x : Ent β) (hf : findL k L = some x) :
    ∃ w', remove E (valDel g) k w = .ok w' ∧ Quiet P (L.filter (fun y => !(y.key == k))) w'.cache ∧
      w'.tick = w.tick ∧ w'.ext = outOf g [x] w.ext := by
  obtain ⟨A, e, B, hn, rfl, rfl⟩ := findL_view q hf
  have hd := q.rest.distinct
  rw [hn] at hd
  have hp := (q.rest.elem e (by simp [hn])).1
  have hkeys := mid_keys hd.keys
  rw [remove_pure_some E _ e w A B hn hd (by omega), if_pos hp]
  refine ⟨_, rfl, ?_, rfl, rfl⟩
  have hL : L.filter (fun y => !(y.key == e.key)) = (A ++ B).map viewE := by
    rw [← q.view, hn, List.map_append, List.map_cons, List.filter_append, List.filter_cons, List.map_append]
    have hid : ∀ l : List (Elem β), (∀ a ∈ l, a.key ≠ e.key) →
        (l.map viewE).filter (fun y => !(y.key == e.key)) = l.map viewE := by
      intro l hl
      rw [List.filter_eq_self]
      intro x hx
      obtain ⟨a, ha, rfl⟩ := List.mem_map.mp hx
      simpa [viewE] using hl a ha
    rw [hid A hkeys.1, hid B hkeys.2]
    simp [viewE]
  rw [hL]
  refine q.rm _ _ _ ?_ ?_
  · rw [hn]; simp
  · rw [hn]; simpa using (List.perm_middle (l₁ := A) (a := e) (l₂ := B)).symm

theorem removeAll_quiet (E : Env) (g : β → σ → σ) {P : Params} {L : List (Ent β)} (w : World σ β)
    (q : Quiet P L w.cache) :
    ∃ w' G, removeAll E (valDel g) w = .ok w' ∧ Quiet P [] w'.cache ∧ G.Perm L ∧
      w'.tick = w.tick ∧ w'.ext = outOf g G w.ext := by
  have hpin : ∀ e ∈ w.cache.nodes, e.pin = 0 := fun e he => (q.rest.elem e he).1
  have hperm := tableOrder_perm E w.cache.nodes
  have hpin' : ∀ e ∈ tableOrder E w.cache.nodes, e.pin = 0 := fun e he => hpin e (hperm.subset he)
  rw [removeAll_pure E _ w (fun e he => Int.le_of_eq (hpin e he).symm),
    (unpinned_all hpin').1, (unpinned_all hpin').2]
  refine ⟨_, (tableOrder E w.cache.nodes).map viewE, rfl, ?_, ?_, rfl, ?_⟩
  · have := q.rm (fun e s => g e.val s) [] (tableOrder E w.cache.nodes) (List.nil_sublist _)
      (by simpa using hperm)
    simpa using this
  · rw [← q.view]; exact hperm.map _
  · rw [← outOf_view]; rfl

theorem gcScan_snoc {over : Int} (e : Elem β) (l : List (Elem β)) (ho : over = 1) (he : e.linked = true)
    (hp : e.pin = 0) (hu : e.units = 1) : gcScan over (e :: l) = (l, [e]) := by
  subst ho
  simp only [gcScan, he, hp, hu, and_self, if_true, Int.zero_lt_one]
  rw [gcScan_stop (by simp)]

theorem insert_quiet (E : Env) (g : β → σ → σ) {P : Params} {L : List (Ent β)} (k : Bytes) (v : β) (w : World σ β)
    (q : Quiet P L w.cache) (hk : ∀ x ∈ L, x.key ≠ k) :
    ∃ w', insert E (valDel g) k w.cache.nextId v 1 w = .ok w' ∧
      Quiet P (insL P.cap k v (E.clk (w.tick + if P.lru then 1 else 0)) L) w'.cache ∧
      w'.tick = w.tick + 1 + (if P.lru then 1 else 0) ∧ w'.ext = outOf g (evL P.cap L) w.ext := by
  have hnk : ∀ e ∈ w.cache.nodes, e.key ≠ k := fun e he => by
    have := hk (viewE e) (by rw [← q.view]; exact List.mem_map_of_mem he)
    exact this
  set n := w.cache.nextId with hnid
  have hlen : w.cache.nodes.length = L.length := by rw [← q.view, List.length_map]
  -- the table after the eviction
  obtain ⟨C, G, hC, hG, hperm, hsub, hgc⟩ : ∃ C G : List (Elem β),
      C.map viewE = (if (L.length : Int) < P.cap then L else L.dropLast) ∧
      G.map viewE = evL P.cap L ∧ (G ++ C).Perm w.cache.nodes ∧ C.Sublist w.cache.nodes ∧
      (C.length : Int) < P.cap ∧
      gcScan (w.cache.units + 1 - w.cache.maxUnits)
        ((⟨n, k, n, v, 1, 1, w.now E, !w.cache.lru⟩ : Elem β) :: w.cache.nodes).reverse =
        (((⟨n, k, n, v, 1, 1, w.now E, !w.cache.lru⟩ : Elem β) :: C).reverse, G) := by
    by_cases hroom : (L.length : Int) < P.cap
    · refine ⟨w.cache.nodes, [], by rw [if_pos hroom, q.view], by simp [evL, hroom], by simp, List.Sublist.refl _,
        by omega, ?_⟩
      rw [gcScan_stop]
      rw [q.units, q.cap]; omega
    · have hfull : (L.length : Int) = P.cap := by have := q.room; omega
      have hne : w.cache.nodes ≠ [] := by
        intro h; rw [h] at hlen; simp at hlen; have := q.pos; omega
      have hsplit := List.dropLast_append_getLast hne
      set last := w.cache.nodes.getLast hne with hlast
      have hle := q.rest.elem last (by rw [hlast]; exact List.getLast_mem hne)
      refine ⟨w.cache.nodes.dropLast, [last], ?_, ?_, ?_, List.dropLast_sublist _, ?_, ?_⟩
      · rw [if_neg hroom, ← q.view, List.map_dropLast]
      · simp only [evL, hroom, if_false]
        rw [← q.view, List.getLast?_map, List.getLast?_eq_some_getLast hne]
        simp [hlast]
      · conv => rhs; rw [← hsplit]
        exact List.perm_append_comm
      · rw [List.length_dropLast]
        have := List.length_pos_of_ne_nil hne
        omega
      · conv => lhs; rw [List.reverse_cons, ← hsplit, List.reverse_append]
        simp only [List.reverse_cons, List.reverse_nil, List.nil_append, List.cons_append]
        rw [gcScan_snoc last _ (by rw [q.units, q.cap]; omega) hle.2.1 hle.1 hle.2.2.1]
  have hCr : Rest n C := q.rest.sublist hsub
  have hGu : sumUnits G = G.length := ((q.rest.perm hperm).sublist (List.sublist_append_left _ _)).sumUnits
  have hdist : Distinct ((⟨n, k, n, v, 1, 1, w.now E, !w.cache.lru⟩ : Elem β) :: w.cache.nodes) := by
    refine ⟨?_, ?_⟩
    · simp only [List.map_cons, List.nodup_cons, List.mem_map, not_exists, not_and]
      refine ⟨fun e he h => ?_, q.rest.distinct.ids⟩
      have := (q.rest.elem e he).2.2.2.1; omega
    · simp only [List.map_cons, List.nodup_cons, List.mem_map, not_exists, not_and]
      exact ⟨fun e he h => hnk e he h, q.rest.distinct.keys⟩
  -- a quiet world in which the new entry is unpinned
  let e0 : Elem β := ⟨n, k, n, v, 0, 1, w.now E, true⟩
  let w0 : World σ β := { w with
    tick := w.tick + 1
    ext := outOf g (evL P.cap L) w.ext
    cache := { w.cache with nodes := e0 :: C, units := C.length + 1, nextId := n + 1 } }
  have q0 : Quiet P (⟨k, v, w.now E⟩ :: (if (L.length : Int) < P.cap then L else L.dropLast)) w0.cache := by
    have hnew : ∀ e ∈ C, e.key ≠ k ∧ e.id < n ∧ e.ptr < n := fun e he =>
      ⟨hnk e (hsub.subset he), (hCr.elem e he).2.2.2⟩
    refine ⟨⟨⟨?_, ?_⟩, ?_, ?_⟩, ?_, q.defer, ?_, q.pinned, ?_, q.pos, q.cap, q.limit, q.lru⟩
    · simp only [w0, e0, List.map_cons, List.nodup_cons, List.mem_map, not_exists, not_and]
      exact ⟨fun e he h => by have := (hnew e he).2.1; omega, hCr.distinct.ids⟩
    · simp only [w0, e0, List.map_cons, List.nodup_cons, List.mem_map, not_exists, not_and]
      exact ⟨fun e he h => (hnew e he).1 h, hCr.distinct.keys⟩
    · simp only [w0, e0, List.map_cons, List.nodup_cons, List.mem_map, not_exists, not_and]
      exact ⟨fun e he h => by have := (hnew e he).2.2; omega, hCr.ptrs⟩
    · intro e he
      simp only [w0, List.mem_cons] at he
      rcases he with rfl | he
      · simp [e0, w0]
      · exact (hCr.mono (Nat.le_succ n)).elem e he
    · simp only [w0, List.map_cons, hC]
      simp [viewE, e0]
    · simp [w0]
    · have := hgc.1
      simp only [w0, List.length_cons]; omega
  -- the call
  have hrel : ∀ t, release E (valDel g) true k n { pinnedWorld w0 [] { e0 with val := v } C with tick := t } =
      .ok (releasedWorld E { w0 with tick := t } [] { e0 with val := v } C) :=
    fun t => release_pinned E g w0 q0 [] C e0 v t rfl
  have hins : insertPinned E (valDel g) k n v 1 w = .ok (pinnedWorld w0 [] { e0 with val := v } C) := by
    unfold insertPinned
    rw [remove_pure_none E _ k w (findKey_none.mpr hnk)]
    simp only [bind, Except.bind]
    rw [garbageCollect_pure E _ _ (by exact hdist)]
    rw [show (addPinned E k n v 1 w).cache.units - (addPinned E k n v 1 w).cache.maxUnits =
      w.cache.units + 1 - w.cache.maxUnits from rfl,
      show (addPinned E k n v 1 w).cache.nodes =
        (⟨n, k, n, v, 1, 1, w.now E, !w.cache.lru⟩ : Elem β) :: w.cache.nodes from rfl, hgc.2]
    simp only [List.reverse_reverse, gcWorld]
    have h1 : G.foldl (fun s e => g e.val s) w.ext = outOf g (evL P.cap L) w.ext := by rw [outOf_view, hG]
    have h2 : w.cache.units + ((1 : Nat) : Int) - sumUnits G = (C.length : Int) + 1 := by
      have hl := hperm.length_eq
      simp only [List.length_append] at hl
      rw [hGu, q.units]; omega
    have h3 : w.cache.pinnedUnits + ((1 : Nat) : Int) = 1 := by rw [q.pinned]; rfl
    simp only [addPinned, h1, h2, h3]
    rfl
  unfold insert
  rw [hins]
  refine ⟨releasedWorld E w0 [] { e0 with val := v } C, hrel (w.tick + 1), ?_, ?_, rfl⟩
  · have := released_quiet E w0 q0 [] C e0 v (w.tick + 1) rfl
    have hput : putL P.lru e0.key v (E.clk (w.tick + 1))
        (⟨k, v, w.now E⟩ :: (if (L.length : Int) < P.cap then L else L.dropLast)) =
        insL P.cap k v (E.clk (w.tick + if P.lru then 1 else 0)) L := by
      have hsubk : ∀ x ∈ (if (L.length : Int) < P.cap then L else L.dropLast), x.key ≠ k := by
        intro x hx
        refine hk x ?_
        split at hx
        · exact hx
        · exact (List.dropLast_sublist _).subset hx
      cases hl : P.lru with
      | true =>
        simp only [putL, insL, if_true, e0, List.filter_cons, beq_self_eq_true, Bool.not_true, Bool.false_eq_true,
          if_false]
        congr 1
        rw [List.filter_eq_self]
        intro x hx; simp [hsubk x hx]
      | false =>
        simp only [putL, insL, Bool.false_eq_true, if_false, e0, List.map_cons, beq_self_eq_true, if_true,
          Nat.add_zero]
        congr 1
        conv => rhs; rw [← List.map_id (if (L.length : Int) < P.cap then L else L.dropLast)]
        apply List.map_congr_left
        intro x hx; simp [hsubk x hx]
    rw [hput] at this
    exact this
  · simp only [releasedWorld, w0, q.lru]
    split <;> rfl

/-! ### Order -/

/-- Sorted, and nothing is from the future. -/
def SortedT (E : Env) (t : Nat) (L : List (Ent β)) : Prop := Sorted L ∧ ∀ x ∈ L, x.used ≤ E.clk t

theorem Mono.pos {clk : Nat → Int} (hm : Mono clk) (i : Nat) : 0 ≤ clk i :=
  Int.le_trans hm.nonneg (hm.le (Nat.zero_le i))

theorem SortedT.nil (E : Env) (t : Nat) : SortedT E t ([] : List (Ent β)) := by
  simp [SortedT, Sorted]

theorem SortedT.later {E : Env} (hm : Mono E.clk) {t t' : Nat} (h : t ≤ t') {L : List (Ent β)}
    (hs : SortedT E t L) : SortedT E t' L :=
  ⟨hs.1, fun x hx => Int.le_trans (hs.2 x hx) (hm.le h)⟩

theorem SortedT.sublist {E : Env} {t : Nat} {L L' : List (Ent β)} (hs : SortedT E t L)
    (h : L'.Sublist L) : SortedT E t L' :=
  ⟨⟨hs.1.1.sublist h, fun x hx => hs.1.2 x (h.subset hx)⟩, fun x hx => hs.2 x (h.subset hx)⟩

theorem SortedT.cons {E : Env} (hm : Mono E.clk) {t t' : Nat} {L : List (Ent β)} (hs : SortedT E t L)
    (h : t ≤ t') (k : Bytes) (v : β) : SortedT E t' (⟨k, v, E.clk t'⟩ :: L) := by
  have hs' := hs.later hm h
  refine ⟨⟨List.pairwise_cons.mpr ⟨fun x hx => hs'.2 x hx, hs'.1.1⟩, ?_⟩, ?_⟩
  · intro x hx
    rcases List.mem_cons.mp hx with rfl | hx
    · exact hm.pos t'
    · exact hs'.1.2 x hx
  · intro x hx
    rcases List.mem_cons.mp hx with rfl | hx
    · exact Int.le_refl _
    · exact hs'.2 x hx

theorem SortedT.put {E : Env} (hm : Mono E.clk) {t t' : Nat} {L : List (Ent β)} (hs : SortedT E t L)
    (h : t ≤ t') (lru : Bool) (k : Bytes) (v : β) : SortedT E t' (putL lru k v (E.clk t') L) := by
  unfold putL
  cases lru with
  | true => exact (hs.sublist List.filter_sublist).cons hm h k v
  | false =>
    have hs' := hs.later hm h
    have hu : ∀ x : Ent β, (if x.key == k then { x with val := v } else x).used = x.used := by
      intro x; split <;> rfl
    refine ⟨⟨?_, ?_⟩, ?_⟩
    · simp only [Bool.false_eq_true, if_false, List.pairwise_map, hu]
      exact hs'.1.1
    · intro x hx
      simp only [Bool.false_eq_true, if_false, List.mem_map] at hx
      obtain ⟨y, hy, rfl⟩ := hx
      rw [hu]; exact hs'.1.2 y hy
    · intro x hx
      simp only [Bool.false_eq_true, if_false, List.mem_map] at hx
      obtain ⟨y, hy, rfl⟩ := hx
      rw [hu]; exact hs'.2 y hy

theorem SortedT.ins {E : Env} (hm : Mono E.clk) {t t' : Nat} {L : List (Ent β)} (hs : SortedT E t L)
    (h : t ≤ t') (cap : Int) (k : Bytes) (v : β) : SortedT E t' (insL cap k v (E.clk t') L) := by
  unfold insL
  refine SortedT.cons hm (L := if (L.length : Int) < cap then L else L.dropLast) ?_ h k v
  split
  · exact hs
  · exact hs.sublist (List.dropLast_sublist _)

/-- With a sorted list the expired entries are exactly the old ones. -/
theorem mem_keep {P : Params} (now : Int) {L : List (Ent β)} (hs : Sorted L) (hl : 0 ≤ P.limit) :
    ∀ x ∈ keepOf P now L, now - P.limit ≤ x.used := by
  intro x hx
  unfold keepOf at hx
  rw [if_pos hl] at hx
  have hp : (L.reverse.dropWhile (fun x => decide (x.used < now - P.limit))).Pairwise
      (fun a b => a.used ≤ b.used) :=
    (List.pairwise_reverse.mpr hs.1).sublist (List.dropWhile_sublist _)
  have hx' : x ∈ L.reverse.dropWhile (fun x => decide (x.used < now - P.limit)) := by simpa using hx
  cases hd : L.reverse.dropWhile (fun x => decide (x.used < now - P.limit)) with
  | nil => rw [hd] at hx'; cases hx'
  | cons y ys =>
    have hy : now - P.limit ≤ y.used := by
      have := List.head_dropWhile_not (fun x : Ent β => decide (x.used < now - P.limit)) (l := L.reverse) (by rw [hd]; simp)
      simp only [hd, List.head_cons, decide_eq_false_iff_not] at this
      omega
    rw [hd] at hx' hp
    rw [List.pairwise_cons] at hp
    rcases List.mem_cons.mp hx' with rfl | h
    · exact hy
    · exact Int.le_trans hy (hp.1 x h)

theorem mem_gone {P : Params} (now : Int) {L : List (Ent β)} :
    ∀ x ∈ goneOf P now L, 0 ≤ P.limit ∧ x.used < now - P.limit := by
  intro x hx
  unfold goneOf at hx
  split at hx
  · rename_i hl
    have := List.all_takeWhile (p := fun x : Ent β => decide (x.used < now - P.limit)) (l := L.reverse)
    rw [List.all_eq_true] at this
    exact ⟨hl, by simpa using this x hx⟩
  · cases hx

theorem mem_putL {lru : Bool} {k : Bytes} {v : β} {now : Int} {L : List (Ent β)} {x : Ent β}
    (h : x ∈ putL lru k v now L) : (x.key = k ∧ x.val = v ∧ (lru = true → x.used = now)) ∨ (x ∈ L ∧ x.key ≠ k) := by
  unfold putL at h
  cases lru with
  | true =>
    simp only [if_true, List.mem_cons, List.mem_filter, Bool.not_eq_true', beq_eq_false_iff_ne, ne_eq] at h
    rcases h with rfl | h
    · exact Or.inl ⟨rfl, rfl, fun _ => rfl⟩
    · exact Or.inr h
  | false =>
    simp only [Bool.false_eq_true, if_false, List.mem_map] at h
    obtain ⟨y, hy, rfl⟩ := h
    by_cases hk : y.key = k
    · simp [hk]
    · simp [hk, hy]

/-- The list after an insertion, with the evicted entry, is the list before and the new entry. -/
theorem ins_perm {cap : Int} (k : Bytes) (v : β) (now : Int) (L : List (Ent β)) :
    ∃ K, insL cap k v now L = ⟨k, v, now⟩ :: K ∧ (evL cap L ++ K).Perm L ∧ K.Sublist L := by
  refine ⟨_, rfl, ?_, ?_⟩
  · unfold evL
    split
    · simp
    · cases hL : L.getLast? with
      | none => rw [List.getLast?_eq_none_iff] at hL; simp [hL]
      | some y =>
        have hne : L ≠ [] := by intro h; rw [h] at hL; cases hL
        rw [List.getLast?_eq_some_getLast hne] at hL
        cases hL
        conv => rhs; rw [← List.dropLast_append_getLast hne]
        exact List.perm_append_comm
  · split
    · exact List.Sublist.refl _
    · exact List.dropLast_sublist _

end Verif.Lru
