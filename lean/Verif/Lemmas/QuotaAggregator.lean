import Verif.Lemmas.LruAge
import Verif.Model.QuotaAggregator
/-
The quota aggregator on lists of entries.
-/
set_option linter.unusedSectionVars false

namespace Verif.Quota
open Lru

variable {D : Type}

abbrev QElem (D : Type) := Lru.Elem (Elem D)
abbrev QReq (D : Type) := AllocateQuotaRequest D
abbrev QWorld (D : Type) := World (Slot (QReq D)) (Elem D)

/-- Nodes, next address, next clock reading, requests triggered (with the signature of their entry). -/
structure S (D : Type) where
  N : List (QElem D)
  nid : Nat
  t : Nat
  out : List (Bytes × QReq D)

def S.world (w : QWorld D) (s : S D) : QWorld D := w.upd s.N s.nid s.t (w.ext.map (· ++ s.out.map (·.2)))

def sOf (w : QWorld D) : S D := ⟨w.cache.nodes, w.cache.nextId, w.tick, []⟩

theorem sOf_world (w : QWorld D) (h : AgeN w) : (sOf w).world w = w := by
  have : (w.ext.map (· ++ ([] : List (Bytes × QReq D)).map (·.2))) = w.ext := by
    cases w.ext <;> simp
  unfold S.world sOf
  rw [this]
  exact World.upd_self w h

/-- An entry put back. -/
def renew (E : Env) (x : QElem D) (nid t : Nat) : QElem D :=
  ⟨nid, x.key, x.ptr, x.val, 0, 1, E.clk t, true⟩

/-- The request sent for an entry put back. -/
def sendE (E : Env) (cfg : AggConfig) (y : QElem D) (t : Nat) : QElem D × Nat × List (Bytes × QReq D) :=
  if y.val.inFlight = false ∧ y.val.agg.isSome = true then
    let r := { y.val with inFlight := true, lastRefresh := E.clk t }.returnRequest cfg
    ({ y with val := r.2 }, t + 1, [(y.key, r.1)])
  else (y, t, [])

/-- `OnCacheEntryDelete` when there is room. -/
def requeue (E : Env) (cfg : AggConfig) (inAll : Bool) (x : QElem D) (s : S D) : S D :=
  if inAll then s
  else if shouldDrop E cfg x.val s.t then { s with t := s.t + 1 }
  else
    let r := sendE E cfg (renew E x s.nid (s.t + 1)) (s.t + 2)
    ⟨r.1 :: s.N, s.nid + 1, r.2.1, s.out ++ r.2.2⟩

structure Good (w : QWorld D) : Prop extends AgeN w where
  sig : ∀ e ∈ w.cache.nodes, e.val.sig = e.key

theorem deref_mid {σ β : Type} (w : World σ β) (A B : List (Lru.Elem β)) (e : Lru.Elem β)
    (hn : w.cache.nodes = A ++ e :: B) (hA : ∀ a ∈ A, a.ptr ≠ e.ptr) : deref e.ptr w = .ok e.val := by
  have h1 : A.find? (fun x => x.ptr == e.ptr) = none := by
    rw [List.find?_eq_none]; intro x hx; simpa using hA x hx
  have h2 : (w.cache.nodes ++ w.cache.defer).find? (fun x => x.ptr == e.ptr) = some e := by
    rw [hn, List.append_assoc, List.find?_append, h1]
    simp
  unfold deref
  rw [h2]

theorem deref_none {σ β : Type} (w : World σ β) (p : Nat) (hd : w.cache.defer = [])
    (hA : ∀ a ∈ w.cache.nodes, a.ptr ≠ p) : deref p w = .error .useAfterFree := by
  have h2 : (w.cache.nodes ++ w.cache.defer).find? (fun x => x.ptr == p) = none := by
    rw [hd, List.append_nil, List.find?_eq_none]; intro x hx; simpa using hA x hx
  unfold deref
  rw [h2]

theorem setVal_mid {σ β : Type} (w : World σ β) (A B : List (Lru.Elem β)) (e : Lru.Elem β) (v : β)
    (hn : w.cache.nodes = A ++ e :: B) (hd : w.cache.defer = []) (hA : ∀ a ∈ A, a.ptr ≠ e.ptr)
    (hB : ∀ a ∈ B, a.ptr ≠ e.ptr) :
    setVal e.ptr v w = { w with cache := { w.cache with nodes := A ++ { e with val := v } :: B } } := by
  have hid : ∀ l : List (Lru.Elem β), (∀ a ∈ l, a.ptr ≠ e.ptr) →
      l.map (fun x => if x.ptr == e.ptr then { x with val := v } else x) = l := by
    intro l hl
    conv => rhs; rw [← List.map_id l]
    apply List.map_congr_left
    intro a ha
    simp [hl a ha]
  unfold setVal
  simp only [hn, hd, List.map_append, List.map_cons, hid A hA, hid B hB, List.map_nil, beq_self_eq_true, if_true]

/-- What `OnCacheEntryDelete` does after the insertion. -/
theorem afterInsert (E : Env) (cfg : AggConfig) (w : QWorld D) (A B : List (QElem D)) (y : QElem D)
    (hn : w.cache.nodes = A ++ y :: B) (hd : w.cache.defer = []) (hA : ∀ a ∈ A, a.ptr ≠ y.ptr)
    (hB : ∀ a ∈ B, a.ptr ≠ y.ptr) (hu : w.cache.units = w.cache.nodes.length) :
    (do let v ← deref y.ptr w
        if v.inFlight = false ∧ v.agg.isSome = true then
          let (request, v') := { v with inFlight := true, lastRefresh := E.clk w.tick }.returnRequest cfg
          .ok { setVal y.ptr v' w.ticked with ext := addRemovedItem noMerge request w.ext }
        else .ok w : Res (QWorld D)) =
    .ok (S.world w ⟨A ++ (sendE E cfg y w.tick).1 :: B, w.cache.nextId, (sendE E cfg y w.tick).2.1,
      (sendE E cfg y w.tick).2.2⟩) := by
  rw [deref_mid w A B y hn hA]
  simp only [bind, Except.bind, sendE]
  split
  · simp only
    rw [setVal_mid w.ticked A B y _ hn hd hA hB]
    simp only [S.world, World.upd, World.ticked]
    congr 2
    · congr 1
      rw [hu, hn]; simp
    · cases w.ext with
      | none => rfl
      | some l =>
        simp only [addRemovedItem, Option.map_some, bufferAdd, noMerge, List.map_cons, List.map_nil]
        cases l.getLast? <;> rfl
  · simp only [S.world, World.upd, List.map_nil]
    congr 1
    have : Option.map (fun x => x ++ ([] : List (QReq D))) w.ext = w.ext := by cases w.ext <;> simp
    rw [this, ← hn, ← hu]

/-- `OnCacheEntryDelete` when there is room. -/
theorem onDelete_room (E : Env) (cfg : AggConfig) (inAll : Bool) (d : Nat) (x : QElem D) (w : QWorld D) (h : AgeN w)
    (hs : x.val.sig = x.key) (hk : ∀ e ∈ w.cache.nodes, e.key ≠ x.key) (hp : ∀ e ∈ w.cache.nodes, e.ptr ≠ x.ptr)
    (hroom : (w.cache.nodes.length : Int) < w.cache.maxUnits) :
    onDelete E cfg inAll (d + 1) x w = .ok ((requeue E cfg inAll x (sOf w)).world w) := by
  unfold onDelete requeue
  by_cases h1 : inAll = true
  · simp only [h1, if_true]
    rw [sOf_world w h]
  · simp only [h1]
    by_cases h2 : shouldDrop E cfg x.val w.tick = true
    · rw [if_neg (by simp), if_pos h2, if_neg (by simp), if_pos (by exact h2)]
      have := sOf_world w.ticked ⟨h.distinct, h.ptrs, h.elem, h.defer, h.units, h.lru⟩
      conv => lhs; rw [← this]
      rfl
    · rw [if_neg (by simp), if_neg h2, if_neg (by simp), if_neg (by exact h2), hs]
      have ht : AgeN w.ticked := ⟨h.distinct, h.ptrs, h.elem, h.defer, h.units, h.lru⟩
      rw [insert_room E _ x.key x.ptr x.val w.ticked ht hk hroom]
      have := afterInsert E cfg (w.ticked.upd (newElem E x.key x.ptr x.val w.ticked 0 :: w.ticked.cache.nodes)
        (w.ticked.cache.nextId + 1) (w.ticked.tick + 1) w.ticked.ext) [] w.cache.nodes
        (newElem E x.key x.ptr x.val w.ticked 0) rfl h.defer (by simp) hp rfl
      refine Eq.trans ?_ (this.trans ?_)
      · rfl
      · rfl

/-- What an overfull cache does with its unpinned entries `R` (oldest first) from address `nid` and
clock reading `t`: the entries put back (newest first), those untouched, the next address and clock
reading, the requests triggered. -/
def evict (E : Env) (cfg : AggConfig) (inAll : Bool) :
    List (QElem D) → Nat → Nat → Option (List (QElem D) × List (QElem D) × Nat × Nat × List (Bytes × QReq D))
  | [], _, _ => none
  | x :: R, nid, t =>
    if inAll then some ([], R, nid, t, [])
    else if shouldDrop E cfg x.val t then some ([], R, nid, t + 1, [])
    else match evict E cfg inAll R (nid + 1) (t + 2) with
      | none => none
      | some (F, R', nid', t', o) =>
        let r := sendE E cfg (renew E x nid (t + 1)) t'
        some (F ++ [r.1], R', nid', r.2.1, o ++ r.2.2)

theorem evict_length (E : Env) (cfg : AggConfig) (inAll : Bool) (R : List (QElem D)) :
    ∀ nid t F R' nid' t' o, evict E cfg inAll R nid t = some (F, R', nid', t', o) →
      F.length + R'.length + 1 = R.length := by
  induction R with
  | nil => intro nid t F R' nid' t' o h; simp [evict] at h
  | cons x R ih =>
    intro nid t F R' nid' t' o h
    unfold evict at h
    split at h
    · simp only [Option.some.injEq, Prod.mk.injEq] at h; obtain ⟨rfl, rfl, _⟩ := h; simp
    · split at h
      · simp only [Option.some.injEq, Prod.mk.injEq] at h; obtain ⟨rfl, rfl, _⟩ := h; simp
      · split at h
        · cases h
        · rename_i he
          simp only [Option.some.injEq, Prod.mk.injEq] at h; obtain ⟨rfl, rfl, _⟩ := h
          have := ih _ _ _ _ _ _ _ he
          simp; omega

/-- The situation in which `OnCacheEntryDelete` is called on `x` by an insertion into a full cache: `A` are
the entries being inserted, `R` the others, oldest first. -/
structure Squeeze (w : QWorld D) (A R : List (QElem D)) (x : QElem D) : Prop extends AgeN w where
  nodes : w.cache.nodes = A ++ R.reverse
  pinned : ∀ a ∈ A, a.pin ≠ 0
  rest : ∀ a ∈ R, a.pin = 0 ∧ a.val.sig = a.key
  full : (w.cache.nodes.length : Int) = w.cache.maxUnits
  xsig : x.val.sig = x.key
  xkey : ∀ e ∈ w.cache.nodes, e.key ≠ x.key
  xptr : ∀ e ∈ w.cache.nodes, e.ptr ≠ x.ptr
  xlt : x.ptr < w.cache.nextId

theorem Squeeze.ticked {w : QWorld D} {A R : List (QElem D)} {x : QElem D} (q : Squeeze w A R x) : AgeN w.ticked :=
  ⟨q.distinct, q.ptrs, q.elem, q.defer, q.units, q.lru⟩

/-- The world in which the new entry is in and the oldest one is out. -/
def squeezed (E : Env) (k : Bytes) (p : Nat) (v : Elem D) (w : QWorld D) (N : List (QElem D)) : QWorld D :=
  { withNew E k p v w with cache := { (withNew E k p v w).cache with
      nodes := newElem E k p v w 1 :: N, units := (withNew E k p v w).cache.units - 1 } }

theorem AgeN.sublist {σ β : Type} {w w' : World σ β} (h : AgeN w) (N : List (Lru.Elem β)) (hs : N.Sublist w.cache.nodes)
    (hn : w'.cache.nodes = N) (hid : w.cache.nextId ≤ w'.cache.nextId) (hd : w'.cache.defer = []) (hu : w'.cache.units = N.length)
    (hl : w'.cache.lru = false) : AgeN w' := by
  refine ⟨?_, ?_, ?_, hd, by rw [hu, hn], hl⟩
  · rw [hn]
    exact ⟨h.distinct.ids.sublist (hs.map _), h.distinct.keys.sublist (hs.map _)⟩
  · rw [hn]; exact h.ptrs.sublist (hs.map _)
  · rw [hn]
    intro e he
    obtain ⟨h1, h2, h3, h4⟩ := h.elem e (hs.subset he)
    exact ⟨h1, h2, by omega, by omega⟩

/-- A new entry in front. -/
theorem AgeN.cons {σ β : Type} {w w' : World σ β} (h : AgeN w) (e : Lru.Elem β) (hn : w'.cache.nodes = e :: w.cache.nodes)
    (hid : e.id = w.cache.nextId) (hnid : w'.cache.nextId = w.cache.nextId + 1) (hk : ∀ a ∈ w.cache.nodes, a.key ≠ e.key)
    (hp : ∀ a ∈ w.cache.nodes, a.ptr ≠ e.ptr) (hpl : e.ptr ≤ w.cache.nextId) (he : e.linked = true ∧ e.units = 1)
    (hd : w'.cache.defer = []) (hu : w'.cache.units = w.cache.nodes.length + 1) (hl : w'.cache.lru = false) : AgeN w' := by
  refine ⟨?_, ?_, ?_, hd, by rw [hu, hn]; simp, hl⟩
  · rw [hn]
    refine ⟨?_, ?_⟩
    · simp only [List.map_cons, List.nodup_cons, List.mem_map, not_exists, not_and]
      refine ⟨fun a ha h' => ?_, h.distinct.ids⟩
      have := (h.elem a ha).2.2.1; omega
    · simp only [List.map_cons, List.nodup_cons, List.mem_map, not_exists, not_and]
      exact ⟨fun a ha h' => hk a ha h', h.distinct.keys⟩
  · rw [hn]
    simp only [List.map_cons, List.nodup_cons, List.mem_map, not_exists, not_and]
    exact ⟨fun a ha h' => hp a ha h', h.ptrs⟩
  · rw [hn]
    intro a ha
    rcases List.mem_cons.mp ha with rfl | ha
    · exact ⟨he.1, he.2, by omega, by omega⟩
    · obtain ⟨h1, h2, h3, h4⟩ := h.elem a ha
      exact ⟨h1, h2, by omega, by omega⟩

/-- Insertion into a full cache whose oldest entry is `y`. -/
theorem insert_full (E : Env) (del : Deleter (Slot (QReq D)) (Elem D)) (k : Bytes) (p : Nat) (v : Elem D) (w : QWorld D)
    (h : AgeN w) (N : List (QElem D)) (y : QElem D) (hn : w.cache.nodes = N ++ [y]) (hy : y.pin = 0)
    (hk : ∀ e ∈ w.cache.nodes, e.key ≠ k) (hfull : (w.cache.nodes.length : Int) = w.cache.maxUnits) :
    (∀ err, del y (squeezed E k p v w N) = .error err → insert E del k p v 1 w = .error err) ∧
    ∀ (A B : List (QElem D)) (nid t : Nat) (x : Slot (QReq D)),
      del y (squeezed E k p v w N) = .ok ((squeezed E k p v w N).upd (A ++ newElem E k p v w 1 :: B) nid t x) →
      Distinct (A ++ newElem E k p v w 1 :: B) →
      ((A ++ newElem E k p v w 1 :: B).length : Int) = w.cache.maxUnits →
      insert E del k p v 1 w = .ok (w.upd (A ++ newElem E k p v w 0 :: B) nid t x) := by
  have hu := h.units
  have hmem : y ∈ w.cache.nodes := by simp [hn]
  have hdist : Distinct (newElem E k p v w 1 :: w.cache.nodes) := by
    refine ⟨?_, ?_⟩
    · simp only [List.map_cons, List.nodup_cons, List.mem_map, not_exists, not_and]
      refine ⟨fun e he h' => ?_, h.distinct.ids⟩
      have := (h.elem e he).2.2.1; omega
    · simp only [List.map_cons, List.nodup_cons, List.mem_map, not_exists, not_and]
      exact ⟨fun e he h' => hk e he h', h.distinct.keys⟩
  have ho : (withNew E k p v w).cache.overfull := by simp only [Cache.overfull]; omega
  have hgc := garbageCollect_one E del (withNew E k p v w) (newElem E k p v w 1 :: N) y
    (by simp [hn]) hdist (h.elem y hmem).1 hy ho (squeezed E k p v w N)
    (by simp [squeezed, (h.elem y hmem).2.1])
  constructor
  · intro err he
    exact insert_gc_error E del k p v w h hk err (hgc.1 err he)
  · intro A B nid t x he hd hlen
    have hno : ¬ ((squeezed E k p v w N).upd (A ++ newElem E k p v w 1 :: B) nid t x).cache.overfull := by
      simp only [Cache.overfull, World.upd, squeezed]
      omega
    have := insert_evicted E del k p v w h hk _ (hgc.2 _ he hno) A B rfl hd h.defer h.lru hno
    rw [this]
    simp [World.upd, squeezed]

/-- The next entry to be squeezed out once `x` has been put back. -/
theorem Squeeze.next (E : Env) {w : QWorld D} {A R : List (QElem D)} {x y : QElem D} (q : Squeeze w A (y :: R) x) :
    Squeeze (squeezed E x.key x.ptr x.val w.ticked (A ++ R.reverse)) (newElem E x.key x.ptr x.val w.ticked 1 :: A) R y := by
  have hn : w.cache.nodes = (A ++ R.reverse) ++ [y] := by rw [q.nodes]; simp
  have hlen : w.cache.nodes.length = (A ++ R.reverse).length + 1 := by
    rw [hn, List.length_append]; rfl
  have hu := q.units
  have hfull := q.full
  have hsub : (A ++ R.reverse).Sublist w.cache.nodes := by rw [hn]; exact List.sublist_append_left _ _
  have hmem : y ∈ w.cache.nodes := by rw [hn]; simp
  have hin : ∀ a ∈ A ++ R.reverse, a ∈ w.cache.nodes := fun a ha => hsub.subset ha
  have hdist := q.distinct
  rw [hn] at hdist
  have hptr := q.ptrs
  rw [hn] at hptr
  let w0 : QWorld D := w.upd (A ++ R.reverse) w.cache.nextId w.tick w.ext
  have hw0 : AgeN w0 := AgeN.sublist q.toAgeN _ hsub rfl (Nat.le_refl _) q.defer rfl q.lru
  refine ⟨AgeN.cons hw0 (newElem E x.key x.ptr x.val w.ticked 1) rfl rfl rfl (fun a ha => q.xkey a (hin a ha))
    (fun a ha => q.xptr a (hin a ha)) (Nat.le_of_lt q.xlt) ⟨rfl, rfl⟩ q.defer ?_ q.lru, rfl, ?_, ?_, ?_, ?_, ?_, ?_, ?_⟩
  · show w.cache.units + 1 - 1 = ((A ++ R.reverse).length : Int) + 1
    omega
  · intro a ha
    rcases List.mem_cons.mp ha with rfl | ha
    · simp
    · exact q.pinned a ha
  · intro a ha; exact q.rest a (by simp [ha])
  · show (((newElem E x.key x.ptr x.val w.ticked 1 :: (A ++ R.reverse)).length : Nat) : Int) = w.cache.maxUnits
    rw [List.length_cons]; omega
  · exact (q.rest y (by simp)).2
  · intro e he
    rcases List.mem_cons.mp he with rfl | he
    · exact fun h => q.xkey y hmem h.symm
    · exact (mid_keys hdist.keys).1 e he
  · intro e he
    rcases List.mem_cons.mp he with rfl | he
    · exact fun h => q.xptr y hmem h.symm
    · rw [List.map_append, List.nodup_append] at hptr
      exact hptr.2.2 e.ptr (List.mem_map_of_mem he) y.ptr (by simp)
  · have := (q.elem y hmem).2.2.2
    show y.ptr < w.cache.nextId + 1
    omega

/-- The entries put back have the keys, values' owners and fresh addresses. -/
theorem evict_shape (E : Env) (cfg : AggConfig) (inAll : Bool) (R : List (QElem D)) :
    ∀ nid t F R' nid' t' o, evict E cfg inAll R nid t = some (F, R', nid', t', o) →
      (∃ z, R.map (·.key) = F.reverse.map (·.key) ++ z :: R'.map (·.key)) ∧
      (∃ z, R.map (·.ptr) = F.reverse.map (·.ptr) ++ z :: R'.map (·.ptr)) ∧
      (∃ z, R = (R.take F.length) ++ z :: R') ∧
      (∀ e ∈ F, nid ≤ e.id ∧ e.id < nid' ∧ e.linked = true ∧ e.units = 1 ∧ e.pin = 0) ∧ (F.map (·.id)).Nodup ∧ nid ≤ nid' ∧
      t ≤ t' := by
  induction R with
  | nil => intro nid t F R' nid' t' o h; simp [evict] at h
  | cons x R ih =>
    intro nid t F R' nid' t' o h
    unfold evict at h
    split at h
    · simp only [Option.some.injEq, Prod.mk.injEq] at h; obtain ⟨rfl, rfl, rfl, rfl, _⟩ := h; simp
    · split at h
      · simp only [Option.some.injEq, Prod.mk.injEq] at h; obtain ⟨rfl, rfl, rfl, rfl, _⟩ := h; simp
      · split at h
        · cases h
        · rename_i F1 R1 nid1 t1 o1 he
          simp only [Option.some.injEq, Prod.mk.injEq] at h; obtain ⟨rfl, rfl, rfl, rfl, _⟩ := h
          obtain ⟨⟨z1, hk⟩, ⟨z2, hp⟩, ⟨z3, hr⟩, hF, hd, hle, ht⟩ := ih _ _ _ _ _ _ _ he
          have hs : ∀ y : QElem D, (sendE E cfg y t1).1.key = y.key ∧ (sendE E cfg y t1).1.ptr = y.ptr ∧
              (sendE E cfg y t1).1.id = y.id ∧ (sendE E cfg y t1).1.linked = y.linked ∧
              (sendE E cfg y t1).1.units = y.units ∧ (sendE E cfg y t1).1.pin = y.pin ∧ t1 ≤ (sendE E cfg y t1).2.1 := by
            intro y; unfold sendE; split <;> simp
          obtain ⟨s1, s2, s3, s4, s5, s6, s7⟩ := hs (renew E x nid (t + 1))
          refine ⟨⟨z1, ?_⟩, ⟨z2, ?_⟩, ⟨z3, ?_⟩, ?_, ?_, by omega, by omega⟩
          · simp only [List.map_cons, hk, List.reverse_append, List.reverse_cons, List.reverse_nil, List.nil_append,
              List.cons_append, s1]
            rfl
          · simp only [List.map_cons, hp, List.reverse_append, List.reverse_cons, List.reverse_nil, List.nil_append,
              List.cons_append, s2]
            rfl
          · simp only [List.length_append, List.length_cons, List.length_nil, Nat.zero_add, List.take_succ_cons, List.cons_append]
            rw [← hr]
          · intro e he'
            rcases List.mem_append.mp he' with he' | he'
            · obtain ⟨h1, h2, h3⟩ := hF e he'; exact ⟨by omega, h2, h3⟩
            · simp only [List.mem_singleton] at he'
              subst he'
              rw [s3, s4, s5, s6]
              exact ⟨Nat.le_refl _, Nat.lt_of_succ_le hle, rfl, rfl, rfl⟩
          · rw [List.map_append, List.nodup_append]
            refine ⟨hd, by simp, ?_⟩
            intro a ha b hb
            have hb : b = nid := by
              rw [List.map_cons, List.map_nil, List.mem_singleton] at hb
              exact hb.trans s3
            obtain ⟨e, he', rfl⟩ := List.mem_map.mp ha
            have := (hF e he').1
            omega

/-- The nodes after an eviction are again distinct. -/
theorem Squeeze.after (E : Env) (cfg : AggConfig) (inAll : Bool) {w : QWorld D} {A R : List (QElem D)} {x : QElem D}
    (q : Squeeze w A R x) {F R' : List (QElem D)} {nid' t' : Nat} {o : List (Bytes × QReq D)}
    (he : evict E cfg inAll (x :: R) w.cache.nextId w.tick = some (F, R', nid', t', o)) :
    Distinct (F ++ A ++ R'.reverse) ∧ ((F ++ A ++ R'.reverse).map (·.ptr)).Nodup ∧
      (F ++ A ++ R'.reverse).length = w.cache.nodes.length := by
  obtain ⟨⟨z1, hk⟩, ⟨z2, hp⟩, ⟨z3, hr⟩, hF, hd, hle, ht⟩ := evict_shape E cfg inAll _ _ _ _ _ _ _ _ he
  have hl := evict_length E cfg inAll _ _ _ _ _ _ _ _ he
  have hsubR : R'.Sublist R := by
    cases F with
    | nil => simp only [List.length_nil, List.take_zero, List.nil_append, List.cons.injEq] at hr; rw [hr.2]
    | cons f F =>
      simp only [List.length_cons, List.take_succ_cons, List.cons_append, List.cons.injEq, true_and] at hr
      rw [hr]
      exact (List.sublist_cons_self _ _).trans (List.sublist_append_right _ _)
  have hin : ∀ a ∈ A ++ R'.reverse, a ∈ w.cache.nodes := by
    intro a ha
    rw [q.nodes]
    rcases List.mem_append.mp ha with h | h
    · exact List.mem_append_left _ h
    · exact List.mem_append_right _ (by simpa using hsubR.subset (by simpa using h))
  have base : ∀ (f : QElem D → Bytes) (R0 : List (QElem D)), ((A ++ R0.reverse).map f).Nodup → (∀ e ∈ A ++ R0.reverse, f e ≠ f x) →
      ((A ++ (x :: R0).reverse).map f).Nodup := by
    intro f R0 h1 h2
    rw [List.reverse_cons, ← List.append_assoc, List.map_append, List.nodup_append]
    refine ⟨h1, by simp, ?_⟩
    intro a ha b hb
    obtain ⟨e, he, rfl⟩ := List.mem_map.mp ha
    simp only [List.map_cons, List.map_nil, List.mem_singleton] at hb
    rw [hb]; exact h2 e he
  have perm : ∀ {α : Type} (f : QElem D → α) (z : α), (x :: R).map f = F.reverse.map f ++ z :: R'.map f →
      (w.cache.nodes.map f).Nodup → (∀ e ∈ w.cache.nodes, f e ≠ f x) → ((F ++ A ++ R'.reverse).map f).Nodup := by
    intro α f z hz h1 h2
    have hall : ((x :: R).map f ++ A.map f).Nodup := by
      rw [q.nodes] at h1 h2
      have hp1 : ((A ++ R.reverse).map f).Perm (R.map f ++ A.map f) := by
        rw [List.map_append, List.map_reverse]
        exact List.perm_append_comm.trans ((List.reverse_perm _).append_right _)
      simp only [List.map_cons, List.cons_append, List.nodup_cons]
      refine ⟨?_, hp1.nodup_iff.mp h1⟩
      intro hm
      have := hp1.mem_iff.mpr hm
      obtain ⟨e, he', h⟩ := List.mem_map.mp this
      exact h2 e he' h
    rw [hz] at hall
    have hp2 : ((F ++ A ++ R'.reverse).map f).Perm (F.reverse.map f ++ R'.map f ++ A.map f) := by
      simp only [List.map_append, List.map_reverse]
      rw [List.append_assoc, List.append_assoc]
      exact (List.reverse_perm _).symm.append ((List.perm_append_comm).trans ((List.reverse_perm _).append_right _))
    rw [hp2.nodup_iff]
    refine hall.sublist ?_
    exact ((List.Sublist.refl _).append (List.sublist_cons_self _ _)).append_right _
  refine ⟨⟨?_, perm (·.key) z1 hk q.distinct.keys q.xkey⟩, perm (·.ptr) z2 hp q.ptrs q.xptr, ?_⟩
  · rw [List.append_assoc, List.map_append, List.nodup_append]
    refine ⟨hd, ?_, ?_⟩
    · have hsub : (A ++ R'.reverse).Sublist w.cache.nodes := by
        rw [q.nodes]; exact (List.Sublist.refl _).append (List.reverse_sublist.mpr hsubR)
      exact q.distinct.ids.sublist (hsub.map _)
    · intro a ha b hb
      obtain ⟨e, he', rfl⟩ := List.mem_map.mp ha
      obtain ⟨g, hg, rfl⟩ := List.mem_map.mp hb
      have h1 := (hF e he').1
      have h2 := (q.elem g (hin g hg)).2.2.1
      omega
  · rw [q.nodes]
    simp only [List.length_append, List.length_reverse, List.length_cons] at hl ⊢
    omega

theorem world_trans (w : QWorld D) (a b : S D) (N : List (QElem D)) (nid t : Nat) :
    S.world (w.upd N nid t (w.ext.map (· ++ a.out.map (·.2)))) b =
      S.world w ⟨b.N, b.nid, b.t, a.out ++ b.out⟩ := by
  unfold S.world World.upd
  simp only
  congr 1
  cases w.ext <;> simp

/-- Insertion into a full cache puts back and sends what `evict` says. -/
theorem onDelete_evict (E : Env) (cfg : AggConfig) (inAll : Bool) (d : Nat) :
    ∀ (w : QWorld D) (A R : List (QElem D)) (x : QElem D), Squeeze w A R x →
    ∀ (F R' : List (QElem D)) (nid' t' : Nat) (o : List (Bytes × QReq D)),
      evict E cfg inAll (x :: R) w.cache.nextId w.tick = some (F, R', nid', t', o) →
      (F.length < d → onDelete E cfg inAll d x w = .ok (S.world w ⟨F ++ A ++ R'.reverse, nid', t', o⟩)) ∧
      (d ≤ F.length → onDelete E cfg inAll d x w = .error .outOfFuel) := by
  induction d with
  | zero => intro w A R x q F R' nid' t' o he; exact ⟨fun h => absurd h (by omega), fun _ => rfl⟩
  | succ d ih =>
    intro w A R x q F R' nid' t' o he
    have hafter := q.after E cfg inAll he
    unfold evict at he
    unfold onDelete
    by_cases h1 : inAll = true
    · rw [if_pos h1] at he
      rw [if_pos h1]
      simp only [Option.some.injEq, Prod.mk.injEq] at he
      obtain ⟨rfl, rfl, rfl, rfl, rfl⟩ := he
      refine ⟨fun _ => ?_, fun h => by simp at h⟩
      rw [List.nil_append, ← q.nodes]
      exact congrArg _ (sOf_world w q.toAgeN).symm
    · rw [if_neg h1] at he
      rw [if_neg h1]
      by_cases h2 : shouldDrop E cfg x.val w.tick = true
      · rw [if_pos h2] at he
        rw [if_pos h2]
        simp only [Option.some.injEq, Prod.mk.injEq] at he
        obtain ⟨rfl, rfl, rfl, rfl, rfl⟩ := he
        refine ⟨fun _ => ?_, fun h => by simp at h⟩
        rw [List.nil_append, ← q.nodes]
        exact congrArg _ (sOf_world w.ticked q.ticked).symm
      · rw [if_neg h2] at he
        rw [if_neg h2]
        cases R with
        | nil => simp [evict] at he
        | cons y R =>
          cases hev : evict E cfg inAll (y :: R) (w.cache.nextId + 1) (w.tick + 2) with
          | none => rw [hev] at he; cases he
          | some res =>
            obtain ⟨F1, R1, nid1, t1, o1⟩ := res
            rw [hev] at he
            simp only [Option.some.injEq, Prod.mk.injEq] at he
            obtain ⟨rfl, rfl, rfl, rfl, rfl⟩ := he
            have hn : w.cache.nodes = (A ++ R.reverse) ++ [y] := by rw [q.nodes]; simp
            have hi := ih _ _ _ _ (q.next E) F1 R1 nid1 t1 o1 hev
            have hf := insert_full E (onDelete E cfg inAll d) x.key x.ptr x.val w.ticked q.ticked (A ++ R.reverse) y hn
              (q.rest y (by simp)).1 q.xkey q.full
            have hnext := (q.next E).after E cfg inAll hev
            rw [q.xsig]
            constructor
            · intro hlt
              have hok := hi.1 (by simp only [List.length_append, List.length_cons, List.length_nil] at hlt; omega)
              have hl : F1 ++ (newElem E x.key x.ptr x.val w.ticked 1 :: A) ++ R1.reverse =
                  F1 ++ newElem E x.key x.ptr x.val w.ticked 1 :: (A ++ R1.reverse) := by simp
              rw [hl] at hok hnext
              have hins := hf.2 F1 (A ++ R1.reverse) nid1 t1 _ hok hnext.1 (by
                rw [hnext.2.2]
                exact (q.next E).full)
              rw [hins]
              have hp2 := hnext.2.1
              rw [List.map_append, List.map_cons, List.nodup_append, List.nodup_cons] at hp2
              have := afterInsert E cfg (w.ticked.upd (F1 ++ newElem E x.key x.ptr x.val w.ticked 0 :: (A ++ R1.reverse)) nid1 t1
                (Option.map (· ++ o1.map (·.2)) w.ext)) F1 (A ++ R1.reverse) (newElem E x.key x.ptr x.val w.ticked 0)
                rfl q.defer (fun a ha => hp2.2.2 a.ptr (List.mem_map_of_mem ha) _ (by simp))
                (fun a ha h => hp2.2.1.1 (by rw [← h]; exact List.mem_map_of_mem ha)) rfl
              refine Eq.trans ?_ (this.trans ?_)
              · rfl
              · refine congrArg _ ?_
                refine (world_trans w.ticked ⟨[], 0, 0, o1⟩ _ _ _ _).trans ?_
                simp only [S.world, World.upd, World.ticked]
                simp only [List.append_assoc, List.cons_append, List.nil_append]
                rfl
            · intro hge
              have herr := hi.2 (by simp only [List.length_append, List.length_cons, List.length_nil] at hge; omega)
              have := hf.1 _ herr
              rw [this]
              rfl

/-- With everything pinned, the entry being put back is removed again: the call fails, or destroys
the entry. -/
theorem onDelete_stuck (E : Env) (cfg : AggConfig) (inAll : Bool) (d : Nat) :
    ∀ (w : QWorld D) (A : List (QElem D)) (x : QElem D), Squeeze w A [] x →
      ((∃ err, onDelete E cfg inAll d x w = .error err) ∨
        (∃ w', onDelete E cfg inAll d x w = .ok w' ∧ w'.cache = w.cache ∧ (inAll = true ∨ shouldDrop E cfg x.val w.tick = true))) ∧
      (inAll = false → (∀ t, w.tick ≤ t → shouldDrop E cfg x.val t = false) →
        onDelete E cfg inAll d x w = .error .outOfFuel) := by
  induction d with
  | zero => intro w A x q; exact ⟨.inl ⟨_, rfl⟩, fun _ _ => rfl⟩
  | succ d ih =>
    intro w A x q
    by_cases h1 : inAll = true
    · refine ⟨.inr ⟨w, ?_, rfl, .inl h1⟩, fun h => by rw [h1] at h; cases h⟩
      unfold onDelete; rw [if_pos h1]
    · by_cases h2 : shouldDrop E cfg x.val w.tick = true
      · refine ⟨.inr ⟨w.ticked, ?_, rfl, .inr h2⟩, fun _ h => ?_⟩
        · unfold onDelete; rw [if_neg h1, if_pos h2]
        · rw [h _ (Nat.le_refl _)] at h2; cases h2
      · have hn : w.cache.nodes = A := by rw [q.nodes]; simp
        have hins := insert_all_pinned E (onDelete E cfg inAll d) x.key x.ptr x.val w.ticked q.ticked q.xkey
          (by show ∀ e ∈ w.cache.nodes, _
              rw [hn]; exact q.pinned) q.full
        generalize hy : newElem E x.key x.ptr x.val w.ticked 0 = y at hins
        generalize hw1 : w.ticked.upd w.ticked.cache.nodes (w.ticked.cache.nextId + 1) (w.ticked.tick + 1) w.ticked.ext = w1 at hins
        have hq : Squeeze w1 A [] y := by
          subst hw1 hy
          refine ⟨AgeN.sublist q.toAgeN _ (List.Sublist.refl _) rfl (Nat.le_succ _) q.defer rfl q.lru, q.nodes, q.pinned,
            by simp, q.full, q.xsig, q.xkey, q.xptr, Nat.lt_succ_of_lt q.xlt⟩
        have hv : y.val = x.val := by rw [← hy]
        have ht : w1.tick = w.tick + 2 := by rw [← hw1]; rfl
        obtain ⟨hi1, hi2⟩ := ih w1 A y hq
        constructor
        · left
          unfold onDelete
          rw [if_neg h1, if_neg h2, q.xsig, hins]
          rcases hi1 with ⟨err, he⟩ | ⟨w', he, hc, _⟩
          · rw [he]; exact ⟨err, rfl⟩
          · rw [he]
            refine ⟨.useAfterFree, ?_⟩
            simp only [bind, Except.bind]
            rw [deref_none w' x.ptr (by rw [hc]; exact hq.defer) (by rw [hc, ← hw1]; exact q.xptr)]
        · intro h3 h4
          unfold onDelete
          rw [if_neg h1, if_neg h2, q.xsig, hins, hi2 h3 (fun t hle => by rw [hv]; exact h4 t (by omega))]
          rfl

/-- If no entry may be destroyed, the call fails. -/
theorem onDelete_fails (E : Env) (cfg : AggConfig) (inAll : Bool) (d : Nat) :
    ∀ (w : QWorld D) (A R : List (QElem D)) (x : QElem D), Squeeze w A R x →
      (evict E cfg inAll (x :: R) w.cache.nextId w.tick = none → ∃ err, onDelete E cfg inAll d x w = .error err) ∧
      (inAll = false → (∀ y ∈ x :: R, ∀ t, w.tick ≤ t → shouldDrop E cfg y.val t = false) →
        onDelete E cfg inAll d x w = .error .outOfFuel) := by
  induction d with
  | zero => intro w A R x q; exact ⟨fun _ => ⟨_, rfl⟩, fun _ _ => rfl⟩
  | succ d ih =>
    intro w A R x q
    cases R with
    | nil =>
      obtain ⟨h1, h2⟩ := onDelete_stuck E cfg inAll (d + 1) w A x q
      refine ⟨fun he => ?_, fun h3 h4 => h2 h3 (fun t ht => h4 x (by simp) t ht)⟩
      rcases h1 with h | ⟨w', _, _, h⟩
      · exact h
      · exfalso
        unfold evict at he
        rcases h with h | h
        · rw [if_pos h] at he; cases he
        · split at he
          · cases he
          · cases he
    | cons y R =>
      have hn : w.cache.nodes = (A ++ R.reverse) ++ [y] := by rw [q.nodes]; simp
      have hf := insert_full E (onDelete E cfg inAll d) x.key x.ptr x.val w.ticked q.ticked (A ++ R.reverse) y hn
        (q.rest y (by simp)).1 q.xkey q.full
      obtain ⟨hi1, hi2⟩ := ih _ _ _ _ (q.next E)
      constructor
      · intro he
        rw [evict] at he
        split at he
        · cases he
        · rename_i h1
          split at he
          · cases he
          · rename_i h2
            split at he
            · rename_i hev
              obtain ⟨err, herr⟩ := hi1 hev
              refine ⟨err, ?_⟩
              unfold onDelete
              rw [if_neg h1, if_neg h2, q.xsig, hf.1 err herr]
              rfl
            · cases he
      · intro h1 h2
        have herr := hi2 h1 (fun z hz t ht => h2 z (by simp only [List.mem_cons] at hz ⊢; tauto) t (by
          have : w.tick + 2 ≤ t := ht
          omega))
        unfold onDelete
        rw [if_neg (by simp [h1]), if_neg (by rw [h2 x (by simp) _ (Nat.le_refl _)]; simp), q.xsig, hf.1 _ herr]
        rfl

/-- The situation when a new entry is inserted into a full cache. -/
theorem squeeze_new (E : Env) (k : Bytes) (p : Nat) (v : Elem D) (w : QWorld D) (h : AgeN w) (R : List (QElem D)) (y : QElem D)
    (hn : w.cache.nodes.reverse = y :: R) (hr : ∀ e ∈ w.cache.nodes, e.pin = 0 ∧ e.val.sig = e.key)
    (hk : ∀ e ∈ w.cache.nodes, e.key ≠ k) (hp : ∀ e ∈ w.cache.nodes, e.ptr ≠ p) (hpl : p ≤ w.cache.nextId)
    (hfull : (w.cache.nodes.length : Int) = w.cache.maxUnits) :
    Squeeze (squeezed E k p v w R.reverse) [newElem E k p v w 1] R y := by
  have hn : w.cache.nodes = R.reverse ++ [y] := by
    have := congrArg List.reverse hn; simpa using this
  have hlen : w.cache.nodes.length = R.reverse.length + 1 := by rw [hn, List.length_append]; rfl
  have hu := h.units
  have hsub : R.reverse.Sublist w.cache.nodes := by rw [hn]; exact List.sublist_append_left _ _
  have hmem : y ∈ w.cache.nodes := by rw [hn]; simp
  have hin : ∀ a ∈ R.reverse, a ∈ w.cache.nodes := fun a ha => hsub.subset ha
  have hdist := h.distinct
  rw [hn] at hdist
  have hptr := h.ptrs
  rw [hn] at hptr
  let w0 : QWorld D := w.upd R.reverse w.cache.nextId w.tick w.ext
  have hw0 : AgeN w0 := AgeN.sublist h _ hsub rfl (Nat.le_refl _) h.defer rfl h.lru
  refine ⟨AgeN.cons hw0 (newElem E k p v w 1) rfl rfl rfl (fun a ha => hk a (hin a ha))
    (fun a ha => hp a (hin a ha)) hpl ⟨rfl, rfl⟩ h.defer ?_ h.lru, rfl, ?_, ?_, ?_, ?_, ?_, ?_, ?_⟩
  · show w.cache.units + 1 - 1 = (R.reverse.length : Int) + 1
    omega
  · intro a ha
    simp only [List.mem_singleton] at ha
    subst ha; simp
  · intro a ha; exact hr a (hin a (by simpa using ha))
  · show (((newElem E k p v w 1 :: R.reverse).length : Nat) : Int) = w.cache.maxUnits
    rw [List.length_cons]; omega
  · exact (hr y hmem).2
  · intro e he
    rcases List.mem_cons.mp he with rfl | he
    · exact fun h => hk y hmem h.symm
    · exact (mid_keys hdist.keys).1 e he
  · intro e he
    rcases List.mem_cons.mp he with rfl | he
    · exact fun h => hp y hmem h.symm
    · rw [List.map_append, List.nodup_append] at hptr
      exact hptr.2.2 e.ptr (List.mem_map_of_mem he) y.ptr (by simp)
  · have := (h.elem y hmem).2.2.2
    show y.ptr < w.cache.nextId + 1
    omega

/-- Insertion of a new entry into a full cache. -/
theorem insert_new_full (E : Env) (cfg : AggConfig) (inAll : Bool) (d : Nat) (k : Bytes) (p : Nat) (v : Elem D) (w : QWorld D)
    (h : AgeN w) (hne : w.cache.nodes ≠ []) (hr : ∀ e ∈ w.cache.nodes, e.pin = 0 ∧ e.val.sig = e.key)
    (hk : ∀ e ∈ w.cache.nodes, e.key ≠ k) (hp : ∀ e ∈ w.cache.nodes, e.ptr ≠ p) (hpl : p ≤ w.cache.nextId)
    (hfull : (w.cache.nodes.length : Int) = w.cache.maxUnits) :
    (∀ F R' nid' t' o, evict E cfg inAll w.cache.nodes.reverse (w.cache.nextId + 1) (w.tick + 1) = some (F, R', nid', t', o) →
      (F.length < d → insert E (onDelete E cfg inAll d) k p v 1 w =
        .ok (S.world w ⟨F ++ newElem E k p v w 0 :: R'.reverse, nid', t', o⟩)) ∧
      (d ≤ F.length → insert E (onDelete E cfg inAll d) k p v 1 w = .error .outOfFuel)) ∧
    (evict E cfg inAll w.cache.nodes.reverse (w.cache.nextId + 1) (w.tick + 1) = none →
      ∃ err, insert E (onDelete E cfg inAll d) k p v 1 w = .error err) ∧
    (inAll = false → (∀ y ∈ w.cache.nodes, ∀ t, w.tick ≤ t → shouldDrop E cfg y.val t = false) →
      insert E (onDelete E cfg inAll d) k p v 1 w = .error .outOfFuel) := by
  cases hrev : w.cache.nodes.reverse with
  | nil => simp at hrev; exact absurd hrev hne
  | cons y R =>
    have hn : w.cache.nodes = R.reverse ++ [y] := by
      have := congrArg List.reverse hrev; simpa using this
    have q := squeeze_new E k p v w h R y hrev hr hk hp hpl hfull
    have hf := insert_full E (onDelete E cfg inAll d) k p v w h R.reverse y hn (hr y (by simp [hn])).1 hk hfull
    have hd := onDelete_fails E cfg inAll d _ _ _ _ q
    refine ⟨?_, ?_, ?_⟩
    · intro F R' nid' t' o he
      have hafter := q.after E cfg inAll he
      obtain ⟨h1, h2⟩ := onDelete_evict E cfg inAll d _ _ _ _ q F R' nid' t' o he
      constructor
      · intro hlt
        have hok := h1 hlt
        have hl : F ++ [newElem E k p v w 1] ++ R'.reverse = F ++ newElem E k p v w 1 :: R'.reverse := by simp
        rw [hl] at hok hafter
        exact hf.2 F R'.reverse nid' t' _ hok hafter.1 (by rw [hafter.2.2]; exact q.full)
      · intro hge
        exact hf.1 _ (h2 hge)
    · intro he
      obtain ⟨err, h1⟩ := hd.1 he
      exact ⟨err, hf.1 err h1⟩
    · intro h1 h2
      exact hf.1 _ (hd.2 h1 (fun z hz t ht => h2 z (by
        rw [hn]; simp only [List.mem_cons] at hz; simp; tauto) t (by
          have : w.tick + 1 ≤ t := ht
          omega)))

/-! ### Expiry -/

theorem assertThat_pos (E : Env) (p : Prop) [Decidable p] (h : p) : assertThat E p = .ok () := by
  unfold assertThat
  rw [decide_eq_true h]; simp

/-- A world in age-based mode. -/
structure Base (cap : Int) (w : QWorld D) : Prop where
  defer : w.cache.defer = []
  lru : w.cache.lru = false
  max : w.cache.maxUnits = cap

/-- Nodes at rest. -/
structure SInv (E : Env) (cap : Int) (s : S D) : Prop where
  ids : (s.N.map (·.id)).Nodup
  keys : (s.N.map (·.key)).Nodup
  ptrs : (s.N.map (·.ptr)).Nodup
  elem : ∀ e ∈ s.N, e.linked = true ∧ e.units = 1 ∧ e.id < s.nid ∧ e.ptr < s.nid ∧ e.pin = 0 ∧ e.val.sig = e.key
  len : (s.N.length : Int) ≤ cap
  sorted : s.N.Pairwise (fun a b => b.lastUse ≤ a.lastUse)
  used : ∀ e ∈ s.N, 0 ≤ e.lastUse ∧ e.lastUse ≤ E.clk s.t
  read : ∀ e ∈ s.N, ∃ i, i < s.t ∧ e.lastUse = E.clk i

theorem SInv.ageN {E : Env} {cap : Int} {s : S D} (h : SInv E cap s) {w : QWorld D} (b : Base cap w) : AgeN (s.world w) :=
  ⟨⟨h.ids, h.keys⟩, h.ptrs, fun e he => ⟨(h.elem e he).1, (h.elem e he).2.1, (h.elem e he).2.2.1, (h.elem e he).2.2.2.1⟩,
    b.defer, rfl, b.lru⟩

theorem SInv.later {E : Env} (hm : Mono E.clk) {cap : Int} {s : S D} (h : SInv E cap s) (t : Nat) (ht : s.t ≤ t) (o : List (Bytes × QReq D)) :
    SInv E cap { s with t := t, out := o } :=
  ⟨h.ids, h.keys, h.ptrs, h.elem, h.len, h.sorted, fun e he => ⟨(h.used e he).1, Int.le_trans (h.used e he).2 (hm.le ht)⟩,
    fun e he => (h.read e he).imp fun _ hi => ⟨Nat.lt_of_lt_of_le hi.1 ht, hi.2⟩⟩

theorem SInv.sublist {E : Env} {cap : Int} {s : S D} (h : SInv E cap s) (N : List (QElem D)) (hs : N.Sublist s.N) :
    SInv E cap { s with N := N } :=
  ⟨h.ids.sublist (hs.map _), h.keys.sublist (hs.map _), h.ptrs.sublist (hs.map _), fun e he => h.elem e (hs.subset he),
    by have := hs.length_le; have := h.len; simp only; omega, h.sorted.sublist hs, fun e he => h.used e (hs.subset he),
    fun e he => h.read e (hs.subset he)⟩

/-- A new node in front. -/
theorem SInv.cons {E : Env} (hm : Mono E.clk) {cap : Int} {s : S D} (h : SInv E cap s) (e : QElem D) (t : Nat) (o : List (Bytes × QReq D))
    (hid : e.id = s.nid) (hk : ∀ a ∈ s.N, a.key ≠ e.key) (hp : ∀ a ∈ s.N, a.ptr ≠ e.ptr) (hpl : e.ptr ≤ s.nid)
    (he : e.linked = true ∧ e.units = 1 ∧ e.pin = 0 ∧ e.val.sig = e.key) (hlen : (s.N.length : Int) < cap)
    (hu : ∃ i, s.t ≤ i ∧ i < t ∧ e.lastUse = E.clk i) : SInv E cap ⟨e :: s.N, s.nid + 1, t, o⟩ := by
  obtain ⟨i, hi1, hi2', hi⟩ := hu
  have hi2 := Nat.le_of_lt hi2'
  refine ⟨?_, ?_, ?_, ?_, by simp only [List.length_cons]; omega, ?_, ?_, ?_⟩
  · simp only [List.map_cons, List.nodup_cons, List.mem_map, not_exists, not_and]
    refine ⟨fun a ha h' => ?_, h.ids⟩
    have := (h.elem a ha).2.2.1; omega
  · simp only [List.map_cons, List.nodup_cons, List.mem_map, not_exists, not_and]
    exact ⟨fun a ha h' => hk a ha h', h.keys⟩
  · simp only [List.map_cons, List.nodup_cons, List.mem_map, not_exists, not_and]
    exact ⟨fun a ha h' => hp a ha h', h.ptrs⟩
  · intro a ha
    rcases List.mem_cons.mp ha with rfl | ha
    · exact ⟨he.1, he.2.1, by simp only; omega, by simp only; omega, he.2.2.1, he.2.2.2⟩
    · obtain ⟨h1, h2, h3, h4, h5⟩ := h.elem a ha
      exact ⟨h1, h2, by simp only; omega, by simp only; omega, h5⟩
  · refine List.pairwise_cons.mpr ⟨fun a ha => ?_, h.sorted⟩
    rw [hi]; exact Int.le_trans (h.used a ha).2 (hm.le hi1)
  · intro a ha
    rcases List.mem_cons.mp ha with rfl | ha
    · rw [hi]; exact ⟨hm.pos i, hm.le hi2⟩
    · exact ⟨(h.used a ha).1, Int.le_trans (h.used a ha).2 (hm.le (Nat.le_trans hi1 hi2))⟩
  · intro a ha
    rcases List.mem_cons.mp ha with rfl | ha
    · exact ⟨i, hi2', hi⟩
    · exact (h.read a ha).imp fun _ hj => ⟨by simp only; omega, hj.2⟩

theorem sendE_spec (E : Env) (cfg : AggConfig) (y : QElem D) (t : Nat) :
    (sendE E cfg y t).1.key = y.key ∧ (sendE E cfg y t).1.ptr = y.ptr ∧
      (sendE E cfg y t).1.id = y.id ∧ (sendE E cfg y t).1.linked = y.linked ∧
      (sendE E cfg y t).1.units = y.units ∧ (sendE E cfg y t).1.pin = y.pin ∧ (sendE E cfg y t).1.lastUse = y.lastUse ∧
      (sendE E cfg y t).1.val.sig = y.val.sig ∧ t ≤ (sendE E cfg y t).2.1 := by
  unfold sendE
  split
  · simp only [Elem.returnRequest, true_and]
    split <;> simp
  · simp

/-- What putting back does to the list. -/
theorem requeue_cases (E : Env) (cfg : AggConfig) (inAll : Bool) (x : QElem D) (s : S D) :
    ((requeue E cfg inAll x s).N = s.N ∧ (requeue E cfg inAll x s).nid = s.nid ∧ s.t ≤ (requeue E cfg inAll x s).t) ∨
    (∃ y, (requeue E cfg inAll x s).N = y :: s.N ∧ (requeue E cfg inAll x s).nid = s.nid + 1 ∧ s.t + 2 ≤ (requeue E cfg inAll x s).t ∧
      y.key = x.key ∧ y.ptr = x.ptr ∧ y.id = s.nid ∧ y.linked = true ∧ y.units = 1 ∧ y.pin = 0 ∧ y.lastUse = E.clk (s.t + 1) ∧
      y.val.sig = x.val.sig) := by
  unfold requeue
  split
  · left; simp
  · split
    · left; simp
    · right
      obtain ⟨h1, h2, h3, h4, h5, h6, h7, h8, h9⟩ := sendE_spec E cfg (renew E x s.nid (s.t + 1)) (s.t + 2)
      exact ⟨_, rfl, rfl, h9, h1, h2, h3, h4, h5, h6, h7, h8⟩

theorem requeue_inv {E : Env} (hm : Mono E.clk) (cfg : AggConfig) (inAll : Bool) {cap : Int} (x : QElem D) (s : S D) (h : SInv E cap s)
    (hk : ∀ a ∈ s.N, a.key ≠ x.key) (hp : ∀ a ∈ s.N, a.ptr ≠ x.ptr) (hpl : x.ptr < s.nid) (hs : x.val.sig = x.key)
    (hlen : (s.N.length : Int) < cap) : SInv E cap (requeue E cfg inAll x s) := by
  rcases requeue_cases E cfg inAll x s with ⟨h1, h2, h3⟩ | ⟨y, h1, h2, h3, hy⟩
  · have := h.later hm _ h3 (requeue E cfg inAll x s).out
    generalize requeue E cfg inAll x s = r at *
    cases r; simp only at h1 h2; subst h1 h2; exact this
  · obtain ⟨y1, y2, y3, y4, y5, y6, y7, y8⟩ := hy
    generalize requeue E cfg inAll x s = r at *
    cases r; simp only at h1 h2 h3; subst h1 h2
    refine h.cons hm y _ _ y3 (by rw [y1]; exact hk) (by rw [y2]; exact hp) (by omega) ⟨y4, y5, y6, by rw [y8, y1, hs]⟩ hlen
      ⟨s.t + 1, by omega, by omega, y7⟩

theorem requeue_out (E : Env) (cfg : AggConfig) (inAll : Bool) (x : QElem D) (s : S D) :
    requeue E cfg inAll x s =
      ⟨(requeue E cfg inAll x ⟨s.N, s.nid, s.t, []⟩).N, (requeue E cfg inAll x ⟨s.N, s.nid, s.t, []⟩).nid,
       (requeue E cfg inAll x ⟨s.N, s.nid, s.t, []⟩).t, s.out ++ (requeue E cfg inAll x ⟨s.N, s.nid, s.t, []⟩).out⟩ := by
  unfold requeue
  split
  · simp
  · split
    · simp
    · simp

/-- `OnCacheEntryDelete` when there is room, on lists. -/
theorem onDelete_requeue {E : Env} (cfg : AggConfig) (inAll : Bool) (d : Nat) {cap : Int} (x : QElem D) (s : S D) (w : QWorld D)
    (h : SInv E cap s) (b : Base cap w)
    (hk : ∀ a ∈ s.N, a.key ≠ x.key) (hp : ∀ a ∈ s.N, a.ptr ≠ x.ptr) (hs : x.val.sig = x.key)
    (hlen : (s.N.length : Int) < cap) :
    onDelete E cfg inAll (d + 1) x (s.world w) = .ok ((requeue E cfg inAll x s).world w) := by
  rw [onDelete_room E cfg inAll d x (s.world w) (h.ageN b) hs hk hp (by show _ < w.cache.maxUnits; rw [b.max]; exact hlen)]
  refine congrArg _ ?_
  rw [requeue_out E cfg inAll x s]
  exact world_trans w s _ _ _ _

theorem ringLast_snoc {β : Type} (A : List (Lru.Elem β)) (e : Lru.Elem β) (h : e.linked = true) :
    ringLast (A ++ [e]) = some e.id := by
  simp [ringLast, List.filter_append, h]

theorem remove_last {σ β : Type} (E : Env) (del : Deleter σ β) (w : World σ β)
    (A : List (Lru.Elem β)) (x : Lru.Elem β) (hn : w.cache.nodes = A ++ [x]) (hA : ∀ a ∈ A, a.id ≠ x.id)
    (hk : ∀ a ∈ A, a.key ≠ x.key) (hp : x.pin = 0) (hu : x.units = 1) :
    remove E del x.key w = del x { w with cache := { w.cache with nodes := A, units := w.cache.units - 1 } } := by
  unfold remove
  have hf : findKey x.key w.cache.nodes = some x := by rw [hn]; exact findKey_mid hk
  rw [hf]
  simp only [removeElem, if_neg (show ¬ x.pin > 0 by omega), Lru.discard]
  rw [assertThat_pos E _ hp, hn, dropId_mid hA (by simp), List.append_nil, hu]
  rfl

theorem idleLoop_step {σ β : Type} (E : Env) (del : Deleter σ β) (th : Int) (n : Nat) (last : Int) (w : World σ β)
    (A : List (Lru.Elem β)) (x : Lru.Elem β) (hn : w.cache.nodes = A ++ [x]) (hA : ∀ a ∈ A, a.id ≠ x.id) (hl : x.linked = true)
    (hp : x.pin = 0) (hlt : x.lastUse < th) (hlast : last ≤ x.lastUse + 1) :
    idleLoop E del th (n + 1) (some x.id) last w =
      (remove E del x.key w).bind (fun w' => idleLoop E del th n (ringLast A) x.lastUse w') := by
  have hf : findId x.id w.cache.nodes = some x := by rw [hn]; exact findId_mid hA
  have hr : ringPrev x.id w.cache.nodes = ringLast A := by rw [hn]; exact ringPrev_mid hA
  simp only [idleLoop, hf, hl, if_true]
  rw [if_pos hlt, assertThat_pos E _ hlast, assertThat_pos E _ (Or.inl hp), hr]
  rfl

/-- What `DiscardIdle` does with the entries `R`, oldest first; `s.N` are those already put back. -/
def expire (E : Env) (cfg : AggConfig) (inAll : Bool) (th : Int) : List (QElem D) → S D → S D
  | [], s => s
  | x :: R, s => if x.lastUse < th then expire E cfg inAll th R (requeue E cfg inAll x s) else { s with N := s.N ++ (x :: R).reverse }

theorem idleLoop_expire {E : Env} (hm : Mono E.clk) (cfg : AggConfig) (inAll : Bool) (d : Nat) (cap : Int) (w : QWorld D) (b : Base cap w)
    (th : Int) (R : List (QElem D)) :
    ∀ (n : Nat) (cur : Option Nat) (last : Int) (s : S D),
      SInv E cap ⟨s.N ++ R.reverse, s.nid, s.t, s.out⟩ → R.length + 1 ≤ n → th ≤ E.clk s.t → (∀ e ∈ s.N, th ≤ e.lastUse) →
      (∀ e ∈ R, last ≤ e.lastUse + 1) →
      (cur = ringLast (s.N ++ R.reverse) ∨ (cur = none ∧ R = [])) →
      idleLoop E (onDelete E cfg inAll (d + 1)) th n cur last (S.world w ⟨s.N ++ R.reverse, s.nid, s.t, s.out⟩) =
        .ok ((expire E cfg inAll th R s).world w) ∧ SInv E cap (expire E cfg inAll th R s) := by
  induction R with
  | nil =>
    intro n cur last s h hn hth hN hlast hcur
    simp only [List.reverse_nil, List.append_nil] at h hcur ⊢
    refine ⟨?_, h⟩
    simp only [expire]
    have stop : ∀ i, ringLast s.N = some i → idleLoop E (onDelete E cfg inAll (d + 1)) th n (some i) last
        (S.world w ⟨s.N, s.nid, s.t, s.out⟩) = .ok (s.world w) := by
      intro i hi
      cases n with
      | zero => simp at hn
      | succ n =>
        rcases List.eq_nil_or_concat s.N with h0 | ⟨A, e, h0⟩
        · rw [h0] at hi; simp [ringLast] at hi
        · rw [List.concat_eq_append] at h0
          have hl := (h.elem e (by rw [h0]; simp)).1
          have hid : i = e.id := by
            rw [h0] at hi
            simp [ringLast, List.filter_append, hl] at hi
            exact hi.symm
          subst hid
          have hids := h.ids
          simp only at hids
          rw [h0] at hids
          have hf : findId e.id s.N = some e := by rw [h0]; exact findId_mid (mid_ids hids).1
          have hge := hN e (by rw [h0]; simp)
          simp only [idleLoop, S.world, World.upd, hf, hl, if_true, if_neg (show ¬ e.lastUse < th by omega)]
    rcases hcur with hc | ⟨hc, _⟩
    · rw [hc]
      cases hr : ringLast s.N with
      | none => cases n <;> rfl
      | some i => exact stop i hr
    · rw [hc]; cases n <;> rfl
  | cons x R ih =>
    intro n cur last s h hn hth hN hlast hcur
    have hcur : cur = ringLast (s.N ++ (x :: R).reverse) := by
      rcases hcur with hc | ⟨_, hc⟩
      · exact hc
      · cases hc
    have hnodes : s.N ++ (x :: R).reverse = (s.N ++ R.reverse) ++ [x] := by simp
    rw [hnodes] at h hcur ⊢
    have hx := h.elem x (by simp)
    have hids := (mid_ids h.ids).1
    have hkeys := (mid_keys h.keys).1
    have hptrs : ∀ a ∈ s.N ++ R.reverse, a.ptr ≠ x.ptr := by
      have := h.ptrs
      simp only at this
      rw [List.map_append, List.nodup_append] at this
      intro a ha
      exact this.2.2 a.ptr (List.mem_map_of_mem ha) x.ptr (by simp)
    have hc : cur = some x.id := by rw [hcur]; simp [ringLast, List.filter_append, hx.1]
    rw [hc]
    cases n with
    | zero => simp at hn
    | succ n =>
      unfold expire
      by_cases hlt : x.lastUse < th
      · rw [if_pos hlt, idleLoop_step E _ th n last (S.world w ⟨s.N ++ R.reverse ++ [x], s.nid, s.t, s.out⟩) (s.N ++ R.reverse) x rfl
          hids hx.1 hx.2.2.2.2.1 hlt (hlast x (by simp))]
        have h1 : SInv E cap ⟨s.N ++ R.reverse, s.nid, s.t, s.out⟩ := h.sublist _ (List.sublist_append_left _ _)
        have hlen : ((s.N ++ R.reverse).length : Int) < cap := by
          have := h.len
          simp only at this
          rw [List.length_append (bs := [x])] at this
          simp only [List.length_cons, List.length_nil] at this
          omega
        have hrem : remove E (onDelete E cfg inAll (d + 1)) x.key
            (S.world w ⟨s.N ++ R.reverse ++ [x], s.nid, s.t, s.out⟩) =
            .ok ((requeue E cfg inAll x ⟨s.N ++ R.reverse, s.nid, s.t, s.out⟩).world w) := by
          rw [remove_last E _ (S.world w ⟨s.N ++ R.reverse ++ [x], s.nid, s.t, s.out⟩) (s.N ++ R.reverse) x rfl hids hkeys
            hx.2.2.2.2.1 hx.2.1, ← onDelete_requeue cfg inAll d x _ w h1 b hkeys hptrs hx.2.2.2.2.2 hlen]
          congr 1
          simp only [S.world, World.upd]
          congr 2
          rw [List.length_append (bs := [x])]
          simp
        rw [hrem]
        simp only [Except.bind]
        have hrq : requeue E cfg inAll x ⟨s.N ++ R.reverse, s.nid, s.t, s.out⟩ =
            ⟨(requeue E cfg inAll x s).N ++ R.reverse, (requeue E cfg inAll x s).nid, (requeue E cfg inAll x s).t,
              (requeue E cfg inAll x s).out⟩ := by
          unfold requeue
          split
          · rfl
          · simp only
            split <;> rfl
        have h2 := requeue_inv hm cfg inAll x _ h1 hkeys hptrs hx.2.2.2.1 hx.2.2.2.2.2 hlen
        rw [hrq] at h2
        have := ih n (ringLast (s.N ++ R.reverse)) x.lastUse (requeue E cfg inAll x s) h2
          (by simp only [List.length_cons] at hn; omega)
          (by
            rcases requeue_cases E cfg inAll x s with ⟨_, _, h3⟩ | ⟨y, _, _, h3, _⟩
            · exact Int.le_trans hth (hm.le h3)
            · exact Int.le_trans hth (hm.le (by omega)))
          (by
            rcases requeue_cases E cfg inAll x s with ⟨h3, _⟩ | ⟨y, h3, _, _, _, _, _, _, _, _, hy, _⟩
            · rw [h3]; exact hN
            · rw [h3]
              intro e he
              rcases List.mem_cons.mp he with rfl | he
              · rw [hy]; exact Int.le_trans hth (hm.le (by omega))
              · exact hN e he)
          (by
            intro e he
            have hs := h.sorted
            simp only at hs
            have := (List.pairwise_append.mp hs).2.2 e (by simp [he]) x (by simp)
            omega)
          (by
            rcases requeue_cases E cfg inAll x s with ⟨h3, _⟩ | ⟨y, h3, _, _, _, _, _, hy, _⟩
            · rw [h3]; left; rfl
            · rw [h3]
              by_cases hemp : s.N ++ R.reverse = []
              · right
                have hR : R = [] := by
                  have := List.append_eq_nil_iff.mp hemp
                  simpa using this.2
                rw [hemp]
                exact ⟨rfl, hR⟩
              · left
                rcases List.eq_nil_or_concat (s.N ++ R.reverse) with h0 | ⟨A, e, h0⟩
                · exact absurd h0 hemp
                · rw [List.cons_append, h0, List.concat_eq_append]
                  have hl := (h1.elem e (by simp only; rw [h0]; simp)).1
                  rw [← List.cons_append, ringLast_snoc _ e hl, ringLast_snoc _ e hl])
        rw [← hrq] at this
        exact this
      · rw [if_neg hlt, hnodes]
        refine ⟨?_, h⟩
        have hfid : findId x.id ((s.N ++ R.reverse) ++ [x]) = some x := findId_mid hids
        simp only [idleLoop, S.world, World.upd, hfid, hx.1, if_true, if_neg hlt]

end Verif.Quota
