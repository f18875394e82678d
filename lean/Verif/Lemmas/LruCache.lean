import Verif.Model.LruCache
import Mathlib.Data.List.Induction
/-
Functional descriptions of the cache operations for deleters that do not re-enter the cache.
-/
namespace Verif.Lru

variable {σ β : Type}

/-- A deleter that only updates the external state. -/
def pureDel (f : Elem β → σ → σ) : Deleter σ β := fun e w => .ok { w with ext := f e w.ext }

/-- Sum of the units of a list of elements. -/
def sumUnits (l : List (Elem β)) : Int := (l.map (fun e => (e.units : Int))).sum

@[simp] theorem sumUnits_nil : sumUnits ([] : List (Elem β)) = 0 := rfl
@[simp] theorem sumUnits_cons (e : Elem β) (l : List (Elem β)) :
    sumUnits (e :: l) = e.units + sumUnits l := rfl
theorem sumUnits_append (a b : List (Elem β)) : sumUnits (a ++ b) = sumUnits a + sumUnits b := by
  simp [sumUnits, List.sum_append]
theorem sumUnits_perm {a b : List (Elem β)} (h : a.Perm b) : sumUnits a = sumUnits b := by
  induction h with
  | nil => rfl
  | cons e _ ih => simp [ih]
  | swap a b l => simp; omega
  | trans _ _ h1 h2 => rw [h1, h2]
theorem sumUnits_nonneg (l : List (Elem β)) : 0 ≤ sumUnits l := by
  induction l with
  | nil => simp
  | cons e l ih => simp; omega
theorem sumUnits_reverse (l : List (Elem β)) : sumUnits l.reverse = sumUnits l :=
  sumUnits_perm (List.reverse_perm l)

/-- Distinct addresses and distinct keys. -/
structure Distinct (l : List (Elem β)) : Prop where
  ids : (l.map (·.id)).Nodup
  keys : (l.map (·.key)).Nodup

theorem Distinct.sublist {a b : List (Elem β)} (h : Distinct b) (s : a.Sublist b) : Distinct a :=
  ⟨h.ids.sublist (s.map _), h.keys.sublist (s.map _)⟩

theorem Distinct.perm {a b : List (Elem β)} (h : Distinct b) (s : a.Perm b) : Distinct a :=
  ⟨(s.map _).nodup_iff.mpr h.ids, (s.map _).nodup_iff.mpr h.keys⟩

theorem ringLast_snoc (A : List (Elem β)) (e : Elem β) :
    ringLast (A ++ [e]) = if e.linked then some e.id else ringLast A := by
  unfold ringLast
  cases he : e.linked <;> simp [List.filter_append, he]

section mid
variable {A B : List (Elem β)} {e : Elem β}

theorem mid_ids (h : (((A ++ e :: B).map (·.id))).Nodup) :
    (∀ a ∈ A, a.id ≠ e.id) ∧ (∀ b ∈ B, b.id ≠ e.id) := by
  simp only [List.map_append, List.map_cons, List.nodup_append, List.nodup_cons, List.mem_map,
    List.mem_cons] at h
  grind

theorem mid_keys (h : (((A ++ e :: B).map (·.key))).Nodup) :
    (∀ a ∈ A, a.key ≠ e.key) ∧ (∀ b ∈ B, b.key ≠ e.key) := by
  simp only [List.map_append, List.map_cons, List.nodup_append, List.nodup_cons, List.mem_map,
    List.mem_cons] at h
  grind

theorem findId_mid (h : ∀ a ∈ A, a.id ≠ e.id) : findId e.id (A ++ e :: B) = some e := by
  unfold findId
  rw [List.find?_append, List.find?_eq_none.mpr]
  · simp
  · intro a ha; simpa using h a ha

theorem findKey_mid (h : ∀ a ∈ A, a.key ≠ e.key) : findKey e.key (A ++ e :: B) = some e := by
  unfold findKey
  rw [List.find?_append, List.find?_eq_none.mpr]
  · simp
  · intro a ha; simpa using h a ha

theorem dropId_mid (hA : ∀ a ∈ A, a.id ≠ e.id) (hB : ∀ b ∈ B, b.id ≠ e.id) :
    dropId e.id (A ++ e :: B) = A ++ B := by
  unfold dropId
  rw [List.filter_append, List.filter_cons]
  have h1 : A.filter (fun x => !(x.id == e.id)) = A := by
    rw [List.filter_eq_self]; intro a ha; simpa using hA a ha
  have h2 : B.filter (fun x => !(x.id == e.id)) = B := by
    rw [List.filter_eq_self]; intro a ha; simpa using hB a ha
  simp [h1, h2]

theorem setElem_mid (e' : Elem β) (he : e'.id = e.id) (hA : ∀ a ∈ A, a.id ≠ e.id)
    (hB : ∀ b ∈ B, b.id ≠ e.id) : setElem e' (A ++ e :: B) = A ++ e' :: B := by
  unfold setElem
  rw [List.map_append, List.map_cons]
  have h1 : A.map (fun x => if x.id == e'.id then e' else x) = A := by
    conv_rhs => rw [← List.map_id A]
    apply List.map_congr_left; intro a ha; simp [he, hA a ha]
  have h2 : B.map (fun x => if x.id == e'.id then e' else x) = B := by
    conv_rhs => rw [← List.map_id B]
    apply List.map_congr_left; intro a ha; simp [he, hB a ha]
  rw [h1, h2]; simp [he]

theorem ringPrev_mid (hA : ∀ a ∈ A, a.id ≠ e.id) : ringPrev e.id (A ++ e :: B) = ringLast A := by
  unfold ringPrev
  congr 1
  rw [List.takeWhile_append_of_pos (by intro a ha; simpa using hA a ha)]
  simp

theorem ringNext_mid (hA : ∀ a ∈ A, a.id ≠ e.id) : ringNext e.id (A ++ e :: B) = ringFirst B := by
  unfold ringNext
  congr 1
  rw [List.dropWhile_append_of_pos (by intro a ha; simpa using hA a ha)]
  simp
end mid

/-- An element of a list splits it. -/
theorem findKey_split {k : Bytes} {l : List (Elem β)} {e : Elem β} (h : findKey k l = some e) :
    ∃ A B, l = A ++ e :: B ∧ e.key = k ∧ ∀ a ∈ A, a.key ≠ k := by
  unfold findKey at h
  obtain ⟨hk, A, B, rfl, hA⟩ := List.find?_eq_some_iff_append.mp h
  exact ⟨A, B, rfl, by simpa using hk, fun a ha => by simpa using hA a ha⟩

theorem findKey_none {k : Bytes} {l : List (Elem β)} :
    findKey k l = none ↔ ∀ e ∈ l, e.key ≠ k := by
  unfold findKey
  rw [List.find?_eq_none]; simp

theorem findKey_iff {k : Bytes} {l : List (Elem β)} (hl : (l.map (·.key)).Nodup) {e : Elem β} :
    findKey k l = some e ↔ e ∈ l ∧ e.key = k := by
  constructor
  · intro h
    obtain ⟨A, B, rfl, hk, _⟩ := findKey_split h
    exact ⟨by simp, hk⟩
  · rintro ⟨hm, rfl⟩
    obtain ⟨A, B, rfl⟩ := List.append_of_mem hm
    exact findKey_mid (mid_keys hl).1

/-! ### GarbageCollect -/

/-- What `GarbageCollect` does on the table read from the least recent element: kept and
discarded elements. -/
def gcScan : Int → List (Elem β) → List (Elem β) × List (Elem β)
  | _, [] => ([], [])
  | over, e :: l =>
    if 0 < over then
      if e.linked ∧ e.pin = 0 then
        ((gcScan (over - e.units) l).1, e :: (gcScan (over - e.units) l).2)
      else (e :: (gcScan over l).1, (gcScan over l).2)
    else (e :: l, [])

theorem gcScan_stop {over : Int} (h : ¬ 0 < over) (L : List (Elem β)) : gcScan over L = (L, []) := by
  cases L with
  | nil => rfl
  | cons => simp only [gcScan, h, if_false]

/-- The world after `GarbageCollect`. -/
def gcWorld (f : Elem β → σ → σ) (w : World σ β) (kept gone : List (Elem β)) : World σ β :=
  { w with
    ext := gone.foldl (fun s e => f e s) w.ext,
    cache := { w.cache with nodes := kept, units := w.cache.units - sumUnits gone } }

theorem gcStep_pure (E : Env) (f : Elem β → σ → σ) (e : Elem β) (w : World σ β)
    (A B : List (Elem β)) (hn : w.cache.nodes = A ++ e :: B) (hd : Distinct (A ++ e :: B)) :
    gcStep E (pureDel f) e w = if e.pin = 0 then .ok (gcWorld f w (A ++ B) [e]) else .ok w := by
  obtain ⟨hA, hB⟩ := mid_ids hd.ids
  unfold gcStep
  by_cases hp : e.pin = 0
  · simp only [hp, if_true, hn, findKey_mid (mid_keys hd.keys).1, dropId_mid hA hB]
    simp [discard, assertThat, hp, pureDel, gcWorld, bind, Except.bind]
  · simp [hp]

theorem gcLoop_pure (E : Env) (f : Elem β → σ → σ) (L : List (Elem β)) :
    ∀ (n : Nat) (B : List (Elem β)) (w : World σ β), L.length ≤ n →
      w.cache.nodes = L.reverse ++ B → Distinct (L.reverse ++ B) →
      gcLoop E (pureDel f) n (ringLast L.reverse) w =
        .ok (gcWorld f w ((gcScan (w.cache.units - w.cache.maxUnits) L).1.reverse ++ B)
          (gcScan (w.cache.units - w.cache.maxUnits) L).2) := by
  induction L with
  | nil =>
    intro n B w _ hn _
    simp only [List.reverse_nil, List.nil_append] at hn
    have : ringLast ([] : List (Elem β)) = none := rfl
    rw [List.reverse_nil, this]
    unfold gcLoop gcWorld gcScan
    simp [← hn]
  | cons e L ih =>
    intro n B w hlen hn hd
    simp only [List.reverse_cons, List.append_assoc, List.singleton_append] at hn hd
    rw [List.reverse_cons, ringLast_snoc]
    by_cases hl : e.linked
    · simp only [hl, if_true]
      obtain ⟨n, rfl⟩ : ∃ m, n = m + 1 := ⟨n - 1, by simp at hlen; omega⟩
      have hlen' : L.length ≤ n := by simpa using hlen
      unfold gcLoop
      by_cases ho : w.cache.overfull
      · obtain ⟨hA, hB⟩ := mid_ids hd.ids
        have hpos : 0 < w.cache.units - w.cache.maxUnits := by unfold Cache.overfull at ho; omega
        simp only [ho, if_true]
        rw [hn, findId_mid hA]
        simp only [hl, if_true]
        rw [gcStep_pure E f e w L.reverse B hn hd]
        by_cases hp : e.pin = 0
        · simp only [hp, if_true, bind, Except.bind, ringPrev_mid hA]
          rw [ih n B (gcWorld f w (L.reverse ++ B) [e]) hlen' rfl
            (hd.sublist (by simp))]
          simp only [gcScan, hpos, if_true, hl, hp, and_self]
          simp only [gcWorld, sumUnits_cons, sumUnits_nil, List.foldl_cons, List.foldl_nil]
          have e1 : w.cache.units - (↑e.units + 0) - w.cache.maxUnits =
            w.cache.units - w.cache.maxUnits - ↑e.units := by omega
          simp only [e1]
          congr 2
          congr 1
          omega
        · simp only [hp, if_false, bind, Except.bind, ringPrev_mid hA]
          rw [ih n (e :: B) w hlen' hn hd]
          simp only [gcScan, hpos, if_true, hl, hp, and_false, if_false]
          simp
      · have hpos : ¬ 0 < w.cache.units - w.cache.maxUnits := by unfold Cache.overfull at ho; omega
        simp only [ho, if_false, gcScan, hpos, gcWorld]
        simp [← hn]
    · simp only [hl, Bool.false_eq_true, if_false]
      have hlen' : L.length ≤ n := by simp at hlen; omega
      rw [ih n (e :: B) w hlen' hn hd]
      generalize w.cache.units - w.cache.maxUnits = over
      by_cases hpos : 0 < over
      · rw [gcScan, if_pos hpos, if_neg (by simp [hl])]
        simp
      · rw [gcScan_stop hpos, gcScan_stop hpos]
        simp

theorem garbageCollect_pure (E : Env) (f : Elem β → σ → σ) (w : World σ β)
    (hd : Distinct w.cache.nodes) :
    garbageCollect E (pureDel f) w =
      .ok (gcWorld f w ((gcScan (w.cache.units - w.cache.maxUnits) w.cache.nodes.reverse).1.reverse)
          (gcScan (w.cache.units - w.cache.maxUnits) w.cache.nodes.reverse).2) := by
  unfold garbageCollect
  have := gcLoop_pure E f w.cache.nodes.reverse (w.cache.nodes.length + E.extraFuel) [] w
    (by simp) (by simp) (by simpa using hd)
  simpa using this

theorem gcScan_perm (L : List (Elem β)) : ∀ over : Int,
    ((gcScan over L).1 ++ (gcScan over L).2).Perm L := by
  induction L with
  | nil => intro; simp [gcScan]
  | cons e L ih =>
    intro over
    unfold gcScan
    split
    · split
      · exact List.perm_middle.trans ((ih _).cons e)
      · exact (ih _).cons e
    · simp

theorem gcScan_sublist (L : List (Elem β)) : ∀ over : Int, (gcScan over L).1.Sublist L := by
  induction L with
  | nil => intro; simp [gcScan]
  | cons e L ih =>
    intro over
    unfold gcScan
    split
    · split
      · exact (ih _).cons e
      · exact (ih _).cons_cons e
    · simp

theorem gcScan_gone (L : List (Elem β)) : ∀ over : Int, ∀ e ∈ (gcScan over L).2,
    e.linked = true ∧ e.pin = 0 := by
  induction L with
  | nil => intro; simp [gcScan]
  | cons e L ih =>
    intro over
    unfold gcScan
    split
    · split
      · rename_i h
        intro x hx
        rcases List.mem_cons.mp hx with rfl | hx
        · exact h
        · exact ih _ x hx
      · exact ih _
    · simp

/-- Afterwards the cache is not overfull, or nothing removable is left. -/
theorem gcScan_done (L : List (Elem β)) : ∀ over : Int,
    over - sumUnits (gcScan over L).2 ≤ 0 ∨
      ∀ e ∈ (gcScan over L).1, ¬ (e.linked = true ∧ e.pin = 0) := by
  induction L with
  | nil => intro; simp [gcScan]
  | cons e L ih =>
    intro over
    unfold gcScan
    split
    · split
      · rcases ih (over - e.units) with h | h
        · left; simp; omega
        · right; exact h
      · rename_i hne
        rcases ih over with h | h
        · left; exact h
        · right
          intro x hx
          rcases List.mem_cons.mp hx with rfl | hx
          · exact hne
          · exact h x hx
    · left; simp; omega

/-- The discarded elements are the least recent removable ones: whatever removable element is
kept comes after all of them in the scan (is more recent). -/
theorem gcScan_order (R : Elem β → Elem β → Prop) (L : List (Elem β)) : ∀ over : Int,
    L.Pairwise (fun a b => (a.linked = true ∧ a.pin = 0) → (b.linked = true ∧ b.pin = 0) → R a b) →
    ∀ g ∈ (gcScan over L).2, ∀ x ∈ (gcScan over L).1, x.linked = true → x.pin = 0 → R g x := by
  induction L with
  | nil => intro; simp [gcScan]
  | cons e L ih =>
    intro over hp
    rw [List.pairwise_cons] at hp
    unfold gcScan
    split
    · split
      · rename_i h
        intro g hg x hx hl h0
        rcases List.mem_cons.mp hg with rfl | hg
        · exact hp.1 x ((gcScan_sublist L _).subset hx) h ⟨hl, h0⟩
        · exact ih _ hp.2 g hg x hx hl h0
      · rename_i h
        intro g hg x hx hl h0
        rcases List.mem_cons.mp hx with rfl | hx
        · exact absurd ⟨hl, h0⟩ h
        · exact ih _ hp.2 g hg x hx hl h0
    · intro g hg; simp at hg

/-- No more is discarded than necessary: without the last discarded element the cache would
still be overfull. -/
theorem gcScan_minimal (L : List (Elem β)) : ∀ over : Int, ∀ a g b,
    (gcScan over L).2 = a ++ g :: b → 0 < over - sumUnits a := by
  induction L with
  | nil => intro over a g b h; simp [gcScan] at h
  | cons e L ih =>
    intro over a g b h
    unfold gcScan at h
    split at h
    · split at h
      · cases a with
        | nil => simpa
        | cons a0 a =>
          simp only [List.cons_append, List.cons.injEq] at h
          obtain ⟨rfl, h⟩ := h
          have := ih _ a g b h
          simp; omega
      · exact ih _ a g b h
    · simp at h

/-! ### Remove and DiscardIdle -/

/-- The world after a removal: `kept` stay in the table, `gone` are handed to the deleter in
order, `pinned` move to the deferred list (the last one first). -/
def rmWorld (f : Elem β → σ → σ) (w : World σ β) (kept gone pinned : List (Elem β)) : World σ β :=
  { w with
    ext := gone.foldl (fun s e => f e s) w.ext,
    cache := { w.cache with
      nodes := kept,
      units := w.cache.units - sumUnits gone,
      pinnedUnits := w.cache.pinnedUnits - sumUnits pinned,
      defer := (pinned.map (fun e => { e with linked := true })).reverse ++ w.cache.defer } }

theorem gcWorld_eq_rmWorld (f : Elem β → σ → σ) (w : World σ β) (kept gone : List (Elem β)) :
    gcWorld f w kept gone = rmWorld f w kept gone [] := by
  simp [gcWorld, rmWorld]

theorem rmWorld_trans (f : Elem β → σ → σ) (w : World σ β) (k1 g1 p1 k2 g2 p2 : List (Elem β)) :
    rmWorld f (rmWorld f w k1 g1 p1) k2 g2 p2 = rmWorld f w k2 (g1 ++ g2) (p1 ++ p2) := by
  simp only [rmWorld, List.foldl_append, sumUnits_append, List.map_append, List.reverse_append,
    List.append_assoc]
  congr 1
  simp only [Cache.mk.injEq, true_and, and_true]
  omega

theorem removeElem_pure (E : Env) (f : Elem β → σ → σ) (e : Elem β) (w : World σ β)
    (kept : List (Elem β)) (hp : 0 ≤ e.pin) (hk : w.cache.nodes = kept) :
    removeElem E (pureDel f) e w =
      .ok (if e.pin = 0 then rmWorld f w kept [e] [] else rmWorld f w kept [] [e]) := by
  unfold removeElem
  by_cases h : e.pin = 0
  · simp [h, discard, assertThat, pureDel, rmWorld, bind, Except.bind, hk]
  · have : e.pin > 0 := by omega
    simp [h, this, rmWorld, hk]

theorem remove_pure_none (E : Env) (f : Elem β → σ → σ) (k : Bytes) (w : World σ β)
    (h : findKey k w.cache.nodes = none) : remove E (pureDel f) k w = .ok w := by
  unfold remove; rw [h]

theorem remove_pure_some (E : Env) (f : Elem β → σ → σ) (e : Elem β) (w : World σ β)
    (A B : List (Elem β)) (hn : w.cache.nodes = A ++ e :: B) (hd : Distinct (A ++ e :: B))
    (hp : 0 ≤ e.pin) :
    remove E (pureDel f) e.key w =
      .ok (if e.pin = 0 then rmWorld f w (A ++ B) [e] [] else rmWorld f w (A ++ B) [] [e]) := by
  obtain ⟨hA, hB⟩ := mid_ids hd.ids
  unfold remove
  rw [hn, findKey_mid (mid_keys hd.keys).1]
  simp only [dropId_mid hA hB]
  rw [removeElem_pure E f e _ (A ++ B) hp rfl]
  rfl

/-- What `DiscardIdle` does on the table read from the least recent element: the elements that
stay and those that leave. -/
def idleScan (thr : Int) : List (Elem β) → List (Elem β) × List (Elem β)
  | [] => ([], [])
  | e :: l =>
    if e.linked then
      if e.lastUse < thr then ((idleScan thr l).1, e :: (idleScan thr l).2) else (e :: l, [])
    else (e :: (idleScan thr l).1, (idleScan thr l).2)

/-- The debug assertions of the loop (in a debug build). -/
def idleAsserts (lru : Bool) (thr : Int) : Int → List (Elem β) → Prop
  | _, [] => True
  | last, e :: l =>
    if e.linked then
      if e.lastUse < thr then
        last ≤ e.lastUse + 1 ∧ (e.pin = 0 ∨ lru = false) ∧ idleAsserts lru thr e.lastUse l
      else True
    else idleAsserts lru thr last l

/-- Unpinned / pinned part of a list. -/
def unpinned (l : List (Elem β)) : List (Elem β) := l.filter (fun e => e.pin == 0)
def pinnedOf (l : List (Elem β)) : List (Elem β) := l.filter (fun e => !(e.pin == 0))

theorem idleScan_unlinked_tail (thr : Int) (L : List (Elem β)) (h : ∀ e ∈ L, e.linked = false) :
    idleScan thr L = (L, []) := by
  induction L with
  | nil => rfl
  | cons e L ih =>
    simp only [List.mem_cons, forall_eq_or_imp] at h
    simp [idleScan, h.1, ih h.2]

theorem idleLoop_pure (E : Env) (f : Elem β → σ → σ) (thr : Int) (L : List (Elem β)) :
    ∀ (n : Nat) (B : List (Elem β)) (last : Int) (w : World σ β), L.length ≤ n →
      w.cache.nodes = L.reverse ++ B → Distinct (L.reverse ++ B) →
      (∀ e ∈ L, 0 ≤ e.pin) →
      (E.dbg = true → idleAsserts w.cache.lru thr last L) →
      idleLoop E (pureDel f) thr n (ringLast L.reverse) last w =
        .ok (rmWorld f w ((idleScan thr L).1.reverse ++ B)
          (unpinned (idleScan thr L).2) (pinnedOf (idleScan thr L).2)) := by
  induction L with
  | nil =>
    intro n B last w _ hn _ _ _
    simp only [List.reverse_nil, List.nil_append] at hn
    have : ringLast ([] : List (Elem β)) = none := rfl
    rw [List.reverse_nil, this]
    unfold idleLoop
    simp [rmWorld, idleScan, unpinned, pinnedOf, ← hn]
  | cons e L ih =>
    intro n B last w hlen hn hd hpin has
    simp only [List.reverse_cons, List.append_assoc, List.singleton_append] at hn hd
    simp only [List.mem_cons, forall_eq_or_imp] at hpin
    rw [List.reverse_cons, ringLast_snoc]
    by_cases hl : e.linked
    · simp only [hl, if_true]
      obtain ⟨n, rfl⟩ : ∃ m, n = m + 1 := ⟨n - 1, by simp at hlen; omega⟩
      have hlen' : L.length ≤ n := by simpa using hlen
      obtain ⟨hA, hB⟩ := mid_ids hd.ids
      unfold idleLoop
      rw [hn, findId_mid hA]
      simp only [hl, if_true]
      by_cases ht : e.lastUse < thr
      · simp only [idleAsserts, hl, if_true, ht] at has
        have h1 : assertThat E (last ≤ e.lastUse + 1) = .ok () := by
          unfold assertThat
          cases hdbg : E.dbg
          · simp
          · simp [(has hdbg).1]
        have h2 : assertThat E (e.pin = 0 ∨ w.cache.lru = false) = .ok () := by
          unfold assertThat
          cases hdbg : E.dbg
          · simp
          · simp [(has hdbg).2.1]
        simp only [ht, if_true, h1, h2, bind, Except.bind, ringPrev_mid hA]
        rw [remove_pure_some E f e w L.reverse B hn hd hpin.1]
        have hlen' : L.length ≤ n := by simpa using hlen
        simp only [idleScan, hl, if_true, ht]
        by_cases hp : e.pin = 0
        · simp only [hp, if_true]
          rw [ih n B e.lastUse (rmWorld f w (L.reverse ++ B) [e] []) hlen' rfl
            (hd.sublist (by simp)) hpin.2 (fun h => (has h).2.2)]
          rw [rmWorld_trans]
          simp [unpinned, pinnedOf, hp]
        · simp only [hp, if_false]
          rw [ih n B e.lastUse (rmWorld f w (L.reverse ++ B) [] [e]) hlen' rfl
            (hd.sublist (by simp)) hpin.2 (fun h => (has h).2.2)]
          rw [rmWorld_trans]
          simp [unpinned, pinnedOf, hp]
      · simp only [ht, if_false, idleScan, hl, if_true]
        simp [rmWorld, unpinned, pinnedOf, ← hn]
    · simp only [hl, Bool.false_eq_true, if_false]
      have hlen' : L.length ≤ n := by simp at hlen; omega
      rw [ih n (e :: B) last w hlen' hn hd hpin.2
        (fun h => by have := has h; simpa [idleAsserts, hl] using this)]
      simp [idleScan, hl]

theorem discardIdle_pure (E : Env) (f : Elem β → σ → σ) (mi : Int) (w : World σ β)
    (hd : Distinct w.cache.nodes) (hpin : ∀ e ∈ w.cache.nodes, 0 ≤ e.pin) (hmi : 0 ≤ mi)
    (has : E.dbg = true → idleAsserts w.cache.lru (w.now E - mi) 0 w.cache.nodes.reverse) :
    discardIdle E (pureDel f) mi w =
      .ok (rmWorld f w.ticked ((idleScan (w.now E - mi) w.cache.nodes.reverse).1.reverse)
        (unpinned (idleScan (w.now E - mi) w.cache.nodes.reverse).2)
        (pinnedOf (idleScan (w.now E - mi) w.cache.nodes.reverse).2)) := by
  unfold discardIdle
  have h : ¬ mi < 0 := by omega
  simp only [h, if_false]
  have := idleLoop_pure E f (w.now E - mi) w.cache.nodes.reverse
    (w.cache.nodes.length + E.extraFuel) [] 0 w.ticked
    (by simp) (by simp [World.ticked]) (by simpa using hd) (by simpa using hpin) has
  simpa using this

theorem idleScan_perm (thr : Int) (L : List (Elem β)) :
    ((idleScan thr L).1 ++ (idleScan thr L).2).Perm L := by
  induction L with
  | nil => simp [idleScan]
  | cons e L ih =>
    unfold idleScan
    split
    · split
      · exact List.perm_middle.trans (ih.cons e)
      · simp
    · exact ih.cons e

theorem idleScan_sublist (thr : Int) (L : List (Elem β)) : (idleScan thr L).1.Sublist L := by
  induction L with
  | nil => simp [idleScan]
  | cons e L ih =>
    unfold idleScan
    split
    · split
      · exact ih.cons e
      · simp
    · exact ih.cons_cons e

theorem idleScan_gone (thr : Int) (L : List (Elem β)) : ∀ e ∈ (idleScan thr L).2,
    e.linked = true ∧ e.lastUse < thr := by
  induction L with
  | nil => simp [idleScan]
  | cons e L ih =>
    unfold idleScan
    split
    · split
      · rename_i h1 h2
        intro x hx
        rcases List.mem_cons.mp hx with rfl | hx
        · exact ⟨h1, h2⟩
        · exact ih x hx
      · simp
    · exact ih

/-- If the ring is sorted, no linked element older than the threshold stays. -/
theorem idleScan_kept (thr : Int) (L : List (Elem β))
    (hs : L.Pairwise (fun a b => a.linked = true → b.linked = true → a.lastUse ≤ b.lastUse)) :
    ∀ e ∈ (idleScan thr L).1, e.linked = true → thr ≤ e.lastUse := by
  induction L with
  | nil => simp [idleScan]
  | cons e L ih =>
    rw [List.pairwise_cons] at hs
    unfold idleScan
    split
    · rename_i hl
      split
      · exact ih hs.2
      · rename_i ht
        intro x hx hxl
        rcases List.mem_cons.mp hx with rfl | hx
        · omega
        · have := hs.1 x hx hl hxl; omega
    · rename_i hl
      intro x hx hxl
      rcases List.mem_cons.mp hx with rfl | hx
      · exact absurd hxl hl
      · exact ih hs.2 x hx hxl

/-- The assertions hold if the ring is sorted and (in LRU mode) linked elements are unpinned. -/
theorem idleAsserts_of_sorted (lru : Bool) (thr : Int) (L : List (Elem β)) : ∀ last : Int,
    L.Pairwise (fun a b => a.linked = true → b.linked = true → a.lastUse ≤ b.lastUse) →
    (∀ e ∈ L, e.linked = true → last ≤ e.lastUse + 1) →
    (lru = true → ∀ e ∈ L, e.linked = true → e.pin = 0) → idleAsserts lru thr last L := by
  induction L with
  | nil => intros; trivial
  | cons e L ih =>
    intro last hs hlast hlru
    rw [List.pairwise_cons] at hs
    unfold idleAsserts
    split
    · rename_i hl
      split
      · refine ⟨hlast e (by simp) hl, ?_, ?_⟩
        · cases hb : lru
          · simp
          · left; exact hlru hb e (by simp) hl
        · refine ih _ hs.2 ?_ (fun hb x hx => hlru hb x (by simp [hx]))
          intro x hx hxl
          have := hs.1 x hx hl hxl; omega
      · trivial
    · exact ih _ hs.2 (fun x hx => hlast x (by simp [hx])) (fun hb x hx => hlru hb x (by simp [hx]))

/-! ### RemoveAll, Clear, RemoveUnpinned -/

theorem tableOrder_perm (E : Env) (l : List (Elem β)) : (tableOrder E l).Perm l := by
  unfold tableOrder
  refine List.Perm.trans ?_ (List.perm_insertionSort (fun a b : Elem β => a.id ≤ b.id) l)
  have := (E.order.perm (Elem β) ((l.insertionSort (fun a b => a.id ≤ b.id)).map (fun e => (e.key, e)))).map (·.2)
  simpa [List.map_map, Function.comp_def] using this

theorem removeAll_fold (E : Env) (f : Elem β → σ → σ) (l : List (Elem β)) :
    ∀ w : World σ β, (∀ e ∈ l, 0 ≤ e.pin) →
      l.foldlM (fun w e => removeElem E (pureDel f) e w) w =
        (.ok (rmWorld f w w.cache.nodes (unpinned l) (pinnedOf l)) : Res (World σ β)) := by
  induction l with
  | nil => intro w _; simp [rmWorld, unpinned, pinnedOf, pure, Except.pure]
  | cons e l ih =>
    intro w hp
    simp only [List.mem_cons, forall_eq_or_imp] at hp
    rw [List.foldlM_cons, removeElem_pure E f e w w.cache.nodes hp.1 rfl]
    simp only [bind, Except.bind]
    rw [ih _ hp.2]
    by_cases h : e.pin = 0
    · simp only [h, if_true]
      rw [show (rmWorld f w w.cache.nodes [e] []).cache.nodes = w.cache.nodes from rfl,
        rmWorld_trans]
      simp [unpinned, pinnedOf, h]
    · simp only [h, if_false]
      rw [show (rmWorld f w w.cache.nodes [] [e]).cache.nodes = w.cache.nodes from rfl,
        rmWorld_trans]
      simp [unpinned, pinnedOf, h]

theorem removeAll_pure (E : Env) (f : Elem β → σ → σ) (w : World σ β)
    (hp : ∀ e ∈ w.cache.nodes, 0 ≤ e.pin) :
    removeAll E (pureDel f) w =
      .ok (rmWorld f w [] (unpinned (tableOrder E w.cache.nodes))
        (pinnedOf (tableOrder E w.cache.nodes))) := by
  unfold removeAll
  rw [removeAll_fold E f _ w (fun e he => hp e ((tableOrder_perm E _).subset he))]
  rfl

theorem clear_fold (E : Env) (f : Elem β → σ → σ) (l : List (Elem β)) :
    ∀ w : World σ β, (∀ e ∈ l, e.pin = 0) →
      l.foldlM (fun w e => discard E (pureDel f) e w) w =
        (.ok (rmWorld f w w.cache.nodes l []) : Res (World σ β)) := by
  induction l with
  | nil => intro w _; simp [rmWorld, pure, Except.pure]
  | cons e l ih =>
    intro w hp
    simp only [List.mem_cons, forall_eq_or_imp] at hp
    have h1 : discard E (pureDel f) e w = .ok (rmWorld f w w.cache.nodes [e] []) := by
      simp [discard, assertThat, hp.1, pureDel, rmWorld, bind, Except.bind]
    rw [List.foldlM_cons, h1]
    simp only [bind, Except.bind]
    rw [ih _ hp.2, show (rmWorld f w w.cache.nodes [e] []).cache.nodes = w.cache.nodes from rfl,
        rmWorld_trans]
    simp

theorem ringFirst_cons (e : Elem β) (l : List (Elem β)) :
    ringFirst (e :: l) = if e.linked then some e.id else ringFirst l := by
  unfold ringFirst
  cases he : e.linked <;> simp [he]

/-- Elements `RemoveUnpinned` keeps / removes. -/
def rmUnpinnable (e : Elem β) : Bool := e.linked && e.pin == 0

theorem unpinnedLoop_pure (E : Env) (f : Elem β → σ → σ) (L : List (Elem β)) :
    ∀ (n : Nat) (A : List (Elem β)) (w : World σ β), L.length ≤ n →
      w.cache.nodes = A ++ L → Distinct (A ++ L) →
      unpinnedLoop E (pureDel f) n (ringFirst L) w =
        .ok (rmWorld f w (A ++ L.filter (fun e => !rmUnpinnable e)) (L.filter rmUnpinnable) []) := by
  induction L with
  | nil =>
    intro n A w _ hn _
    have : ringFirst ([] : List (Elem β)) = none := rfl
    rw [this]; unfold unpinnedLoop
    simp only [List.append_nil] at hn
    simp [rmWorld, ← hn]
  | cons e L ih =>
    intro n A w hlen hn hd
    have hlen0 : L.length ≤ n := by simp at hlen; omega
    rw [ringFirst_cons]
    by_cases hl : e.linked
    · simp only [hl, if_true]
      obtain ⟨n, rfl⟩ : ∃ m, n = m + 1 := ⟨n - 1, by simp at hlen; omega⟩
      have hlen' : L.length ≤ n := by simpa using hlen
      obtain ⟨hA, hB⟩ := mid_ids hd.ids
      unfold unpinnedLoop
      rw [hn, findId_mid hA]
      simp only [hl, if_true, ringNext_mid hA]
      by_cases hp : e.pin = 0
      · simp only [hp, if_true, bind, Except.bind]
        rw [remove_pure_some E f e w A L hn hd (by omega)]
        simp only [hp, if_true]
        rw [ih n A (rmWorld f w (A ++ L) [e] []) hlen' rfl (hd.sublist (by simp)), rmWorld_trans]
        simp [rmUnpinnable, hl, hp]
      · simp only [hp, if_false, bind, Except.bind]
        have := ih n (A ++ [e]) w hlen' (by simpa using hn) (by simpa using hd)
        rw [this]
        simp [rmUnpinnable, hp]
    · simp only [hl, Bool.false_eq_true, if_false]
      have := ih n (A ++ [e]) w hlen0 (by simpa using hn) (by simpa using hd)
      rw [this]
      simp [rmUnpinnable, hl]

theorem removeUnpinned_pure (E : Env) (f : Elem β → σ → σ) (w : World σ β)
    (hd : Distinct w.cache.nodes) :
    removeUnpinned E (pureDel f) w =
      .ok (rmWorld f w (w.cache.nodes.filter (fun e => !rmUnpinnable e))
        (w.cache.nodes.filter rmUnpinnable) []) := by
  unfold removeUnpinned
  have := unpinnedLoop_pure E f w.cache.nodes (w.cache.nodes.length + E.extraFuel) [] w
    (by omega) (by simp) (by simpa using hd)
  simpa using this

end Verif.Lru
