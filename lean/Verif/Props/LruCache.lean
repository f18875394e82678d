import Verif.Lemmas.LruFate
/-
C24–C30: the generic cache (utils/simple_lru_cache_inl.h), for every history of calls that
respects the pin protocol (`Legal`), in both eviction modes, with any clock, in debug and release
builds.  Statements are about the history of calls (`held`, `current`, `unitsOf`, `touchTime`, …,
Spec/LruCache.lean) and what the cache reports and hands to the deleter (`w.ext`).
-/
namespace Verif.Lru

variable {β : Type} {E : Env} {cfg : Config} {h : Hist β} {w : World (List Nat) β}

/-! ### Bridging -/

theorem present_some (c : Core cfg.lru h w) {k : Bytes} {p : Nat} :
    present w k = some p ↔ ∃ e ∈ w.cache.nodes, e.key = k ∧ e.ptr = p := by
  unfold present
  constructor
  · intro hp
    cases hf : findKey k w.cache.nodes with
    | none => rw [hf] at hp; cases hp
    | some e =>
      rw [hf] at hp
      have := (findKey_iff c.keys).mp hf
      exact ⟨e, this.1, this.2, by simpa using hp⟩
  · rintro ⟨e, he, hk, hp⟩
    rw [(findKey_iff c.keys).mpr ⟨he, hk⟩]
    simp [hp]

theorem live_perm (c : Core cfg.lru h w) :
    (w.ext ++ w.cache.all.map (·.ptr)).Perm (insertedPtrs h) := by
  rw [List.perm_iff_count]
  intro p; rw [List.count_append]; exact (c.cnt p).symm

/-- What `Lookup` returns is what is present once the expired entries are gone. -/
theorem lookup_out {w' : World (List Nat) β} {out : Option Nat} {upd : Bool} {k : Bytes}
    (hs : step E (.lookup upd k) w = .ok (w', out)) :
    ∃ w1, removeExpired E logDel w = .ok w1 ∧ out = present w1 k := by
  simp only [step, lookup, bind, Except.bind] at hs
  cases hx : removeExpired E logDel w with
  | error e => rw [hx] at hs; cases hs
  | ok w1 =>
    rw [hx] at hs
    simp only [Except.map, Except.ok.injEq, Prod.mk.injEq] at hs
    refine ⟨w1, rfl, ?_⟩
    rw [← hs.2]
    unfold pinKey present
    split
    · rename_i hf; rw [hf]
    · rename_i e hf; rw [hf]; rfl

theorem sum_perm {a b : List Int} (h : a.Perm b) : a.sum = b.sum := by
  induction h with
  | nil => rfl
  | cons e _ ih => simp [ih]
  | swap a b l => simp; omega
  | trans _ _ h1 h2 => rw [h1, h2]

/-! ### C24 -/

/-- `Size()` is the total size of the values inserted and not yet handed to the deleter. -/
theorem C24_size_exact (r : Reach E cfg h w) :
    (∃ L, (w.ext ++ L).Perm (insertedPtrs h)) ∧
    ∀ L, (w.ext ++ L).Perm (insertedPtrs h) →
      w.cache.size = (L.map (fun p => (unitsOf p h : Int))).sum := by
  have c := r.good.core
  refine ⟨⟨_, live_perm c⟩, ?_⟩
  intro L hL
  have hp : L.Perm (w.cache.all.map (·.ptr)) :=
    (List.perm_append_left_iff w.ext).mp (hL.trans (live_perm c).symm)
  rw [sum_perm (hp.map (fun p => (unitsOf p h : Int))), List.map_map]
  have : w.cache.all.map ((fun p => (unitsOf p h : Int)) ∘ fun x => x.ptr) =
      w.cache.all.map (fun e => (e.units : Int)) := by
    apply List.map_congr_left
    intro e he; simp [c.uo e he]
  rw [this]
  have hu := c.units
  unfold Cache.size
  rw [hu, Cache.all, List.map_append, List.sum_append]; rfl

/-- `Entries()` counts the keys that can be found and `PinnedSize()` adds up the sizes of those
whose value is pinned. -/
theorem C24_entries_pinned_exact (r : Reach E cfg h w) :
    ∃ K : List Bytes, K.Nodup ∧ (∀ k, k ∈ K ↔ present w k ≠ none) ∧
      w.cache.entries = K.length ∧
      w.cache.pinnedSize = (K.map (fun k => match present w k with
        | some p => if 0 < held k p h then (unitsOf p h : Int) else 0
        | none => 0)).sum := by
  have c := r.good.core
  refine ⟨w.cache.nodes.map (·.key), c.keys, ?_, by simp [Cache.entries], ?_⟩
  · intro k
    constructor
    · intro hk
      obtain ⟨e, he, hek⟩ := List.mem_map.mp hk
      rw [(present_some c).mpr ⟨e, he, hek, rfl⟩]; simp
    · intro hk
      cases hp : present w k with
      | none => exact absurd hp hk
      | some p =>
        obtain ⟨e, he, hek, _⟩ := (present_some c).mp hp
        rw [← hek]; exact List.mem_map_of_mem he
  · unfold Cache.pinnedSize
    rw [c.pinned, List.map_map]
    have : ∀ l : List (Elem β), (∀ e ∈ l, e ∈ w.cache.nodes) → sumUnits (pinnedOf l) =
        (l.map ((fun k => match present w k with
          | some p => if 0 < held k p h then (unitsOf p h : Int) else 0
          | none => 0) ∘ fun x => x.key)).sum := by
      intro l hl
      induction l with
      | nil => simp [pinnedOf]
      | cons e l ih =>
        have he := hl e (by simp)
        have hea : e ∈ w.cache.all := by simp [Cache.all, he]
        have h1 := ih (fun x hx => hl x (by simp [hx]))
        have h2 : pinnedOf (e :: l) = pinnedOf [e] ++ pinnedOf l := pinnedOf_append [e] l
        rw [h2, sumUnits_append, pinnedOf_single, h1, List.map_cons, List.sum_cons]
        congr 1
        simp only [Function.comp, (present_some c).mpr ⟨e, he, rfl, rfl⟩, c.uo e hea]
        rw [← c.pins e hea]
        have := c.pinN e he
        by_cases h0 : e.pin = 0
        · rw [if_pos h0, if_neg (by omega)]
        · rw [if_neg h0, if_pos (by omega)]
    exact this _ (fun e he => he)

/-! ### C25 -/

/-- Over capacity, every entry that can be found is pinned, and `MaxSize()` is what was set. -/
theorem C25_overfull_all_pinned (r : Reach E cfg h w) (ho : maxSizeOf cfg h < w.cache.size)
    {k : Bytes} {p : Nat} (hp : present w k = some p) : 0 < held k p h := by
  have c := r.good.core
  obtain ⟨e, he, rfl, rfl⟩ := (present_some c).mp hp
  rw [← c.pins e (by simp [Cache.all, he])]
  refine r.good.cap ?_ e he
  unfold Cache.overfull
  rw [r.inv2.max]; exact ho

/-- Without outstanding pins the cache is within capacity. -/
theorem C25_unpinned_within_capacity (r : Reach E cfg h w) (hno : ∀ k p, held k p h = 0)
    (hm : 0 ≤ maxSizeOf cfg h) : w.cache.size ≤ maxSizeOf cfg h := by
  have c := r.good.core
  by_contra hcon
  have hN : w.cache.nodes = [] := by
    cases hn : w.cache.nodes with
    | nil => rfl
    | cons e l =>
      have h1 := C25_overfull_all_pinned r (by omega)
        ((present_some c).mpr ⟨e, by simp [hn], rfl, rfl⟩)
      rw [hno] at h1; omega
  have hD : w.cache.defer = [] := by
    cases hd : w.cache.defer with
    | nil => rfl
    | cons e l =>
      have h1 := c.pinD e (by simp [hd])
      rw [c.pins e (by simp [Cache.all, hd]), hno] at h1
      omega
  have := c.units
  rw [hN, hD] at this
  unfold Cache.size at hcon
  simp at this
  omega

/-! ### C26 -/

/-- Every insertion of a value is matched by at most one deletion, and by exactly one unless the
value is still in the cache, where it can be found or is pinned. -/
theorem C26_deleted_once (r : Reach E cfg h w) (p : Nat) :
    (insertedPtrs h).count p = w.ext.count p ∨
    ((insertedPtrs h).count p = w.ext.count p + 1 ∧
      ((∃ k, present w k = some p) ∨ ∃ k, 0 < held k p h)) := by
  have c := r.good.core
  have hc := c.cnt p
  by_cases hl : p ∈ w.cache.all.map (·.ptr)
  · right
    have h1 : (w.cache.all.map (·.ptr)).count p = 1 :=
      List.count_eq_one_of_mem c.ptrs hl
    refine ⟨by omega, ?_⟩
    obtain ⟨e, he, rfl⟩ := List.mem_map.mp hl
    rcases List.mem_append.mp he with he' | he'
    · left; exact ⟨e.key, (present_some c).mpr ⟨e, he', rfl, rfl⟩⟩
    · right; exact ⟨e.key, by rw [← c.pins e he]; exact c.pinD e he'⟩
  · left
    rw [List.count_eq_zero.mpr hl] at hc; omega

/-- A pinned or findable value has not been deleted. -/
theorem C26_pinned_not_deleted (r : Reach E cfg h w) {k : Bytes} {p : Nat}
    (hp : 0 < held k p h ∨ present w k = some p) :
    (insertedPtrs h).count p = w.ext.count p + 1 := by
  have c := r.good.core
  have hl : p ∈ w.cache.all.map (·.ptr) := by
    rcases hp with hp | hp
    · by_contra hcon
      have := c.heldz k p (fun e he hkp => hcon (hkp.2 ▸ List.mem_map_of_mem he))
      omega
    · obtain ⟨e, he, _, rfl⟩ := (present_some c).mp hp
      exact List.mem_map_of_mem (by simp [Cache.all, he])
  have h1 := List.count_eq_one_of_mem c.ptrs hl
  have := c.cnt p
  omega

/-- Pins are never negative: no unmatched release is possible. -/
theorem held_nonneg (r : Reach E cfg h w) (k : Bytes) (p : Nat) : 0 ≤ held k p h := by
  have c := r.good.core
  by_cases hl : ∃ e ∈ w.cache.all, e.key = k ∧ e.ptr = p
  · obtain ⟨e, he, rfl, rfl⟩ := hl
    rw [← c.pins e he]
    rcases List.mem_append.mp he with he' | he'
    · exact c.pinN e he'
    · exact Int.le_of_lt (c.pinD e he')
  · exact Int.le_of_eq (c.heldz k p (fun e he hh => hl ⟨e, he, hh⟩)).symm

/-- With distinct values nothing is deleted twice. -/
theorem C26_deleted_nodup (r : Reach E cfg h w) (hn : (insertedPtrs h).Nodup) : w.ext.Nodup :=
  (((live_perm r.good.core).nodup_iff).mpr hn).sublist (by simp)

/-- A call hands a value to the deleter only for a reason (`Reason`): it was replaced, removed,
expired, or there was no room; and the deleter's record only grows. -/
theorem C26_deletion_justified (r : Reach E cfg h w) {c : Call β} (hl : Legal cfg.lru h w.ext c)
    {w' : World (List Nat) β} {out : Option Nat} (hs : step E c w = .ok (w', out)) :
    (∃ l, w'.ext = w.ext ++ l) ∧
    ∀ p, w.ext.count p < w'.ext.count p →
      Reason cfg h w.cache.size (w.now E) c p ∧
      ∀ k, held k p ({ call := c, out := out, time := w.now E } :: h) = 0 := by
  have r' : Reach E cfg ({ call := c, out := out, time := w.now E } :: h) w' := .call r hl hs
  have hs' := step_imp E c w _ hs
  have hdel : ∀ p, w.ext.count p < w'.ext.count p → Reason cfg h w.cache.size (w.now E) c p ∧
      (∃ l, w'.ext = w.ext ++ l) := by
    intro p hp
    by_cases hm : ∃ n, c = .setMaxSize n
    · obtain ⟨n, rfl⟩ := hm
      have hs2 : setMaxSize E.rel logDel n w = .ok w' := by
        simp only [Lru.step] at hs'
        cases hx : setMaxSize E.rel logDel n w with
        | error e => rw [hx] at hs'; cases hs'
        | ok a => rw [hx] at hs'; cases hs'; rfl
      obtain ⟨h1, h2, _⟩ := setMaxSize_fate r.rel.good n hs2
      exact ⟨h2 p hp, h1⟩
    · have f := step_fate rfl r.rel.good r.inv2 c hl hs' (fun n hn => hm ⟨n, hn⟩)
      obtain ⟨e, _, rfl, hr⟩ := f.del p hp
      exact ⟨hr, f.pre⟩
  refine ⟨?_, ?_⟩
  · by_cases hm : ∃ n, c = .setMaxSize n
    · obtain ⟨n, rfl⟩ := hm
      have hs2 : setMaxSize E.rel logDel n w = .ok w' := by
        simp only [Lru.step] at hs'
        cases hx : setMaxSize E.rel logDel n w with
        | error e => rw [hx] at hs'; cases hs'
        | ok a => rw [hx] at hs'; cases hs'; rfl
      exact (setMaxSize_fate r.rel.good n hs2).1
    · exact (step_fate rfl r.rel.good r.inv2 c hl hs' (fun n hn => hm ⟨n, hn⟩)).pre
  · intro p hp
    refine ⟨(hdel p hp).1, ?_⟩
    intro k
    have h0 := held_nonneg r' k p
    by_contra hcon
    have h1 := C26_pinned_not_deleted r' (k := k) (p := p) (Or.inl (by omega))
    -- the number of insertions of p did not change
    have h2 := C26_deleted_once r p
    have h3 : (insertedPtrs (({ call := c, out := out, time := w.now E } : Event β) :: h)).count p ≤
        (insertedPtrs h).count p + 1 := by
      cases c <;> simp only [insertedPtrs, List.count_cons] <;> (try split) <;> omega
    have h4 : (insertedPtrs (({ call := c, out := out, time := w.now E } : Event β) :: h)).count p =
        (insertedPtrs h).count p ∨ (insertedPtrs h).count p = w.ext.count p := by
      cases c with
      | insertPinned k' p' v u =>
        by_cases hpp : p' = p
        · subst hpp; right; exact hl
        · left; simp [insertedPtrs, hpp]
      | _ => left; rfl
    omega

/-- Once the cache has been emptied (`RemoveAll`, `Clear`) with no pins outstanding, every value
ever inserted has been deleted, as often as it was inserted. -/
theorem C26_emptied_all_deleted (r : Reach E cfg h w) {c : Call β} (hc : c = .removeAll ∨ c = .clear)
    (hno : ∀ k p, held k p h = 0)
    {w' : World (List Nat) β} {out : Option Nat} (hs : step E c w = .ok (w', out)) :
    w'.ext.Perm (insertedPtrs h) := by
  have hl : Legal cfg.lru h w.ext c := by
    rcases hc with rfl | rfl
    · trivial
    · exact hno
  have r' : Reach E cfg ({ call := c, out := out, time := w.now E } :: h) w' := .call r hl hs
  have hi : insertedPtrs (({ call := c, out := out, time := w.now E } : Event β) :: h) = insertedPtrs h := by
    rcases hc with rfl | rfl <;> rfl
  have hcur : ∀ k, current k (({ call := c, out := out, time := w.now E } : Event β) :: h) = none := by
    rcases hc with rfl | rfl <;> intro k <;> rfl
  have hh : ∀ k p, held k p (({ call := c, out := out, time := w.now E } : Event β) :: h) = 0 := by
    rcases hc with rfl | rfl <;> exact hno
  rw [← hi, List.perm_iff_count]
  intro p
  rcases C26_deleted_once r' p with h1 | ⟨_, ⟨k, hk⟩ | ⟨k, hk⟩⟩
  · exact h1.symm
  · obtain ⟨e, he, hek, _⟩ := (present_some r'.good.core).mp hk
    have := r'.good.core.cur e he
    rw [hcur] at this; cases this
  · rw [hh] at hk; omega

/-! ### C27 -/

/-- Lookup returns nothing, or the value last inserted for the key if not removed since. -/
theorem C27_lookup_current (r : Reach E cfg h w) {upd : Bool} {k : Bytes}
    (hl : Legal cfg.lru h w.ext (.lookup upd k))
    {w' : World (List Nat) β} {out : Option Nat} (hs : step E (.lookup upd k) w = .ok (w', out)) :
    out = none ∨ out = current k h := by
  have r' : Reach E cfg ({ call := .lookup upd k, out := out, time := w.now E } :: h) w' :=
    .call r hl hs
  obtain ⟨w1, h1, ho⟩ := lookup_out hs
  have h1' := removeExpired_imp E _ _ _ h1
  obtain ⟨w2, h2, rm, _⟩ := removeExpired_pure (Or.inl rfl) r.rel.good
  rw [h2] at h1'; cases h1'
  cases hp : present w1 k with
  | none => left; rw [ho, hp]
  | some p =>
    right
    have c1 := rm.core r.good.core
    obtain ⟨e, he, rfl, rfl⟩ := (present_some c1).mp hp
    rw [ho, hp, c1.cur e he]

/-- Conversely Lookup does return the value last inserted for the key, unless it was deleted or
has expired. -/
theorem C27_lookup_hit (r : Reach E cfg h w) {upd : Bool} {k : Bytes} {p : Nat}
    (hcur : current k h = some p) (hkey : keyOf p h = some k)
    (hlive : (insertedPtrs h).count p ≠ w.ext.count p)
    (hfresh : ¬ expiredAt cfg h p (w.now E))
    (hpast : cfg.lru = true ∨ ∀ ev ∈ h, ¬ expiredAt cfg h p ev.time)
    {w' : World (List Nat) β} {out : Option Nat} (hs : step E (.lookup upd k) w = .ok (w', out)) :
    out = some p := by
  have c := r.good.core
  have hl : p ∈ w.cache.all.map (·.ptr) := by
    by_contra hcon
    have := c.cnt p
    rw [List.count_eq_zero.mpr hcon] at this; omega
  obtain ⟨e, he, rfl⟩ := List.mem_map.mp hl
  have hk := c.key e he
  rw [hkey] at hk
  simp only [Option.some.injEq] at hk
  subst hk
  have heN : e ∈ w.cache.nodes := by
    rcases List.mem_append.mp he with he' | he'
    · exact he'
    · exfalso
      obtain ⟨hb, ev, hev, hx⟩ := r.inv2.dq e he' hcur
      rcases hpast with hp | hp
      · rw [hb] at hp; cases hp
      · exact hp ev hev hx
  obtain ⟨w1, h1, ho⟩ := lookup_out hs
  have h1' := removeExpired_imp E _ _ _ h1
  obtain ⟨w2, h2, rm, heq⟩ := removeExpired_pure (Or.inl rfl) r.rel.good
  rw [h2] at h1'; cases h1'
  rw [ho]
  refine (present_some (rm.core c)).mpr ⟨e, ?_, rfl, rfl⟩
  rw [heq]
  split
  · rename_i hm
    obtain ⟨n, hn, hmi⟩ : ∃ n, cfg.limit = some n ∧ w.cache.maxIdle = n := by
      have := r.good.idle
      cases hlim : cfg.limit with
      | none => rw [hlim] at this; simp only at this; omega
      | some n => rw [hlim] at this; exact ⟨n, rfl, this⟩
    have hperm := idleScan_perm (w.now E.rel - w.cache.maxIdle) w.cache.nodes.reverse
    have hin := hperm.symm.subset (show e ∈ w.cache.nodes.reverse by simpa using heN)
    rcases List.mem_append.mp hin with h3 | h3
    · simpa [rmWorld] using h3
    · exfalso
      have h4 := (idleScan_gone _ _ e h3).2
      rw [c.time e heN] at h4
      refine hfresh ⟨n, hn, ?_⟩
      have : w.now E.rel = w.now E := rfl
      omega
  · exact heN

/-- A value just inserted can be found. -/
theorem C27_insert_present (r : Reach E cfg h w) {k : Bytes} {p : Nat} {v : β} {u : Nat}
    (hl : Legal cfg.lru h w.ext (.insertPinned k p v u))
    {w' : World (List Nat) β} {out : Option Nat}
    (hs : step E (.insertPinned k p v u) w = .ok (w', out)) : present w' k = some p := by
  have r' : Reach E cfg ({ call := .insertPinned k p v u, out := out, time := w.now E } :: h) w' :=
    .call r hl hs
  have c' := r'.good.core
  have hheld : 0 < held k p (({ call := .insertPinned k p v u, out := out, time := w.now E } : Event β) :: h) := by
    have := held_nonneg r k p
    simp [held]; omega
  have hl' : ∃ e ∈ w'.cache.all, e.key = k ∧ e.ptr = p := by
    by_contra hcon
    have := c'.heldz k p (fun e he hh => hcon ⟨e, he, hh⟩)
    omega
  obtain ⟨e, he, hek, hep⟩ := hl'
  refine (present_some c').mpr ⟨e, ?_, hek, hep⟩
  rcases List.mem_append.mp he with he' | he'
  · exact he'
  · exfalso
    -- the deferred elements are the old ones
    have hs' := step_imp E _ w _ hs
    have f := step_fate rfl r.rel.good r.inv2 _ hl hs' (fun n hn => by cases hn)
    obtain ⟨e0, he0, _, hp0, _⟩ := f.defer e he'
    have h1 := r.good.core.cnt p
    have hl2 : (insertedPtrs h).count p = w.ext.count p := hl
    have h2 : 0 < (w.cache.all.map (·.ptr)).count p :=
      List.count_pos_iff.mpr (by rw [← hep, ← hp0]; exact List.mem_map_of_mem he0)
    omega

/-! ### C28 -/

/-- The calls that evict to make room; `k` is not the key being replaced. -/
def EvictingFor (k : Bytes) : Call β → Prop
  | .insertPinned k' _ _ _ => k ≠ k'
  | .updateSize _ _ _ => True
  | .setMaxSize _ => True
  | _ => False

theorem gcScan_gone_sublist (L : List (Elem β)) : ∀ over : Int, (gcScan over L).2.Sublist L := by
  induction L with
  | nil => intro; simp [gcScan]
  | cons e L ih =>
    intro over
    unfold gcScan
    split
    · split
      · exact (ih _).cons_cons e
      · exact (ih _).cons e
    · simp

theorem gc_evicts (c : Core cfg.lru h w) {w' : World (List Nat) β}
    (hr : garbageCollect E logDel w = .ok w') :
    (∀ a ∈ w.cache.nodes, a ∉ w'.cache.nodes → ∀ b ∈ w'.cache.nodes, b.pin = 0 →
      stamp cfg.lru a.ptr h < stamp cfg.lru b.ptr h) ∧
    ((∃ a ∈ w.cache.nodes, a ∉ w'.cache.nodes) → ∃ g ∈ w.cache.nodes, g ∉ w'.cache.nodes ∧
      w.cache.maxUnits < w'.cache.units + g.units ∧
      ∀ a ∈ w.cache.nodes, a ∉ w'.cache.nodes →
        stamp cfg.lru a.ptr h ≤ stamp cfg.lru g.ptr h) ∧
    (∀ b ∈ w'.cache.nodes, b ∈ w.cache.nodes) := by
  obtain ⟨w1, h1, _, _, heq⟩ := gc_removed (E := E) c
  rw [h1] at hr; cases hr
  generalize hov : w.cache.units - w.cache.maxUnits = over at heq
  have hperm := gcScan_perm w.cache.nodes.reverse over
  have hsub := gcScan_sublist w.cache.nodes.reverse over
  have hgone := gcScan_gone w.cache.nodes.reverse over
  have hgs := gcScan_gone_sublist w.cache.nodes.reverse over
  have hring : w.cache.nodes.reverse.Pairwise (fun a b =>
      (a.linked = true ∧ a.pin = 0) → (b.linked = true ∧ b.pin = 0) →
        stamp cfg.lru a.ptr h < stamp cfg.lru b.ptr h) := by
    rw [List.pairwise_reverse]
    exact c.ring.imp (fun {a b} hab hb ha => hab ha.1 hb.1)
  have hord := gcScan_order _ w.cache.nodes.reverse over hring
  have hmin := gcScan_minimal w.cache.nodes.reverse over
  have hN : w'.cache.nodes = (gcScan over w.cache.nodes.reverse).1.reverse := by rw [heq]; rfl
  have hU : w'.cache.units = w.cache.units - sumUnits (gcScan over w.cache.nodes.reverse).2 := by
    rw [heq]; rfl
  have hin : ∀ a ∈ w.cache.nodes, a ∉ w'.cache.nodes → a ∈ (gcScan over w.cache.nodes.reverse).2 := by
    intro a ha hna
    have := hperm.symm.subset (show a ∈ w.cache.nodes.reverse by simpa using ha)
    rcases List.mem_append.mp this with h2 | h2
    · exact absurd (by rw [hN]; simpa using h2) hna
    · exact h2
  have hout : ∀ a ∈ (gcScan over w.cache.nodes.reverse).2, a ∈ w.cache.nodes ∧ a ∉ w'.cache.nodes := by
    intro a ha
    refine ⟨by simpa using hgs.subset ha, ?_⟩
    intro hmem
    rw [hN, List.mem_reverse] at hmem
    have hnd : ((gcScan over w.cache.nodes.reverse).1 ++ (gcScan over w.cache.nodes.reverse).2).Nodup := by
      rw [hperm.nodup_iff, List.nodup_reverse]
      exact List.Nodup.of_map _ c.keys
    exact (List.nodup_append.mp hnd).2.2 a hmem a ha rfl
  refine ⟨?_, ?_, ?_⟩
  · intro a ha hna b hb hb0
    have hbm : b ∈ (gcScan over w.cache.nodes.reverse).1 := by rw [hN] at hb; simpa using hb
    have hbn : b ∈ w.cache.nodes := by simpa using hsub.subset hbm
    exact hord a (hin a ha hna) b hbm ((c.link b hbn).mpr (fun _ => hb0)) hb0
  · rintro ⟨a, ha, hna⟩
    have hne : (gcScan over w.cache.nodes.reverse).2 ≠ [] := List.ne_nil_of_mem (hin a ha hna)
    obtain ⟨init, g, hg⟩ : ∃ init g, (gcScan over w.cache.nodes.reverse).2 = init ++ [g] :=
      ⟨_, _, (List.dropLast_append_getLast hne).symm⟩
    have hgm : g ∈ (gcScan over w.cache.nodes.reverse).2 := by simp [hg]
    refine ⟨g, (hout g hgm).1, (hout g hgm).2, ?_, ?_⟩
    · have h3 := hmin init g [] hg
      have h4 : sumUnits (gcScan over w.cache.nodes.reverse).2 = sumUnits init + g.units := by
        rw [hg, sumUnits_append]; simp
      omega
    · intro x hx hnx
      have hxm := hin x hx hnx
      rw [hg] at hxm
      rcases List.mem_append.mp hxm with h5 | h5
      · have hpw := hring.sublist hgs
        rw [hg, List.pairwise_append] at hpw
        have hxg : x ∈ (gcScan over w.cache.nodes.reverse).2 := by rw [hg]; simp [h5]
        exact Nat.le_of_lt (hpw.2.2 x h5 g (by simp) (hgone x hxg) (hgone g hgm))
      · rw [List.mem_singleton] at h5; subst h5; exact Nat.le_refl _
  · intro b hb
    rw [hN, List.mem_reverse] at hb
    simpa using hsub.subset hb

/-- The state just before the eviction loop. -/
theorem pre_gc (r : Reach E cfg h w) {c : Call β} (hl : Legal cfg.lru h w.ext c)
    {w' : World (List Nat) β} {out : Option Nat} (hs : step E c w = .ok (w', out))
    {k0 : Bytes} (hc0 : EvictingFor k0 c) :
    ∃ w2, Core cfg.lru ({ call := c, out := out, time := w.now E } :: h) w2 ∧
      garbageCollect E.rel logDel w2 = .ok w' ∧
      w2.cache.maxUnits = maxSizeOf cfg ({ call := c, out := out, time := w.now E } :: h) ∧
      (∀ e ∈ w.cache.nodes, EvictingFor e.key c →
        ∃ e2 ∈ w2.cache.nodes, e2.key = e.key ∧ e2.ptr = e.ptr) ∧
      (∀ e2 ∈ w2.cache.nodes, e2.pin = 0 → EvictingFor e2.key c ∧
        ∃ e ∈ w.cache.nodes, e.key = e2.key ∧ e.ptr = e2.ptr) := by
  have hs' := step_imp E c w _ hs
  have g := r.rel.good
  have hmap : ∀ {x : Res (World (List Nat) β)} , x.map (·, (none : Option Nat)) = .ok (w', out) →
      x = .ok w' ∧ out = none := by
    intro x hx; cases x with
    | error e => cases hx
    | ok a => cases hx; exact ⟨rfl, rfl⟩
  cases c with
  | insertPinned k p v u =>
    obtain ⟨hs2, rfl⟩ := hmap hs'
    unfold insertPinned at hs2
    obtain ⟨w1, h1, r1, hk1, ht1⟩ := remove_removed E.rel g.core k
    obtain ⟨f1, _, hsub1⟩ := remove_fate E.rel g.core k h1
    have c1 := r1.core g.core
    have hp1 : (insertedPtrs h).count p = w1.ext.count p := by
      have h3 := c1.cnt p
      obtain ⟨l, hl'⟩ := f1.pre
      have hl2 : (insertedPtrs h).count p = w.ext.count p := hl
      rw [hl', List.count_append] at h3 ⊢
      omega
    have c2 := c1.add E.rel k p v u none hk1 hp1
    rw [show w1.now E.rel = w.now E by simp only [World.now, ht1]] at c2
    rw [h1] at hs2
    refine ⟨addPinned E.rel k p v u w1, c2, hs2, ?_, ?_, ?_⟩
    · show w1.cache.maxUnits = maxSizeOf cfg h
      rw [f1.max]; exact r.inv2.max
    · intro e he hek
      refine ⟨e, ?_, rfl, rfl⟩
      refine List.mem_cons_of_mem _ ?_
      unfold remove at h1
      cases hf : findKey k w.cache.nodes with
      | none => rw [hf] at h1; cases h1; exact he
      | some x =>
        rw [hf] at h1
        have hx := (findKey_iff g.core.keys).mp hf
        have hne : e.id ≠ x.id := by
          intro hid
          have : e = x := List.inj_on_of_nodup_map g.core.distinct.ids he hx.1 hid
          exact hek (by rw [this]; exact hx.2)
        have hmem : e ∈ dropId x.id w.cache.nodes := by
          simp [dropId, he, hne]
        simp only [removeElem] at h1
        split at h1
        · cases h1; exact hmem
        · simp only [discard, assertThat_rel (E := E.rel) rfl, bind, Except.bind, logDel] at h1
          cases h1; exact hmem
    · intro e2 he2 hp2
      rcases List.mem_cons.mp he2 with rfl | he2
      · cases hp2
      · exact ⟨hk1 e2 he2, e2, hsub1.subset he2, rfl, rfl⟩
  | updateSize k p u =>
    obtain ⟨hs2, rfl⟩ := hmap hs'
    have hx : (w.cache.defer.map (·.ptr)).Nodup := by
      have := g.core.ptrs
      rw [Cache.all, List.map_append, List.nodup_append] at this
      exact this.2.1
    obtain ⟨hmx, _, _, hnd⟩ := resize_facts k p u w.cache hx
    refine ⟨_, resize_core g.core k p u (w.now E), hs2, ?_, ?_, ?_⟩
    · exact hmx.trans r.inv2.max
    · intro e he _
      have hkeys : (resize k (some p) u w.cache).nodes.map (fun e => (e.key, e.ptr)) =
          w.cache.nodes.map (fun e => (e.key, e.ptr)) := by
        unfold resize
        split
        · rename_i x hxf
          have hxf' := (Option.filter_eq_some_iff.mp hxf).1
          obtain ⟨A, B, hn, _, hA⟩ := findKey_split hxf'
          have hd := g.core.distinct; rw [hn] at hd
          obtain ⟨hAi, hBi⟩ := mid_ids hd.ids
          simp only []
          rw [hn, setElem_mid (e := x) ({ x with units := u } : Elem β) rfl hAi hBi]
          simp
        · rfl
      have : (e.key, e.ptr) ∈ (resize k (some p) u w.cache).nodes.map (fun e => (e.key, e.ptr)) := by
        rw [hkeys]; exact List.mem_map_of_mem (f := fun e : Elem β => (e.key, e.ptr)) he
      obtain ⟨e2, he2, heq⟩ := List.mem_map.mp this
      simp only [Prod.mk.injEq] at heq
      exact ⟨e2, he2, heq.1, heq.2⟩
    · intro e2 he2 _
      obtain ⟨e, he, hk, hp, _⟩ := hnd e2 he2
      exact ⟨trivial, e, he, hk, hp⟩
  | setMaxSize n =>
    obtain ⟨hs2, rfl⟩ := hmap hs'
    refine ⟨{ w with cache := { w.cache with maxUnits := n } }, ?_, hs2, rfl,
      fun e he _ => ⟨e, he, rfl, rfl⟩, fun e he _ => ⟨trivial, e, he, rfl, rfl⟩⟩
    exact { mode := g.core.mode, keys := g.core.keys, ids := g.core.ids, fresh := g.core.fresh
            ptrs := g.core.ptrs, pinN := g.core.pinN, pinD := g.core.pinD, pins := g.core.pins
            heldz := g.core.heldz, units := g.core.units, pinned := g.core.pinned
            link := g.core.link, cnt := g.core.cnt, cur := g.core.cur, key := g.core.key
            uo := g.core.uo, ring := g.core.ring, time := g.core.time }
  | _ => exact hc0.elim

/-- Eviction order: an entry that is pushed out to make room was used (in age mode: inserted)
before every entry that stays unpinned. -/
theorem C28_evicts_least_recent (r : Reach E cfg h w) {c : Call β} (hl : Legal cfg.lru h w.ext c)
    {w' : World (List Nat) β} {out : Option Nat} (hs : step E c w = .ok (w', out))
    {ka kb : Bytes} {pa pb : Nat} (hc : EvictingFor ka c)
    (ha : present w ka = some pa) (ha' : present w' ka ≠ some pa)
    (hb' : present w' kb = some pb)
    (hb0 : held kb pb ({ call := c, out := out, time := w.now E } :: h) = 0) :
    stamp cfg.lru pa ({ call := c, out := out, time := w.now E } :: h) <
      stamp cfg.lru pb ({ call := c, out := out, time := w.now E } :: h) := by
  have r' : Reach E cfg ({ call := c, out := out, time := w.now E } :: h) w' := .call r hl hs
  obtain ⟨w2, c2, hgc, _, hto, _⟩ := pre_gc r hl hs hc
  obtain ⟨h1, _, h3⟩ := gc_evicts c2 hgc
  obtain ⟨a, han, rfl, rfl⟩ := (present_some r.good.core).mp ha
  obtain ⟨a2, ha2, hk2, hp2⟩ := hto a han hc
  obtain ⟨b, hbn, rfl, rfl⟩ := (present_some r'.good.core).mp hb'
  rw [← hp2]
  refine h1 a2 ha2 ?_ b hbn ?_
  · intro hmem
    exact ha' ((present_some r'.good.core).mpr ⟨a2, hmem, hk2, hp2⟩)
  · rw [r'.good.core.pins b (by simp [Cache.all, hbn])]; exact hb0

/-- Eviction is minimal: if anything is pushed out, then keeping the most recently used of the
evicted entries would have exceeded the capacity. -/
theorem C28_evicts_no_more_than_needed (r : Reach E cfg h w) {c : Call β}
    (hl : Legal cfg.lru h w.ext c)
    {w' : World (List Nat) β} {out : Option Nat} (hs : step E c w = .ok (w', out))
    {ka : Bytes} {pa : Nat} (hc : EvictingFor ka c)
    (ha : present w ka = some pa) (ha' : present w' ka ≠ some pa) :
    ∃ kg pg, EvictingFor kg c ∧ present w kg = some pg ∧ present w' kg ≠ some pg ∧
      maxSizeOf cfg ({ call := c, out := out, time := w.now E } :: h) <
        w'.cache.size + unitsOf pg ({ call := c, out := out, time := w.now E } :: h) ∧
      stamp cfg.lru pa ({ call := c, out := out, time := w.now E } :: h) ≤
        stamp cfg.lru pg ({ call := c, out := out, time := w.now E } :: h) := by
  have r' : Reach E cfg ({ call := c, out := out, time := w.now E } :: h) w' := .call r hl hs
  obtain ⟨w2, c2, hgc, hmx, hto, hfrom⟩ := pre_gc r hl hs hc
  obtain ⟨_, h2, hback⟩ := gc_evicts c2 hgc
  obtain ⟨_, _, _, hgoneP, _⟩ := gc_removed (E := E.rel) c2
  obtain ⟨a, han, rfl, rfl⟩ := (present_some r.good.core).mp ha
  obtain ⟨a2, ha2, hk2, hp2⟩ := hto a han hc
  have hna2 : a2 ∉ w'.cache.nodes := fun hmem =>
    ha' ((present_some r'.good.core).mpr ⟨a2, hmem, hk2, hp2⟩)
  obtain ⟨g, hgn, hgo, hgu, hgs⟩ := h2 ⟨a2, ha2, hna2⟩
  have hg0 : g.pin = 0 := by
    -- only unpinned entries leave
    obtain ⟨w3, h3, _, _, heq⟩ := gc_removed (E := E.rel) c2
    rw [h3] at hgc; cases hgc
    have hperm := gcScan_perm w2.cache.nodes.reverse (w2.cache.units - w2.cache.maxUnits)
    have hin := hperm.symm.subset (show g ∈ w2.cache.nodes.reverse by simpa using hgn)
    rcases List.mem_append.mp hin with h4 | h4
    · exfalso; apply hgo; rw [heq]; simpa [rmWorld] using h4
    · exact (gcScan_gone _ _ g h4).2
  obtain ⟨hce, e, hen, hke, hpe⟩ := hfrom g hgn hg0
  refine ⟨g.key, g.ptr, hce, (present_some r.good.core).mpr ⟨e, hen, hke, hpe⟩, ?_, ?_, ?_⟩
  · intro hpres
    obtain ⟨x, hx, hxk, hxp⟩ := (present_some r'.good.core).mp hpres
    have hxn := hback x hx
    have : x = g := List.inj_on_of_nodup_map c2.keys hxn hgn hxk
    exact hgo (this ▸ hx)
  · rw [← hmx, c2.uo g (by simp [Cache.all, hgn])]
    exact hgu
  · rw [← hp2]; exact hgs a2 ha2 hna2

/-! ### C29 -/

/-- The effect of `RemoveExpiredEntries` (and of the sweep at the start of `Lookup`) on an entry
that the sweep can see: it goes exactly if it has expired. -/
theorem sweep_exact (m : Mono E.clk) (r : Reach E cfg h w) {w1 : World (List Nat) β}
    (h1 : removeExpired E logDel w = .ok w1) {k : Bytes} {p : Nat} (hp : present w k = some p)
    (hun : cfg.lru = true → held k p h = 0) :
    (expiredAt cfg h p (w.now E) → present w1 k = none) ∧
    (¬ expiredAt cfg h p (w.now E) → present w1 k = some p) := by
  have c := r.good.core
  obtain ⟨w2, h2, rm, heq⟩ := removeExpired_pure (Or.inr m) r.good
  rw [h2] at h1; cases h1
  obtain ⟨e, he, rfl, rfl⟩ := (present_some c).mp hp
  have hlink : e.linked = true := (c.link e he).mpr (fun hb => by
    rw [c.pins e (by simp [Cache.all, he])]; exact hun hb)
  have hnone : e ∉ w1.cache.nodes → present w1 e.key = none := by
    intro hne
    cases hpr : present w1 e.key with
    | none => rfl
    | some q =>
      obtain ⟨x, hx, hxk, _⟩ := (present_some (rm.core c)).mp hpr
      have : x = e := List.inj_on_of_nodup_map c.keys (rm.sub.subset hx) he hxk
      exact absurd (this ▸ hx) hne
  have hsome : e ∈ w1.cache.nodes → present w1 e.key = some e.ptr :=
    fun hm => (present_some (rm.core c)).mpr ⟨e, hm, rfl, rfl⟩
  constructor
  · rintro ⟨n, hn, hlt⟩
    apply hnone
    have hmi : w.cache.maxIdle = n := by have := r.good.idle; rw [hn] at this; exact this
    rw [heq, if_pos (by omega)]
    intro hmem
    have h3 : e ∈ (idleScan (w.now E - w.cache.maxIdle) w.cache.nodes.reverse).1 := by
      simpa [rmWorld] using hmem
    have h4 := idleScan_kept _ _ (rev_pairwise_sorted (r.good.sorted m)) e h3 hlink
    rw [c.time e he] at h4
    omega
  · intro hnot
    apply hsome
    rw [heq]
    split
    · rename_i hm
      have hperm := idleScan_perm (w.now E - w.cache.maxIdle) w.cache.nodes.reverse
      have hin := hperm.symm.subset (show e ∈ w.cache.nodes.reverse by simpa using he)
      rcases List.mem_append.mp hin with h3 | h3
      · simpa [rmWorld] using h3
      · exfalso
        have h4 := (idleScan_gone _ _ e h3).2
        rw [c.time e he] at h4
        cases hlim : cfg.limit with
        | none =>
          have := r.good.idle
          rw [hlim] at this; simp only at this; omega
        | some n =>
          have := r.good.idle
          rw [hlim] at this; simp only at this
          exact hnot ⟨n, hlim, by omega⟩
    · exact he

/-- A lookup never returns an expired entry, unless (LRU mode) somebody held a pin on it. -/
theorem C29_lookup_not_expired (m : Mono E.clk) (r : Reach E cfg h w) {upd : Bool} {k : Bytes}
    {w' : World (List Nat) β} {p : Nat}
    (hs : step E (.lookup upd k) w = .ok (w', some p)) (hun : cfg.lru = true → held k p h = 0) :
    ¬ expiredAt cfg h p (w.now E) := by
  intro hx
  obtain ⟨w1, h1, ho⟩ := lookup_out hs
  have c := r.good.core
  obtain ⟨w2, h2, rm, _⟩ := removeExpired_pure (Or.inr m) r.good
  rw [h2] at h1; cases h1
  obtain ⟨e, he, rfl, rfl⟩ := (present_some (rm.core c)).mp ho.symm
  have hp : present w e.key = some e.ptr :=
    (present_some c).mpr ⟨e, rm.sub.subset he, rfl, rfl⟩
  have := (sweep_exact m r h2 hp hun).1 hx
  rw [this] at ho; cases ho

/-- `RemoveExpiredEntries` removes exactly the expired entries (in LRU mode, of the unpinned
ones), and leaves the pinned ones of LRU mode alone. -/
theorem C29_removeExpired_exact (m : Mono E.clk) (r : Reach E cfg h w)
    {w' : World (List Nat) β} {out : Option Nat} (hs : step E .removeExpired w = .ok (w', out))
    {k : Bytes} {p : Nat} (hp : present w k = some p) :
    ((cfg.lru = true → held k p h = 0) →
      (present w' k = none ↔ expiredAt cfg h p (w.now E)) ∧
      (¬ expiredAt cfg h p (w.now E) → present w' k = some p)) ∧
    (cfg.lru = true → 0 < held k p h → present w' k = some p) := by
  have h1 : removeExpired E logDel w = .ok w' := by
    simp only [step] at hs
    cases hx : removeExpired E logDel w with
    | error e => rw [hx] at hs; cases hs
    | ok a => rw [hx] at hs; cases hs; rfl
  refine ⟨?_, ?_⟩
  · intro hun
    obtain ⟨ha, hb⟩ := sweep_exact m r h1 hp hun
    refine ⟨⟨?_, ha⟩, hb⟩
    intro hn
    by_contra hne
    rw [hb hne] at hn; cases hn
  · intro hb hh
    have c := r.good.core
    obtain ⟨w2, h2, rm, heq⟩ := removeExpired_pure (Or.inr m) r.good
    rw [h2] at h1; cases h1
    obtain ⟨e, he, rfl, rfl⟩ := (present_some c).mp hp
    refine (present_some (rm.core c)).mpr ⟨e, ?_, rfl, rfl⟩
    rw [heq]
    split
    · have hperm := idleScan_perm (w.now E - w.cache.maxIdle) w.cache.nodes.reverse
      have hin := hperm.symm.subset (show e ∈ w.cache.nodes.reverse by simpa using he)
      rcases List.mem_append.mp hin with h3 | h3
      · simpa [rmWorld] using h3
      · exfalso
        have h4 := (idleScan_gone _ _ e h3).1
        have h5 := (c.link e he).mp h4 hb
        rw [c.pins e (by simp [Cache.all, he])] at h5
        omega
    · exact he

/-! ### C30 -/

/-- Every legal call succeeds: in a release build with any clock and in a debug build with a clock
that does not go backwards, no assertion fails, nothing freed is used, no loop runs away. -/
theorem C30_legal_call_succeeds (hE : E.dbg = false ∨ Mono E.clk) (r : Reach E cfg h w) {c : Call β}
    (hl : Legal cfg.lru h w.ext c) : ∃ w' out, step E c w = .ok (w', out) := by
  obtain ⟨w', out, h1, _⟩ := step_good hE r.good c hl
  exact ⟨w', out, h1⟩

/-- Configuring a new cache succeeds. -/
theorem C30_configure_succeeds (E : Env) (cfg : Config) :
    ∃ w : World (List Nat) β, Reach E cfg [] w := by
  obtain ⟨w, h1, _⟩ := init_good (β := β) E cfg
  exact ⟨w, .init h1⟩

/-! ### Non-vacuity: concrete histories -/

/-- A checkable form of `Legal` (`Clear` is left out). -/
def legalB (lru : Bool) (h : Hist β) (deleted : List Nat) : Call β → Bool
  | .insertPinned _ p _ _ => (insertedPtrs h).count p == deleted.count p
  | .lookup upd _ => !lru || upd
  | .release upd k p => decide (0 < held k p h) && (!lru || upd)
  | .write p _ => match keyOf p h with
    | some k => decide (0 < held k p h)
    | none => false
  | .clear => false
  | _ => true

theorem legalB_sound {lru : Bool} {h : Hist β} {d : List Nat} {c : Call β}
    (hb : legalB lru h d c = true) : Legal lru h d c := by
  cases c with
  | insertPinned k p v u => simpa [legalB, Legal] using hb
  | lookup upd k => simp [legalB] at hb; intro hl; simpa [hl] using hb
  | release upd k p =>
    simp [legalB] at hb
    exact ⟨hb.1, fun hl => by simpa [hl] using hb.2⟩
  | write p v =>
    simp only [legalB] at hb
    split at hb
    · rename_i k _; exact ⟨k, by simpa using hb⟩
    · cases hb
  | clear => cases hb
  | _ => trivial

/-- Run calls, stopping at the first illegal one. -/
def runLegal (E : Env) (cfg : Config) : List (Call β) → Option (Hist β × World (List Nat) β)
  | [] =>
    match setTimeout E logDel cfg.cycles cfg.lru
      { cache := Cache.new cfg.maxUnits, tick := 0, ext := [] } with
    | .ok w => some ([], w)
    | .error _ => none
  | c :: cs =>
    match runLegal E cfg cs with
    | none => none
    | some (h, w) =>
      if legalB cfg.lru h w.ext c then
        match step E c w with
        | .ok (w', out) => some ({ call := c, out := out, time := w.now E } :: h, w')
        | .error _ => none
      else none

theorem runLegal_reach (cs : List (Call β)) : ∀ {h : Hist β} {w : World (List Nat) β},
    runLegal E cfg cs = some (h, w) → Reach E cfg h w := by
  induction cs with
  | nil =>
    intro h w hr
    simp only [runLegal] at hr
    split at hr
    · rename_i w1 h1; cases hr; exact .init h1
    · cases hr
  | cons c cs ih =>
    intro h w hr
    simp only [runLegal] at hr
    split at hr
    · cases hr
    · rename_i h1 w1 h2
      split at hr
      · rename_i hl
        split at hr
        · rename_i w2 out hs; cases hr; exact .call (ih h2) (legalB_sound hl) hs
        · cases hr
      · cases hr

/-- A debug build with a clock that ticks once per reading. -/
def sampleEnv : Env := { clk := fun n => n, dbg := true, extraFuel := 0, order := UMapOrder.insertion }

theorem sampleEnv_mono : Mono sampleEnv.clk :=
  ⟨Int.le_refl _, fun i => by simp only [sampleEnv]; omega⟩

/-- Capacity 3, LRU mode, idle limit 10 readings. -/
def sampleCfg : Config := { maxUnits := 3, limit := some 10, lru := true }

def sampleKey (n : Nat) : Bytes := List.replicate n 0

/-- Three entries, `1` used again after `2` and `3`; then a fourth one pushes out `2`; `3` is
pinned by a reader while it is removed. -/
def sampleCalls : List (Call Nat) :=
  [.remove (sampleKey 3), .lookup true (sampleKey 3),
   .insertPinned (sampleKey 4) 14 0 1,
   .release true (sampleKey 1) 11, .lookup true (sampleKey 1),
   .release true (sampleKey 3) 13, .insertPinned (sampleKey 3) 13 0 1,
   .release true (sampleKey 2) 12, .insertPinned (sampleKey 2) 12 0 1,
   .release true (sampleKey 1) 11, .insertPinned (sampleKey 1) 11 0 1]

def sampleRun : Option (Hist Nat × World (List Nat) Nat) := runLegal sampleEnv sampleCfg sampleCalls

/-- The hypotheses of the theorems above are met by a reachable state in which a value was
evicted (`12`), one is pinned but removed (`13`), one is pinned (`14`) and one is idle (`11`). -/
example : ∃ h w, sampleRun = some (h, w) ∧ Reach sampleEnv sampleCfg h w ∧
    w.ext = [12] ∧ w.cache.size = 3 ∧ w.cache.entries = 2 ∧ w.cache.pinnedSize = 1 ∧
    held (sampleKey 3) 13 h = 1 ∧ present w (sampleKey 3) = none ∧
    present w (sampleKey 1) = some 11 ∧ held (sampleKey 1) 11 h = 0 := by
  have hr : ∃ h w, sampleRun = some (h, w) ∧
    w.ext = [12] ∧ w.cache.size = 3 ∧ w.cache.entries = 2 ∧ w.cache.pinnedSize = 1 ∧
    held (sampleKey 3) 13 h = 1 ∧ present w (sampleKey 3) = none ∧
    present w (sampleKey 1) = some 11 ∧ held (sampleKey 1) 11 h = 0 :=
    ⟨_, _, rfl, by decide⟩
  obtain ⟨h, w, h1, h2⟩ := hr
  exact ⟨h, w, h1, runLegal_reach _ h1, h2⟩

/-- An eviction with survivors, as `C28_evicts_least_recent` requires. -/
example : ∃ h w w' out, runLegal sampleEnv sampleCfg (sampleCalls.drop 3) = some (h, w) ∧
    step sampleEnv (.insertPinned (sampleKey 4) 14 0 1) w = .ok (w', out) ∧
    present w (sampleKey 2) = some 12 ∧ present w' (sampleKey 2) = none ∧
    present w' (sampleKey 1) = some 11 ∧
    held (sampleKey 1) 11 ({ call := .insertPinned (sampleKey 4) 14 0 1, out := out, time := w.now sampleEnv } :: h) = 0 :=
  ⟨_, _, _, _, rfl, rfl, by decide⟩

/-- An entry that expires between its last use and a later sweep, as the C29 theorems require. -/
example : ∃ h w w' out,
    runLegal sampleEnv { sampleCfg with limit := some 1 }
      ([.removeExpired, .release true (sampleKey 1) 11, .insertPinned (sampleKey 1) 11 0 1] : List (Call Nat))
        = some (h, w) ∧
    present w (sampleKey 1) = some 11 ∧
    step sampleEnv .removeExpired w = .ok (w', out) ∧ present w' (sampleKey 1) = none :=
  ⟨_, _, _, _, rfl, by decide, rfl, by decide⟩

/-! ### What happens outside the protocol -/

/-- Run calls without checking the protocol. -/
def runAny (E : Env) (cfg : Config) (cs : List (Call β)) : Res (World (List Nat) β) :=
  cs.foldlM (fun w c => (step E c w).map (·.1))
    { cache := { (Cache.new cfg.maxUnits : Cache β) with lru := cfg.lru }, tick := 0, ext := [] }

/-- Overlapping lookups of one entry with different `update_eviction_order` options break the
cache in LRU mode even though every release matches its lookup, options included: in one order
an element that is already linked is linked again. -/
theorem C30_false_mixed_options_corrupt :
    runAny { sampleEnv with dbg := false } sampleCfg
      ([.insertPinned (sampleKey 1) 11 0 1, .release true (sampleKey 1) 11,
        .lookup false (sampleKey 1), .lookup true (sampleKey 1),
        .release false (sampleKey 1) 11, .release true (sampleKey 1) 11] : List (Call Nat)) =
      .error .listCorrupt := by decide

/-- In the other order the entry falls out of the ring for good: it can no longer be evicted and
the cache stays over capacity with no pin outstanding. -/
theorem C30_false_mixed_options_stuck :
    ∃ w, runAny { sampleEnv with dbg := false } { sampleCfg with maxUnits := 3 }
      ([.insertPinned (sampleKey 1) 11 0 1, .release true (sampleKey 1) 11,
        .lookup true (sampleKey 1), .lookup false (sampleKey 1),
        .release true (sampleKey 1) 11, .release false (sampleKey 1) 11,
        .setMaxSize 0] : List (Call Nat)) = .ok w ∧
      w.cache.size = 1 ∧ w.cache.maxUnits = 0 ∧ w.cache.pinnedSize = 0 ∧ w.cache.defer = [] :=
  ⟨_, rfl, by decide⟩

/-- A pinned entry is returned by a second lookup in LRU mode however long ago it was last used:
the unrestricted form of C29 fails. -/
theorem C29_false_pinned :
    ∃ h w w', runLegal sampleEnv { sampleCfg with limit := some 0 }
        ([.removeExpired, .removeExpired, .insertPinned (sampleKey 1) 11 0 1] : List (Call Nat))
          = some (h, w) ∧
      touchTime true 11 h + 0 < w.now sampleEnv ∧
      step sampleEnv (.lookup true (sampleKey 1)) w = .ok (w', some 11) :=
  ⟨_, _, _, rfl, by decide, rfl⟩

/-- A debug build asserts that entries expire in the order of their last use; a clock that goes
backwards fails the assertion. -/
theorem C30_false_backwards_clock :
    ∃ w, runAny { sampleEnv with clk := fun n => if n = 0 then 50 else if n = 1 then 5 else 1000 }
      { sampleCfg with limit := none, lru := false }
      ([.insertPinned (sampleKey 1) 11 0 1, .insertPinned (sampleKey 2) 12 0 1] : List (Call Nat))
        = .ok w ∧
      discardIdle { sampleEnv with clk := fun n => if n = 0 then 50 else if n = 1 then 5 else 1000 }
        logDel 10 w = .error .assertFail :=
  ⟨_, rfl, rfl⟩

end Verif.Lru
