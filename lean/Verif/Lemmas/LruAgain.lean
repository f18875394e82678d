import Verif.Lemmas.LruStep
/-
Setting the idle limit and the eviction mode of a cache in use: the cache is one into which its
entries were just inserted.
-/
namespace Verif.Lru

variable {β : Type}

theorem held_reinserted (k : Bytes) (p : Nat) (l : List (Entry β)) : held k p (reinserted l) = 0 := by
  induction l with
  | nil => rfl
  | cons e l ih => simp only [reinserted, held, ih]; omega

theorem insertedPtrs_reinserted (l : List (Entry β)) : insertedPtrs (reinserted l) = l.map (·.ptr) := by
  induction l with
  | nil => rfl
  | cons e l ih => simp only [reinserted, insertedPtrs, ih, List.map_cons]

theorem length_reinserted (l : List (Entry β)) : (reinserted l).length = 2 * l.length := by
  induction l with
  | nil => rfl
  | cons e l ih => simp only [reinserted, List.length_cons, ih]; omega

theorem maxSizeOf_reinserted (cfg : Config) (l : List (Entry β)) :
    maxSizeOf cfg (reinserted l) = cfg.maxUnits := by
  induction l with
  | nil => rfl
  | cons e l ih => simp only [reinserted, maxSizeOf, ih]

theorem current_reinserted {l : List (Entry β)} (hn : (l.map (·.key)).Nodup) :
    ∀ e ∈ l, current e.key (reinserted l) = some e.ptr := by
  induction l with
  | nil => simp
  | cons x l ih =>
    rw [List.map_cons, List.nodup_cons] at hn
    intro e he
    simp only [reinserted, current]
    rcases List.mem_cons.mp he with rfl | he
    · simp
    · have : x.key ≠ e.key := fun h => hn.1 (h ▸ List.mem_map_of_mem he)
      rw [if_neg this]; exact ih hn.2 e he

theorem current_reinserted_none {l : List (Entry β)} {k : Bytes} (hk : ∀ e ∈ l, e.key ≠ k) :
    current k (reinserted l) = none := by
  induction l with
  | nil => rfl
  | cons x l ih =>
    simp only [reinserted, current]
    rw [if_neg (hk x (by simp))]; exact ih (fun e he => hk e (by simp [he]))

theorem keyOf_reinserted {l : List (Entry β)} (hn : (l.map (·.ptr)).Nodup) :
    ∀ e ∈ l, keyOf e.ptr (reinserted l) = some e.key := by
  induction l with
  | nil => simp
  | cons x l ih =>
    rw [List.map_cons, List.nodup_cons] at hn
    intro e he
    simp only [reinserted, keyOf]
    rcases List.mem_cons.mp he with rfl | he
    · simp
    · have : x.ptr ≠ e.ptr := fun h => hn.1 (h ▸ List.mem_map_of_mem he)
      rw [if_neg this]; exact ih hn.2 e he

theorem unitsOf_reinserted {l : List (Entry β)} (hn : (l.map (·.ptr)).Nodup) :
    ∀ e ∈ l, unitsOf e.ptr (reinserted l) = e.units := by
  induction l with
  | nil => simp
  | cons x l ih =>
    rw [List.map_cons, List.nodup_cons] at hn
    intro e he
    simp only [reinserted, unitsOf]
    rcases List.mem_cons.mp he with rfl | he
    · simp
    · have : x.ptr ≠ e.ptr := fun h => hn.1 (h ▸ List.mem_map_of_mem he)
      rw [if_neg this]; exact ih hn.2 e he

theorem touchTime_reinserted (lru : Bool) {l : List (Entry β)} (hn : (l.map (·.ptr)).Nodup) :
    ∀ e ∈ l, touchTime lru e.ptr (reinserted l) = e.lastUse := by
  induction l with
  | nil => simp
  | cons x l ih =>
    rw [List.map_cons, List.nodup_cons] at hn
    intro e he
    simp only [reinserted, touchTime, touches]
    rcases List.mem_cons.mp he with rfl | he
    · simp
    · have : (x.ptr == e.ptr) = false := by
        have hne : x.ptr ≠ e.ptr := fun h => hn.1 (h ▸ List.mem_map_of_mem he)
        simpa using hne
      simp only [this, Bool.and_false, Bool.false_eq_true, if_false]
      exact ih hn.2 e he

theorem stamp_reinserted (lru : Bool) {l : List (Entry β)} (hn : (l.map (·.ptr)).Nodup) :
    l.Pairwise (fun a b => stamp lru b.ptr (reinserted l) < stamp lru a.ptr (reinserted l)) := by
  induction l with
  | nil => exact List.Pairwise.nil
  | cons x l ih =>
    rw [List.map_cons, List.nodup_cons] at hn
    have hne : ∀ e ∈ l, stamp lru e.ptr (reinserted (x :: l)) = stamp lru e.ptr (reinserted l) := by
      intro e he
      have : (x.ptr == e.ptr) = false := by
        have hne : x.ptr ≠ e.ptr := fun h => hn.1 (h ▸ List.mem_map_of_mem he)
        simpa using hne
      simp only [reinserted, stamp, touches, this, Bool.and_false, Bool.false_eq_true, if_false]
    have hx : (reinserted l).length < stamp lru x.ptr (reinserted (x :: l)) := by
      simp only [reinserted, stamp, touches, List.length_cons, beq_self_eq_true, if_true]
      split <;> omega
    refine List.pairwise_cons.mpr ⟨fun e he => ?_, (ih hn.2).imp_of_mem ?_⟩
    · rw [hne e he]; exact Nat.lt_of_le_of_lt (stamp_le _ _ _) hx
    · intro a b ha hb hab; rw [hne a ha, hne b hb]; exact hab

theorem mem_reinserted {l : List (Entry β)} {ev : Event β} (h : ev ∈ reinserted l) :
    ∃ e ∈ l, ev.time = e.lastUse := by
  induction l with
  | nil => cases h
  | cons x l ih =>
    simp only [reinserted, List.mem_cons] at h
    rcases h with rfl | rfl | h
    · exact ⟨x, by simp, rfl⟩
    · exact ⟨x, by simp, rfl⟩
    · obtain ⟨e, he, h2⟩ := ih h
      exact ⟨e, by simp [he], h2⟩

theorem order_reinserted {l : List (Entry β)} (hs : l.Pairwise (fun a b => b.lastUse ≤ a.lastUse)) :
    (reinserted l).Pairwise (fun a b => b.time ≤ a.time) := by
  induction l with
  | nil => exact List.Pairwise.nil
  | cons x l ih =>
    have h := List.pairwise_cons.mp hs
    have hx : ∀ ev ∈ reinserted l, ev.time ≤ x.lastUse := by
      intro ev hev
      obtain ⟨e, he, h2⟩ := mem_reinserted hev
      rw [h2]; exact h.1 e he
    simp only [reinserted]
    refine List.pairwise_cons.mpr ⟨fun ev hev => ?_, List.pairwise_cons.mpr ⟨hx, ih h.2⟩⟩
    rcases List.mem_cons.mp hev with rfl | hev
    · exact Int.le_refl _
    · exact hx ev hev

section
variable {E : Env} {cfg cfg' : Config} {h : Hist β} {w : World (List Nat) β}

/-- No pins: nothing is deferred, and every entry is unpinned and on the chain. -/
theorem Core.unpinned (c : Core cfg.lru h w) (hp : ∀ k p, held k p h = 0) :
    w.cache.defer = [] ∧ ∀ e ∈ w.cache.nodes, e.pin = 0 ∧ e.linked = true := by
  constructor
  · cases hd : w.cache.defer with
    | nil => rfl
    | cons e l =>
      have h1 := c.pinD e (by simp [hd])
      have h2 := c.pins e (by simp [Cache.all, hd])
      rw [hp] at h2; omega
  · intro e he
    have h2 : e.pin = 0 := by rw [c.pins e (by simp [Cache.all, he]), hp]
    exact ⟨h2, (c.link e he).mpr (fun _ => h2)⟩

theorem Core.again (c : Core cfg.lru h w) (hp : ∀ k p, held k p h = 0) (lru : Bool) (m : Int) :
    Core lru (reinserted (w.cache.nodes.map Elem.entry))
      { w with cache := { w.cache with lru := lru, maxIdle := m }, ext := [] } := by
  obtain ⟨hd, hl⟩ := c.unpinned hp
  have hall : w.cache.all = w.cache.nodes := by simp [Cache.all, hd]
  have hkeys : ((w.cache.nodes.map Elem.entry).map (·.key)).Nodup := by
    rw [List.map_map]; exact c.keys
  have hptrs : ((w.cache.nodes.map Elem.entry).map (·.ptr)).Nodup := by
    have := c.ptrs; rw [hall] at this
    rw [List.map_map]; exact this
  have mem : ∀ {e}, e ∈ w.cache.nodes → e.entry ∈ w.cache.nodes.map Elem.entry :=
    fun he => List.mem_map_of_mem he
  exact
    { mode := rfl, keys := c.keys, ids := c.ids, fresh := c.fresh, ptrs := c.ptrs, pinN := c.pinN,
      pinD := c.pinD
      pins := by
        intro e he
        have he' : e ∈ w.cache.nodes := by rw [← hall]; exact he
        rw [held_reinserted]; exact (hl e he').1
      heldz := fun k p _ => held_reinserted k p _
      units := c.units, pinned := c.pinned
      link := fun e he => ⟨fun _ _ => (hl e he).1, fun _ => (hl e he).2⟩
      cnt := by
        intro p
        rw [insertedPtrs_reinserted, List.map_map]
        show _ = List.count p [] + (w.cache.all.map (·.ptr)).count p
        rw [hall, List.count_nil, Nat.zero_add]; rfl
      cur := fun e he => current_reinserted hkeys _ (mem he)
      key := by
        intro e he
        have he' : e ∈ w.cache.nodes := by rw [← hall]; exact he
        exact keyOf_reinserted hptrs _ (mem he')
      uo := by
        intro e he
        have he' : e ∈ w.cache.nodes := by rw [← hall]; exact he
        exact unitsOf_reinserted hptrs _ (mem he')
      ring := by
        have := stamp_reinserted lru hptrs
        rw [List.pairwise_map] at this
        exact this.imp (fun hab _ _ => hab)
      time := fun e he => (touchTime_reinserted lru hptrs _ (mem he)).symm }

theorem again_good (hE : Sound E) (g : Good E cfg h w) (hp : ∀ k p, held k p h = 0)
    (hm : cfg.limit = none ∨ cfg'.limit = none ∨ cfg'.lru = cfg.lru) :
    ∃ w', setTimeout E logDel cfg'.cycles cfg'.lru { w with ext := [] } = .ok w' ∧
      Good E cfg' (reinserted (w.cache.nodes.map Elem.entry)) w' ∧
      w'.cache.maxUnits = w.cache.maxUnits := by
  have hu := (g.core.unpinned hp).2
  have base : ∀ m : Int, m = (match cfg'.limit with | none => -1 | some n => (n : Int)) →
      Good E cfg' (reinserted (w.cache.nodes.map Elem.entry))
        { w with cache := { w.cache with lru := cfg'.lru, maxIdle := m }, ext := [] } := by
    intro m hmm
    refine ⟨g.core.again hp _ _, g.cap, hmm, fun mo => ?_⟩
    have T := g.times mo
    refine ⟨order_reinserted ?_, ?_⟩
    · rw [List.pairwise_map]
      refine (g.sorted mo).imp_of_mem ?_
      intro a b ha hb hab; exact hab (hu a ha).2 (hu b hb).2
    · intro ev hev
      obtain ⟨x, hx, h2⟩ := mem_reinserted hev
      obtain ⟨e, he, rfl⟩ := List.mem_map.mp hx
      rw [h2]
      show 0 ≤ e.lastUse ∧ e.lastUse ≤ _
      rw [g.core.time e he]
      exact touchTime_range T (now_mono mo) cfg.lru e.ptr
  cases hlim : cfg'.limit with
  | none =>
    simp only [Config.cycles, hlim]
    exact ⟨_, rfl, base _ (by rw [hlim]), rfl⟩
  | some n =>
    have hb : ¬ (w.cache.maxIdle ≥ 0 ∧ cfg'.lru ≠ w.cache.lru) := by
      rintro ⟨h1, h2⟩
      rcases hm with hm | hm | hm
      · have := g.idle; rw [hm] at this; simp only at this; omega
      · rw [hlim] at hm; cases hm
      · rw [g.core.mode] at h2; exact h2 hm
    have g1 := base n (by rw [hlim])
    obtain ⟨w', h1, r, _⟩ := removeExpired_pure hE g1
    refine ⟨w', ?_, ⟨r.core g1.core, r.cap g1.cap, by rw [r.maxIdle]; exact g1.idle, fun mo => ?_⟩, r.maxUnits⟩
    · simp only [Config.cycles, hlim, setTimeout]
      rw [if_neg hb]
      have hn : (Int.ofNat n) ≥ 0 := Int.natCast_nonneg n
      exact (if_pos hn).symm.trans h1
    · have T := g1.times mo
      exact ⟨T.order, fun ev hev => ⟨(T.range ev hev).1, Int.le_trans (T.range ev hev).2 (mo.le r.tick_le)⟩⟩

/-- The log only grows. -/
theorem again_log (hE : Sound E) (g : Good E cfg h w) (hp : ∀ k p, held k p h = 0)
    (hm : cfg.limit = none ∨ cfg'.limit = none ∨ cfg'.lru = cfg.lru) {w' : World (List Nat) β}
    (hs : setTimeout E logDel cfg'.cycles cfg'.lru { w with ext := [] } = .ok w') :
    setTimeout E logDel cfg'.cycles cfg'.lru w = .ok { w' with ext := w.ext ++ w'.ext } := by
  obtain ⟨_, hu⟩ := g.core.unpinned hp
  cases hlim : cfg'.limit with
  | none =>
    simp only [Config.cycles, hlim, setTimeout] at hs ⊢
    cases hs
    simp
  | some n =>
    have hb : ¬ (w.cache.maxIdle ≥ 0 ∧ cfg'.lru ≠ w.cache.lru) := by
      rintro ⟨h1, h2⟩
      rcases hm with hm | hm | hm
      · have := g.idle; rw [hm] at this; simp only at this; omega
      · rw [hlim] at hm; cases hm
      · rw [g.core.mode] at h2; exact h2 hm
    have has : E.dbg = true →
        idleAsserts cfg'.lru (E.clk w.tick - Int.ofNat n) 0 w.cache.nodes.reverse := by
      intro hd
      have m : Mono E.clk := by
        rcases hE with h' | h'
        · rw [h'] at hd; cases hd
        · exact h'
      have T := g.times m
      refine idleAsserts_of_sorted _ _ _ _ (rev_pairwise_sorted (g.sorted m)) ?_ ?_
      · intro e he _
        have he' : e ∈ w.cache.nodes := by simpa using he
        rw [g.core.time e he']
        have := (touchTime_range T (now_mono m) cfg.lru e.ptr).1
        omega
      · intro _ e he _
        exact (hu e (by simpa using he)).1
    simp only [Config.cycles, hlim, setTimeout] at hs ⊢
    rw [if_neg hb, logDel_eq] at hs ⊢
    have key : ∀ x : List Nat, _ := fun x => discardIdle_pure E logF (Int.ofNat n)
      { w with cache := { w.cache with lru := cfg'.lru, maxIdle := Int.ofNat n }, ext := x }
      g.core.distinct g.core.pinN (Int.natCast_nonneg n) has
    have k0 := key []
    rw [hs] at k0
    cases k0
    refine (key w.ext).trans ?_
    simp only [rmWorld, World.ticked, logF_foldl, List.nil_append, World.now]

/-- The cache with another idle limit. -/
def relim (m : Int) (w : World (List Nat) β) : World (List Nat) β := { w with cache := { w.cache with maxIdle := m } }

theorem limit_eq (g : Good E cfg h w) (hl : cfg'.lru = cfg.lru) :
    setTimeout E logDel cfg'.cycles cfg'.lru w =
      match cfg'.limit with
      | none => .ok (relim (-1) w)
      | some n => removeExpired E logDel (relim n w) := by
  have hm : cfg'.lru = w.cache.lru := hl.trans g.core.mode.symm
  cases hlim : cfg'.limit with
  | none => simp only [Config.cycles, hlim, setTimeout, hm]; rfl
  | some n =>
    simp only [Config.cycles, hlim, setTimeout, hm]
    rw [if_neg (by simp)]
    have hn : (Int.ofNat n) ≥ 0 := Int.natCast_nonneg n
    exact (if_pos hn).symm

theorem relim_good (g : Good E cfg h w) (hl : cfg'.lru = cfg.lru) :
    Good E cfg' h (relim (match cfg'.limit with | none => -1 | some n => (n : Int)) w) := by
  refine ⟨?_, g.cap, rfl, g.times⟩
  rw [hl]
  have c := g.core
  exact
    { mode := c.mode, keys := c.keys, ids := c.ids, fresh := c.fresh, ptrs := c.ptrs, pinN := c.pinN, pinD := c.pinD,
      pins := c.pins, heldz := c.heldz, units := c.units, pinned := c.pinned, link := c.link, cnt := c.cnt, cur := c.cur,
      key := c.key, uo := c.uo, ring := c.ring, time := c.time }

/-- Setting the limit is changing it, and then removing what is expired. -/
theorem limit_step (g : Good E cfg h w) (hl : cfg'.lru = cfg.lru) {w' : World (List Nat) β}
    (hs : setTimeout E logDel cfg'.cycles cfg'.lru w = .ok w') :
    (cfg'.limit = none ∧ w' = relim (-1) w) ∨
    ∃ n, cfg'.limit = some n ∧ step E .removeExpired (relim n w) = .ok (w', none) := by
  rw [limit_eq g hl] at hs
  cases hlim : cfg'.limit with
  | none => rw [hlim] at hs; cases hs; exact .inl ⟨rfl, rfl⟩
  | some n =>
    rw [hlim] at hs
    refine .inr ⟨n, rfl, ?_⟩
    simp only at hs
    simp [step, hs, Except.map]

theorem limit_good (hE : Sound E) (g : Good E cfg h w) (hl : cfg'.lru = cfg.lru) :
    ∃ w', setTimeout E logDel cfg'.cycles cfg'.lru w = .ok w' ∧ Good E cfg' (limited cfg' (w.now E) h) w' := by
  have g1 := relim_good g hl
  rw [limit_eq g hl]
  unfold limited
  cases hlim : cfg'.limit with
  | none => rw [hlim] at g1; exact ⟨_, rfl, g1⟩
  | some n =>
    rw [hlim] at g1
    obtain ⟨w', out, h1, g2⟩ := step_good hE g1 .removeExpired trivial
    simp only [step, Except.map] at h1
    split at h1
    · cases h1
    · rename_i w2 h2
      cases h1
      exact ⟨_, h2, g2⟩

/-- Two ways to order the same list. -/
theorem ring_iff {α : Type} {f f' : α → Nat} {l : List α} (h : l.Pairwise (fun a b => f b < f a))
    (h' : l.Pairwise (fun a b => f' b < f' a)) {a b : α} (ha : a ∈ l) (hb : b ∈ l) :
    f' a < f' b ↔ f a < f b := by
  induction l with
  | nil => cases ha
  | cons x l ih =>
    rw [List.pairwise_cons] at h h'
    rcases List.mem_cons.mp ha with rfl | ha1 <;> rcases List.mem_cons.mp hb with rfl | hb1
    · simp
    · have := h.1 b hb1; have := h'.1 b hb1; omega
    · have := h.1 a ha1; have := h'.1 a ha1; omega
    · exact ih h.2 h'.2 ha1 hb1

end
end Verif.Lru
