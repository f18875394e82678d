import Verif.Props.LruCache
/-
C80, C81: the queries of the generic cache and the exact effect of its removal calls.
C82: switching the eviction mode of a cache that is in use.
-/
namespace Verif.Lru

variable {β : Type} {E : Env} {cfg : Config} {h : Hist β} {w : World (List Nat) β}

/-! ### C80: queries -/

theorem held_live (c : Core cfg.lru h w) {k : Bytes} {p : Nat} (hh : 0 < held k p h) :
    ∃ e ∈ w.cache.all, e.key = k ∧ e.ptr = p := by
  by_contra hcon
  have := c.heldz k p (fun e he hkp => hcon ⟨e, he, hkp⟩)
  omega

theorem deferred_iff (c : Core cfg.lru h w) {k : Bytes} {p : Nat} :
    (∃ e ∈ w.cache.defer, e.key = k ∧ e.ptr = p) ↔ 0 < held k p h ∧ present w k ≠ some p := by
  constructor
  · rintro ⟨e, he, rfl, rfl⟩
    have ha : e ∈ w.cache.all := by simp [Cache.all, he]
    refine ⟨by rw [← c.pins e ha]; exact c.pinD e he, ?_⟩
    intro hp
    obtain ⟨x, hx, _, hxp⟩ := (present_some c).mp hp
    have hn := c.ptrs
    rw [Cache.all, List.map_append, List.nodup_append] at hn
    exact hn.2.2 _ (List.mem_map_of_mem hx) _ (List.mem_map_of_mem he) hxp
  · rintro ⟨hh, hp⟩
    obtain ⟨e, he, hk, hpp⟩ := held_live c hh
    rcases List.mem_append.mp he with he | he
    · exact absurd ((present_some c).mpr ⟨e, he, hk, hpp⟩) hp
    · exact ⟨e, he, hk, hpp⟩

/-- `StillInUse(k, value)` says whether the value is the one in the cache under `k` or somebody
holds a pin on it; `StillInUse(k)` whether that is so of any value. -/
theorem C80_still_in_use (r : Reach E cfg h w) (k : Bytes) :
    (∀ p, w.cache.stillInUse k (some p) = true ↔ present w k = some p ∨ 0 < held k p h) ∧
    (w.cache.stillInUse k none = true ↔ present w k ≠ none ∨ ∃ p, 0 < held k p h) := by
  have c := r.good.core
  have key : ∀ p : Option Nat, w.cache.stillInUse k p = true ↔
      ∃ q, (p = none ∨ p = some q) ∧ (present w k = some q ∨ ∃ e ∈ w.cache.defer, e.key = k ∧ e.ptr = q) := by
    intro p
    unfold Cache.stillInUse present
    rw [Bool.or_eq_true, List.any_eq_true]
    constructor
    · rintro (h1 | ⟨e, he, h2⟩)
      · obtain ⟨e, h1⟩ := Option.isSome_iff_exists.mp h1
        obtain ⟨h1, h2⟩ := Option.filter_eq_some_iff.mp h1
        refine ⟨e.ptr, by simpa using h2, Or.inl (by rw [h1]; rfl)⟩
      · simp only [Bool.and_eq_true, Bool.or_eq_true, beq_iff_eq] at h2
        exact ⟨e.ptr, h2.2, Or.inr ⟨e, he, h2.1, rfl⟩⟩
    · rintro ⟨q, hq, h1 | ⟨e, he, h2, h3⟩⟩
      · left
        cases hf : findKey k w.cache.nodes with
        | none => rw [hf] at h1; cases h1
        | some e =>
          rw [hf] at h1
          have : e.ptr = q := by simpa using h1
          rcases hq with rfl | rfl <;> simp [Option.filter, this]
      · right
        refine ⟨e, he, ?_⟩
        rcases hq with rfl | rfl <;> simp [h2, h3]
  constructor
  · intro p
    rw [key]
    constructor
    · rintro ⟨q, hq, h1⟩
      rcases hq with hq | hq
      · cases hq
      cases hq
      rcases h1 with h1 | h1
      · exact Or.inl h1
      · exact Or.inr ((deferred_iff c).mp h1).1
    · intro h1
      refine ⟨p, Or.inr rfl, ?_⟩
      by_cases hp : present w k = some p
      · exact Or.inl hp
      · exact Or.inr ((deferred_iff c).mpr ⟨h1.resolve_left hp, hp⟩)
  · rw [key]
    constructor
    · rintro ⟨q, _, h1 | h1⟩
      · exact Or.inl (by rw [h1]; simp)
      · exact Or.inr ⟨q, ((deferred_iff c).mp h1).1⟩
    · rintro (h1 | ⟨p, h1⟩)
      · obtain ⟨q, hq⟩ := Option.ne_none_iff_exists'.mp h1
        exact ⟨q, Or.inl rfl, Or.inl hq⟩
      · refine ⟨p, Or.inl rfl, ?_⟩
        by_cases hp : present w k = some p
        · exact Or.inl hp
        · exact Or.inr ((deferred_iff c).mpr ⟨h1, hp⟩)

/-- `DeferredEntries()` and `DeferredSize()` are the number and total size of the values that are
no longer in the cache but still pinned. -/
theorem C80_deferred (r : Reach E cfg h w) :
    ∃ L : List (Bytes × Nat), L.Nodup ∧
      (∀ k p, (k, p) ∈ L ↔ 0 < held k p h ∧ present w k ≠ some p) ∧
      w.cache.deferredEntries = L.length ∧
      w.cache.deferredSize = (L.map (fun x => (unitsOf x.2 h : Int))).sum := by
  have c := r.good.core
  refine ⟨w.cache.defer.map (fun e => (e.key, e.ptr)), ?_, ?_, by simp [Cache.deferredEntries], ?_⟩
  · have hn := c.ptrs
    rw [Cache.all, List.map_append, List.nodup_append] at hn
    refine List.Nodup.of_map (f := Prod.snd) ?_
    rw [List.map_map]; exact hn.2.1
  · intro k p
    rw [← deferred_iff c]
    simp [Prod.ext_iff]
  · unfold Cache.deferredSize
    rw [List.map_map]
    congr 1
    apply List.map_congr_left
    intro e he
    simp [c.uo e (by simp [Cache.all, he])]

/-- `GetLastUseTime` (LRU mode) and `GetInsertionTime` (age mode) return the time of the last use
or of the insertion of the value in the cache, and -1 if there is none. -/
theorem C80_last_use_time (r : Reach E cfg h w) (k : Bytes) :
    (present w k = none → w.cache.lastUseTime k = -1) ∧
    (∀ p, present w k = some p → w.cache.lastUseTime k = touchTime cfg.lru p h) := by
  have c := r.good.core
  unfold Cache.lastUseTime present
  cases hf : findKey k w.cache.nodes with
  | none => simp
  | some e =>
    refine ⟨by simp, ?_⟩
    intro p hp
    have : e.ptr = p := by simpa using hp
    subst this
    exact c.time e ((findKey_iff c.keys).mp hf).1

/-! ### C81: removal calls -/

/-- The calls that remove entries on request. -/
def Removing (c : Call β) : Prop :=
  (∃ k, c = .remove k) ∨ c = .removeAll ∨ c = .removeUnpinned ∨ c = .clear

/-- Which keys a removal call is about: those whose entry it takes out of the cache. -/
def Targets (h : Hist β) (c : Call β) (k : Bytes) (p : Nat) : Prop :=
  match c with
  | .remove k' => k' = k
  | .removeUnpinned => held k p h = 0
  | _ => True

theorem remove_kept (c : Core cfg.lru h w) {k : Bytes} {w' : World (List Nat) β}
    (hs : remove E logDel k w = .ok w') : ∀ e ∈ w.cache.nodes, e.key ≠ k → e ∈ w'.cache.nodes := by
  intro e he hk
  rw [logDel_eq] at hs
  cases hf : findKey k w.cache.nodes with
  | none => rw [remove_pure_none E logF k w hf] at hs; cases hs; exact he
  | some x =>
    obtain ⟨A, B, hn, rfl, _⟩ := findKey_split hf
    have hd := c.distinct; rw [hn] at hd
    rw [remove_pure_some E logF x w A B hn hd (c.pinN x (by simp [hn]))] at hs
    have hm : e ∈ A ++ B := by
      rw [hn] at he
      rcases List.mem_append.mp he with h1 | h1
      · simp [h1]
      · rcases List.mem_cons.mp h1 with rfl | h1
        · exact absurd rfl hk
        · simp [h1]
    by_cases h0 : x.pin = 0
    · rw [if_pos h0] at hs; cases hs; exact hm
    · rw [if_neg h0] at hs; cases hs; exact hm

theorem map_ok {α γ : Type} {f : α → γ} {x : Res α} {y : γ} (hx : x.map f = .ok y) :
    ∃ a, x = .ok a ∧ f a = y := by
  cases x with
  | error e => cases hx
  | ok a => cases hx; exact ⟨a, rfl, rfl⟩

/-- What a removal call leaves: exactly the entries it is not about. -/
theorem removing_step (r : Reach E cfg h w) {c : Call β} (hc : Removing c)
    (hl : Legal cfg.lru h w.ext c) {w' : World (List Nat) β} {out : Option Nat}
    (hs : step E c w = .ok (w', out)) :
    Removed w w' ∧
    ∀ e ∈ w.cache.nodes, (e ∈ w'.cache.nodes ↔ ¬ Targets h c e.key e.ptr) := by
  have g := r.good.core
  rcases hc with ⟨k, rfl⟩ | rfl | rfl | rfl
  · obtain ⟨a, ha, hb⟩ := map_ok hs
    cases hb
    obtain ⟨w1, h1, rm, hk, _⟩ := remove_removed E g k
    rw [h1] at ha; cases ha
    refine ⟨rm, fun e he => ⟨fun he' ht => hk e he' ht.symm, fun ht => ?_⟩⟩
    exact remove_kept g h1 e he (fun hh => ht hh.symm)
  · obtain ⟨a, ha, hb⟩ := map_ok hs
    cases hb
    obtain ⟨w1, h1, rm, hk⟩ := removeAll_removed E g
    rw [h1] at ha; cases ha
    refine ⟨rm, fun e he => ⟨fun he' => ?_, fun ht => absurd trivial ht⟩⟩
    rw [hk] at he'; cases he'
  · obtain ⟨a, ha, hb⟩ := map_ok hs
    cases hb
    obtain ⟨w1, h1, rm, hk⟩ := removeUnpinned_removed E g
    rw [h1] at ha; cases ha
    refine ⟨rm, fun e he => ?_⟩
    have hpin := g.pins e (by simp [Cache.all, he])
    refine ⟨fun he' ht => hk e he' (by rw [hpin]; exact ht), fun ht => ?_⟩
    rw [logDel_eq, removeUnpinned_pure E logF w g.distinct] at h1
    cases h1
    refine List.mem_filter.mpr ⟨he, ?_⟩
    have : e.pin ≠ 0 := by rw [hpin]; exact ht
    simp [rmUnpinnable, this]
  · obtain ⟨a, ha, hb⟩ := map_ok hs
    cases hb
    obtain ⟨w1, h1, rm, hk⟩ := clear_removed E g hl
    rw [h1] at ha; cases ha
    refine ⟨rm, fun e he => ⟨fun he' => ?_, fun ht => absurd trivial ht⟩⟩
    rw [hk] at he'; cases he'

/-- After `Remove(k)` there is nothing under `k`, after `RemoveAll` and `Clear` nothing at all, after
`RemoveUnpinned` exactly the pinned entries; every other entry is as before. -/
theorem C81_removed_exactly (r : Reach E cfg h w) {c : Call β} (hc : Removing c)
    (hl : Legal cfg.lru h w.ext c) {w' : World (List Nat) β} {out : Option Nat}
    (hs : step E c w = .ok (w', out)) (k : Bytes) (p : Nat) :
    present w' k = some p ↔ present w k = some p ∧ ¬ Targets h c k p := by
  obtain ⟨rm, hx⟩ := removing_step r hc hl hs
  have g := r.good.core
  have g' : Core cfg.lru h w' := rm.core g
  rw [present_some g', present_some g]
  constructor
  · rintro ⟨e, he, rfl, rfl⟩
    have := rm.sub.subset he
    exact ⟨⟨e, this, rfl, rfl⟩, (hx e this).mp he⟩
  · rintro ⟨⟨e, he, rfl, rfl⟩, ht⟩
    exact ⟨e, (hx e he).mpr ht, rfl, rfl⟩

/-- A removal call hands to the deleter exactly the removed values nobody holds a pin on, once. -/
theorem C81_deleted_exactly (r : Reach E cfg h w) {c : Call β} (hc : Removing c)
    (hl : Legal cfg.lru h w.ext c) {w' : World (List Nat) β} {out : Option Nat}
    (hs : step E c w = .ok (w', out)) :
    ∃ L : List Nat, w'.ext = w.ext ++ L ∧ L.Nodup ∧
      ∀ p, p ∈ L ↔ ∃ k, present w k = some p ∧ Targets h c k p ∧ held k p h = 0 := by
  obtain ⟨rm, hx⟩ := removing_step r hc hl hs
  have g := r.good.core
  obtain ⟨kept, gone, pinned, t, rfl, _, hperm, _, hg, hpn⟩ := rm
  have hnd : (kept ++ (gone ++ pinned)).Nodup := by
    refine hperm.nodup_iff.mpr (List.Nodup.of_map (f := (·.ptr)) ?_)
    exact g.ptrs.sublist (by simp [Cache.all])
  have hpd : ((gone.map (·.ptr))).Nodup := by
    have h1 : ((kept ++ (gone ++ pinned)).map (·.ptr)).Nodup :=
      (hperm.map _).nodup_iff.mpr (g.ptrs.sublist (by simp [Cache.all]))
    exact h1.sublist (by simp [List.map_append])
  refine ⟨gone.map (·.ptr), ?_, hpd, ?_⟩
  · show (gone.foldl (fun s e => logF e s) w.ext) = _
    exact logF_foldl gone _
  · intro p
    constructor
    · intro hp
      obtain ⟨e, he, rfl⟩ := List.mem_map.mp hp
      have hen : e ∈ w.cache.nodes := hperm.subset (by simp [he])
      have hk : e ∉ kept := by
        intro hk
        exact (List.nodup_append.mp hnd).2.2 e hk e (by simp [he]) rfl
      refine ⟨e.key, (present_some g).mpr ⟨e, hen, rfl, rfl⟩, ?_, ?_⟩
      · by_contra ht; exact hk ((hx e hen).mpr ht)
      · rw [← g.pins e (by simp [Cache.all, hen])]; exact hg e he
    · rintro ⟨k, hp, ht, hh⟩
      obtain ⟨e, hen, rfl, rfl⟩ := (present_some g).mp hp
      have hk : e ∉ kept := fun hk => (hx e hen).mp hk ht
      have := hperm.symm.subset hen
      rcases List.mem_append.mp this with h1 | h1
      · exact absurd h1 hk
      · rcases List.mem_append.mp h1 with h2 | h2
        · exact List.mem_map_of_mem h2
        · exfalso
          refine hpn e h2 ?_
          rw [g.pins e (by simp [Cache.all, hen])]; exact hh

/-- A state with a pinned and an unpinned entry, and a value that is pinned but no longer in the
cache, as C80 and C81 speak of. -/
example : ∃ h w w' out, sampleRun = some (h, w) ∧ Reach sampleEnv sampleCfg h w ∧
    w.cache.stillInUse (sampleKey 3) (some 13) = true ∧ present w (sampleKey 3) = none ∧
    w.cache.stillInUse (sampleKey 2) none = false ∧
    w.cache.deferredEntries = 1 ∧ w.cache.deferredSize = 1 ∧
    step sampleEnv .removeUnpinned w = .ok (w', out) ∧
    present w (sampleKey 1) = some 11 ∧ present w' (sampleKey 1) = none ∧
    present w' (sampleKey 4) = some 14 ∧ w'.ext = [12, 11] ∧
    w.cache.lastUseTime (sampleKey 2) = -1 ∧ 0 < w.cache.lastUseTime (sampleKey 1) := by
  have hr : ∃ h w w' out, sampleRun = some (h, w) ∧
    w.cache.stillInUse (sampleKey 3) (some 13) = true ∧ present w (sampleKey 3) = none ∧
    w.cache.stillInUse (sampleKey 2) none = false ∧
    w.cache.deferredEntries = 1 ∧ w.cache.deferredSize = 1 ∧
    step sampleEnv .removeUnpinned w = .ok (w', out) ∧
    present w (sampleKey 1) = some 11 ∧ present w' (sampleKey 1) = none ∧
    present w' (sampleKey 4) = some 14 ∧ w'.ext = [12, 11] ∧
    w.cache.lastUseTime (sampleKey 2) = -1 ∧ 0 < w.cache.lastUseTime (sampleKey 1) :=
    ⟨_, _, _, _, rfl, by decide, by decide, by decide, by decide, by decide, rfl, by decide,
      by decide, by decide, by decide, by decide, by decide⟩
  obtain ⟨h, w, w', out, h1, h2⟩ := hr
  exact ⟨h, w, w', out, h1, runLegal_reach _ h1, h2⟩

/-! ### C82: the eviction mode of a cache in use -/

/-- The eviction mode can be changed while there is no idle limit, and the cache does not check that
it holds nothing: an entry pinned in age mode is on the ring, and releasing it in LRU mode links it
a second time. -/
theorem C82_false_mode_switch :
    ∃ w w' : World (List Nat) Nat,
      setTimeout { sampleEnv with dbg := false } logDel none false
        { cache := Cache.new 3, tick := 0, ext := [] } = .ok w ∧
      (insertPinned { sampleEnv with dbg := false } logDel (sampleKey 1) 11 0 1 w >>=
        setTimeout { sampleEnv with dbg := false } logDel none true) = .ok w' ∧
      release { sampleEnv with dbg := false } logDel true (sampleKey 1) 11 w' = .error .listCorrupt :=
  ⟨_, _, rfl, rfl, rfl⟩

/-- The other way round the entry never gets on the ring: with no pins outstanding and no capacity,
the cache keeps it for good. -/
theorem C82_false_mode_switch_stuck :
    ∃ w w' : World (List Nat) Nat,
      setTimeout { sampleEnv with dbg := false } logDel none true
        { cache := Cache.new 3, tick := 0, ext := [] } = .ok w ∧
      (insertPinned { sampleEnv with dbg := false } logDel (sampleKey 1) 11 0 1 w >>=
        setTimeout { sampleEnv with dbg := false } logDel none false >>=
        release { sampleEnv with dbg := false } logDel true (sampleKey 1) 11 >>=
        setMaxSize { sampleEnv with dbg := false } logDel 0) = .ok w' ∧
      w'.cache.size = 1 ∧ w'.cache.maxUnits = 0 ∧ w'.cache.pinnedSize = 0 ∧
      w'.cache.deferredEntries = 0 :=
  ⟨_, _, rfl, rfl, by decide⟩

/-- Setting the idle limit and the eviction mode while no pins are held succeeds, and the cache then
is a cache of the new configuration, in the sense of `Reach`, so that all that is proved of those
holds.  Its history is that of a client who inserted what was in the cache, and nothing else, in the
same order, with the same sizes and times of last use as before.  The values that were in the cache
are exactly those not deleted before; the call itself deletes `w'.ext`. -/
theorem C82_switch_partial {cfg' : Config} (hE : E.dbg = false ∨ Mono E.clk) (r : Reach E cfg h w)
    (hp : ∀ k p, held k p h = 0)
    (hm : cfg.limit = none ∨ cfg'.limit = none ∨ cfg'.lru = cfg.lru)
    (hx : cfg'.maxUnits = maxSizeOf cfg h) :
    ∃ (h' : Hist β) (w' : World (List Nat) β), Reach E cfg' h' w' ∧
      setTimeout E logDel cfg'.cycles cfg'.lru w = .ok { w' with ext := w.ext ++ w'.ext } ∧
      (∀ k p, held k p h' = 0) ∧ (∀ k, current k h' = present w k) ∧
      (w.ext ++ insertedPtrs h').Perm (insertedPtrs h) ∧
      (∀ k p, present w k = some p → unitsOf p h' = unitsOf p h ∧
        touchTime cfg'.lru p h' = touchTime cfg.lru p h) ∧
      (∀ k₁ p₁ k₂ p₂, present w k₁ = some p₁ → present w k₂ = some p₂ →
        (stamp cfg'.lru p₁ h' < stamp cfg'.lru p₂ h' ↔ stamp cfg.lru p₁ h < stamp cfg.lru p₂ h)) := by
  have g := r.good
  have c := g.core
  obtain ⟨w', h1, g', hmax⟩ := again_good (cfg' := cfg') hE g hp hm
  have r' : Reach E cfg' (reinserted (w.cache.nodes.map Elem.entry)) w' :=
    .again r hp hm (by rw [hx, r.inv2.max]) h1
  obtain ⟨hd, hl⟩ := c.unpinned hp
  have hall : w.cache.all = w.cache.nodes := by simp [Cache.all, hd]
  have c' := c.again (cfg := cfg) hp cfg'.lru 0
  refine ⟨_, w', r', ?_, fun k p => held_reinserted k p _, ?_, ?_, ?_, ?_⟩
  · exact again_log hE g hp hm h1
  · intro k
    cases hk : present w k with
    | none =>
      refine current_reinserted_none ?_
      intro x hx2 hkey
      obtain ⟨e, he, rfl⟩ := List.mem_map.mp hx2
      have : present w k = some e.ptr := (present_some c).mpr ⟨e, he, hkey, rfl⟩
      rw [hk] at this; cases this
    | some p =>
      obtain ⟨e, he, rfl, rfl⟩ := (present_some c).mp hk
      exact c'.cur e he
  · have := live_perm c
    rw [hall] at this
    rw [insertedPtrs_reinserted, List.map_map]
    exact this
  · intro k p hk
    obtain ⟨e, he, rfl, rfl⟩ := (present_some c).mp hk
    have ha : e ∈ w.cache.all := by rw [hall]; exact he
    exact ⟨(c'.uo e ha).trans (c.uo e ha).symm, (c'.time e he).symm.trans (c.time e he)⟩
  · intro k₁ p₁ k₂ p₂ h₁ h₂
    obtain ⟨a, ha, rfl, rfl⟩ := (present_some c).mp h₁
    obtain ⟨b, hb, rfl, rfl⟩ := (present_some c).mp h₂
    exact ring_iff (c.ring.imp_of_mem (fun ha hb hab => hab (hl _ ha).2 (hl _ hb).2))
      (c'.ring.imp_of_mem (fun ha hb hab => hab (hl _ ha).2 (hl _ hb).2)) ha hb

/-- Capacity 3, LRU mode, no idle limit. -/
def switchCfg : Config := { maxUnits := 3, limit := none, lru := true }

/-- Setting the idle limit anew without changing the mode succeeds, also while pins are held, and the
cache then is one of the new configuration with the same history (plus a removal of expired entries,
if there is a limit now).  The call deletes only values that the new limit makes expired, and those
that it does not make expired can still be found. -/
theorem C82_limit_partial {cfg' : Config} (hE : E.dbg = false ∨ Mono E.clk) (r : Reach E cfg h w)
    (hl : cfg'.lru = cfg.lru) (hx : cfg'.maxUnits = cfg.maxUnits) (hk : KeepsExpired cfg cfg' h) :
    ∃ w' l, setTimeout E logDel cfg'.cycles cfg'.lru w = .ok w' ∧
      Reach E cfg' (limited cfg' (w.now E) h) w' ∧
      w'.ext = w.ext ++ l ∧ (∀ p ∈ l, expiredAt cfg' h p (w.now E)) ∧
      (∀ k p, present w k = some p → ¬ expiredAt cfg' h p (w.now E) → present w' k = some p) := by
  have g := r.good
  obtain ⟨w', h1, g'⟩ := limit_good hE g hl
  have r' := Reach.limit r hl hx hk h1
  have h2 := limit_eq (cfg' := cfg') g hl
  rw [h1] at h2
  cases hlim : cfg'.limit with
  | none =>
    rw [hlim] at h2
    cases h2
    exact ⟨_, [], h1, r', by simp [relim], by simp, fun k p hp _ => hp⟩
  | some n =>
    rw [hlim] at h2
    have g1 := relim_good (cfg' := cfg') g hl
    rw [hlim] at g1
    have f := removeExpired_fate hE g1 h2.symm
    obtain ⟨w2, h3, rm, heq⟩ := removeExpired_pure hE g1
    cases h2.trans h3
    obtain ⟨l, hl'⟩ := f.pre
    refine ⟨w', l, h1, r', hl', ?_, ?_⟩
    · intro p hp
      have : w.ext.count p < w'.ext.count p := by
        rw [hl', List.count_append]
        have := List.count_pos_iff.mpr hp
        show List.count p w.ext < List.count p w.ext + _
        omega
      obtain ⟨e, _, rfl, _, he⟩ := f.del p this
      exact he
    · intro k p hp hfresh
      obtain ⟨e, he, rfl, rfl⟩ := (present_some g.core).mp hp
      refine (present_some (rm.core g1.core)).mpr ⟨e, ?_, rfl, rfl⟩
      have hn : 0 ≤ (n : Int) := Int.natCast_nonneg n
      rw [heq.trans (if_pos hn)]
      show e ∈ (idleScan (w.now E - n) w.cache.nodes.reverse).1.reverse
      have hperm := idleScan_perm (w.now E - n) w.cache.nodes.reverse
      have hin := hperm.symm.subset (show e ∈ w.cache.nodes.reverse by simpa using he)
      rcases List.mem_append.mp hin with h3 | h3
      · simpa using h3
      · exfalso
        have h4 := (idleScan_gone _ _ e h3).2
        rw [g.core.time e he, ← hl] at h4
        exact hfresh ⟨n, hlim, by omega⟩

/-- While there is a limit, setting one in the other mode is refused: a release build ignores the
call, a debug build stops. -/
theorem C82_refused {cfg' : Config} {n n' : Nat} (r : Reach E cfg h w) (hn : cfg.limit = some n)
    (hn' : cfg'.limit = some n') (hl : cfg'.lru ≠ cfg.lru) :
    setTimeout E logDel cfg'.cycles cfg'.lru w = if E.dbg then .error .assertFail else .ok w := by
  have g := r.good
  have hi := g.idle
  rw [hn] at hi
  simp only [Config.cycles, hn', setTimeout]
  rw [if_pos ⟨by rw [hi]; simp, by rw [g.core.mode]; exact hl⟩]
  cases hd : E.dbg <;> simp [assertThat, hd, bind, Except.bind]

/-- In age mode the limit is shortened while a value is pinned: it expires, and lookups do not find
it, but it is deleted only when released. -/
example : ∃ h w w', runLegal sampleEnv { switchCfg with lru := false, limit := some 9 }
      ([.lookup true (sampleKey 1), .release true (sampleKey 2) 12, .insertPinned (sampleKey 2) 12 0 1,
        .insertPinned (sampleKey 1) 11 0 1] : List (Call Nat)) = some (h, w) ∧
    setTimeout sampleEnv logDel (some 1) false w = .ok w' ∧ w'.ext = [12] ∧
    present w (sampleKey 1) = some 11 ∧ present w' (sampleKey 1) = none ∧ held (sampleKey 1) 11 h = 2 ∧
    Reach sampleEnv { maxUnits := 3, limit := some 1, lru := false }
      ({ call := .removeExpired, out := none, time := w.now sampleEnv } :: h) w' := by
  have hr : ∃ h w w', runLegal sampleEnv { switchCfg with lru := false, limit := some 9 }
      ([.lookup true (sampleKey 1), .release true (sampleKey 2) 12, .insertPinned (sampleKey 2) 12 0 1,
        .insertPinned (sampleKey 1) 11 0 1] : List (Call Nat)) = some (h, w) ∧
    setTimeout sampleEnv logDel (some 1) false w = .ok w' ∧ w'.ext = [12] ∧
    present w (sampleKey 1) = some 11 ∧ present w' (sampleKey 1) = none ∧ held (sampleKey 1) 11 h = 2 :=
    ⟨_, _, _, rfl, rfl, by decide, by decide, by decide, by decide⟩
  obtain ⟨h, w, w', h1, h2, h3⟩ := hr
  refine ⟨h, w, w', h1, h2, h3.1, h3.2.1, h3.2.2.1, h3.2.2.2, ?_⟩
  refine Reach.limit (cfg' := { maxUnits := 3, limit := some 1, lru := false }) (runLegal_reach _ h1) rfl rfl ?_ h2
  rintro _ k p _ _ ev _ ⟨n, hn, hx⟩
  cases hn
  have hx' : touchTime false p h + 9 < ev.time := hx
  exact ⟨1, rfl, show touchTime false p h + 1 < ev.time by omega⟩

/-- The eviction mode is changed with two entries in the cache, and an age limit set, which discards
the one used first. -/
example : ∃ h w h' w', runLegal sampleEnv switchCfg
      ([.release true (sampleKey 1) 11, .lookup true (sampleKey 1), .lookup true (sampleKey 5),
        .release true (sampleKey 2) 12, .insertPinned (sampleKey 2) 12 0 1,
        .release true (sampleKey 1) 11, .insertPinned (sampleKey 1) 11 0 1] : List (Call Nat))
        = some (h, w) ∧ (w.cache.nodes.map (·.ptr) = [11, 12]) ∧
    setTimeout sampleEnv logDel (some 1) false { w with ext := [] } = .ok w' ∧ w'.ext = [12] ∧
    Reach sampleEnv { maxUnits := 3, limit := some 1, lru := false } h' w' := by
  have hr : ∃ h w w', runLegal sampleEnv switchCfg
      ([.release true (sampleKey 1) 11, .lookup true (sampleKey 1), .lookup true (sampleKey 5),
        .release true (sampleKey 2) 12, .insertPinned (sampleKey 2) 12 0 1,
        .release true (sampleKey 1) 11, .insertPinned (sampleKey 1) 11 0 1] : List (Call Nat))
        = some (h, w) ∧ (w.cache.nodes.map (·.ptr) = [11, 12]) ∧
      setTimeout sampleEnv logDel (some 1) false { w with ext := [] } = .ok w' ∧ w'.ext = [12] ∧
      w.cache.maxUnits = 3 ∧ w.cache.all.map (·.pin) = [0, 0] :=
    ⟨_, _, _, rfl, by decide, rfl, by decide, by decide, by decide⟩
  obtain ⟨h, w, w', h1, h2, h3, h4, h5, h6⟩ := hr
  have r := runLegal_reach _ h1
  refine ⟨h, w, _, w', h1, h2, h3, h4, .again r ?_ (Or.inl rfl) h5.symm h3⟩
  intro k p
  have c := r.good.core
  by_cases hk : ∀ e ∈ w.cache.all, ¬ (e.key = k ∧ e.ptr = p)
  · exact c.heldz k p hk
  · push_neg at hk
    obtain ⟨e, he, rfl, rfl⟩ := hk
    rw [← c.pins e he]
    have : e.pin ∈ w.cache.all.map (·.pin) := List.mem_map_of_mem he
    rw [h6] at this
    simpa using this

end Verif.Lru
