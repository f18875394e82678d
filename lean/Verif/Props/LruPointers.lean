import Verif.Lemmas.LruSim5
/-
C83: the cache as it is in memory.  Its linked lists stay well formed, no element is used after it
was deleted, deleted twice or leaked, and what a client sees is what C24-C30, C80 and C81 say.
-/
namespace Verif.Lru.Ptr

variable {β : Type} {E : Env} {cfg : Config} {h : Hist β} {pw : PWorld (List Nat) β}

/-! ### Memory safety -/

/-- Every legal call succeeds: no null or dangling pointer is used, no element is deleted twice, no
assertion fails and no loop runs away, in a release build with any clock and in a debug build with a
clock that does not go backwards. -/
theorem C83_legal_call_succeeds (hE : E.dbg = false ∨ Mono E.clk) (r : Reach E cfg h pw) {c : Call β}
    (hl : Legal cfg.lru h pw.ext c) : ∃ pw' out, step E c pw = .ok (pw', out) := by
  obtain ⟨w, h1, s⟩ := r.sim hE
  rw [s.ext] at hl
  obtain ⟨w', out, h2⟩ := C30_legal_call_succeeds hE h1 hl
  obtain ⟨pw', h3, _⟩ := step_sim s (uniqueDeferred h1.good.core) h2
  exact ⟨pw', out, h3⟩

theorem C83_configure_succeeds (E : Env) (cfg : Config) : ∃ pw : PWorld (List Nat) β, Reach E cfg [] pw := by
  obtain ⟨w, h2, _⟩ := init_good (β := β) E cfg
  rw [aDel_log] at h2
  obtain ⟨pw, b1, _⟩ := setTimeout_sim (follows_same logF) (new_sim (β := β) cfg.maxUnits) h2
  exact ⟨pw, .init b1⟩

/-- Setting the idle limit and the eviction mode of a cache in use, as far as C82 has it. -/
theorem C83_reconfigure_succeeds {cfg' : Config} (hE : E.dbg = false ∨ Mono E.clk) (r : Reach E cfg h pw)
    (hp : ∀ k p, held k p h = 0) (hm : cfg.limit = none ∨ cfg'.limit = none ∨ cfg'.lru = cfg.lru)
    (hx : cfg'.maxUnits = maxSizeOf cfg h) :
    ∃ h' pw', setTimeout E logDel cfg'.cycles cfg'.lru { pw with ext := [] } = .ok pw' ∧ Reach E cfg' h' pw' := by
  obtain ⟨w, h1, s⟩ := r.sim hE
  obtain ⟨w', h2, _⟩ := again_good (cfg' := cfg') hE h1.good hp hm
  obtain ⟨ids, cells, e1, e2, _⟩ := s.entries (h1.good.core.unpinned hp).2
  rw [aDel_log] at h2
  obtain ⟨pw', b1, _⟩ := setTimeout_sim (follows_same logF) s.cleared h2
  exact ⟨_, pw', b1, .again r hp hm (by rw [hx, s.rep.maxUnits, h1.inv2.max]) e1 e2 b1⟩

/-- Setting the idle limit anew, also while pins are held. -/
theorem C83_limit_succeeds {cfg' : Config} (hE : E.dbg = false ∨ Mono E.clk) (r : Reach E cfg h pw)
    (hl : cfg'.lru = cfg.lru) (hx : cfg'.maxUnits = cfg.maxUnits) (hk : KeepsExpired cfg cfg' h) :
    ∃ pw', setTimeout E logDel cfg'.cycles cfg'.lru pw = .ok pw' ∧ Reach E cfg' (limited cfg' (pw.now E) h) pw' := by
  obtain ⟨w, h1, s⟩ := r.sim hE
  obtain ⟨w', h2, _⟩ := limit_good hE h1.good hl
  rw [aDel_log] at h2
  obtain ⟨pw', b1, _⟩ := setTimeout_sim (follows_same logF) s h2
  exact ⟨pw', b1, .limit r hl hx hk b1⟩

/-! ### The same behaviour as the cache with lists -/

theorem present_eq {w : World (List Nat) β} (s : Sim (sameExt _ _) [] [] pw w) (k : Bytes) : present pw k = Lru.present w k := by
  unfold present Lru.present
  rw [s.tab.find]
  cases hf : findKey k w.cache.nodes with
  | none => rfl
  | some e =>
    obtain ⟨he, _⟩ := (findKey_iff s.tab.keys).mp hf
    simp [s.rep.cellN e he, cellOf]

/-- Whatever calls are made, with whatever results, the cache with lists can go through the same
calls with the same results, and the two then agree on everything a client can ask. -/
theorem C83_refines (hE : E.dbg = false ∨ Mono E.clk) (r : Reach E cfg h pw) :
    ∃ w, Lru.Reach E cfg h w ∧ pw.ext = w.ext ∧ pw.cache.units = w.cache.size ∧
      pw.cache.pinnedUnits = w.cache.pinnedSize ∧ pw.cache.table.length = w.cache.entries ∧
      pw.cache.countDeferred = .ok (w.cache.deferredEntries, w.cache.deferredSize) ∧
      (∀ k, present pw k = Lru.present w k) ∧
      (∀ k v, pw.cache.stillInUse k v = .ok (w.cache.stillInUse k v)) := by
  obtain ⟨w, h1, s⟩ := r.sim hE
  exact ⟨w, h1, s.ext, s.rep.units, s.rep.pinnedUnits, s.tab.length, countDeferred_eq s.rep,
    present_eq s, stillInUse_eq s⟩

/-- And the other way round, for any clock. -/
theorem C83_refined {w : World (List Nat) β} (r : Lru.Reach E cfg h w) : ∃ pw, Reach E cfg h pw ∧ pw.ext = w.ext := by
  have key : ∃ pw, Reach E cfg h pw ∧ Sim (sameExt _ _) [] [] pw w := by
    induction r with
    | init h2 =>
      rw [aDel_log] at h2
      obtain ⟨pw, b1, b2⟩ := setTimeout_sim (follows_same logF) (new_sim (β := β) _) h2
      exact ⟨pw, .init b1, b2⟩
    | @limit _ _ _ w0 _ r hl hx hk hs ih =>
      obtain ⟨pw0, h1, s⟩ := ih
      rw [aDel_log] at hs
      obtain ⟨pw', b1, b2⟩ := setTimeout_sim (follows_same logF) s hs
      have hnow : World.now E w0 = PWorld.now E pw0 := by
        unfold PWorld.now World.now
        rw [s.tick]
      rw [hnow]
      exact ⟨pw', .limit h1 hl hx hk b1, b2⟩
    | again r hp hm hx hs ih =>
      obtain ⟨pw0, h1, s⟩ := ih
      rw [aDel_log] at hs
      obtain ⟨pw', b1, b2⟩ := setTimeout_sim (follows_same logF) s.cleared hs
      obtain ⟨ids, cells, h2, h3, h4⟩ := s.entries (r.good.core.unpinned hp).2
      rw [← h4]
      exact ⟨pw', .again h1 hp hm (by rw [hx, s.rep.maxUnits]) h2 h3 b1, b2⟩
    | @call _ h w0 _ _ _ r hl hs ih =>
      obtain ⟨pw0, h1, s⟩ := ih
      obtain ⟨pw', b1, b2⟩ := step_sim s (uniqueDeferred r.good.core) hs
      refine ⟨pw', ?_, b2⟩
      have hnow : World.now E w0 = PWorld.now E pw0 := by
        unfold PWorld.now World.now
        rw [s.tick]
      rw [hnow]
      rw [← s.ext] at hl
      exact .call h1 hl b1
  obtain ⟨pw, h1, s⟩ := key
  exact ⟨pw, h1, s.ext⟩

/-! ### No leaks -/

/-- Every value that was inserted and not yet handed to the deleter is held by exactly one element,
every other value by none: elements are neither leaked nor duplicated. -/
theorem C83_no_leak (hE : E.dbg = false ∨ Mono E.clk) (r : Reach E cfg h pw) (p : Nat) :
    (insertedPtrs h).count p = pw.ext.count p + (holders pw p).length ∧ (holders pw p).length ≤ 1 ∧
    ∀ i, pw.cache.nextId ≤ i → pw.cache.cell i = none := by
  obtain ⟨w, h1, s⟩ := r.sim hE
  have co := h1.good.core
  have hlive : ∀ i, (pw.cache.cell i).isSome ↔ ∃ e ∈ w.cache.all, e.id = i := by
    intro i
    rw [s.rep.live i]
    simp [idsOf, Cache.all, or_and_right, exists_or]
  have hcell : ∀ e ∈ w.cache.all, pw.cache.cell e.id = some (cellOf id e) := by
    intro e he
    rcases List.mem_append.mp he with he | he
    · exact s.rep.cellN e he
    · exact s.rep.cellD e he
  have hold : ∀ i, i ∈ holders pw p ↔ ∃ e ∈ w.cache.all, e.id = i ∧ e.ptr = p := by
    intro i
    unfold holders
    rw [List.mem_filter, List.mem_range]
    constructor
    · rintro ⟨_, h2⟩
      obtain ⟨cl, h3, h4⟩ : ∃ cl, pw.cache.cell i = some cl ∧ (cl.ptr == p) = true := by
        cases hc : pw.cache.cell i with
        | none => rw [hc] at h2; cases h2
        | some cl => rw [hc] at h2; exact ⟨cl, rfl, h2⟩
      obtain ⟨e, he, rfl⟩ := (hlive i).mp (by rw [h3]; rfl)
      rw [hcell e he] at h3
      refine ⟨e, he, rfl, ?_⟩
      cases h3
      simpa [cellOf] using h4
    · rintro ⟨e, he, rfl, rfl⟩
      refine ⟨?_, ?_⟩
      · rw [s.rep.nextId]; exact co.fresh e he
      · rw [hcell e he]; simp [cellOf]
  have hperm : (holders pw p).Perm ((w.cache.all.filter (fun e => e.ptr == p)).map (·.id)) := by
    refine (List.perm_ext_iff_of_nodup (List.nodup_range.filter _) (co.ids.sublist (List.filter_sublist.map _))).mpr ?_
    intro i
    refine (hold i).trans ?_
    simp only [List.mem_map, List.mem_filter, beq_iff_eq]
    constructor
    · rintro ⟨e, he, hi, hp⟩; exact ⟨e, ⟨he, hp⟩, hi⟩
    · rintro ⟨e, ⟨he, hp⟩, hi⟩; exact ⟨e, he, hi, hp⟩
  have hlen : (holders pw p).length = (w.cache.all.map (·.ptr)).count p := by
    rw [hperm.length_eq, List.length_map, List.count_eq_length_filter, List.filter_map, List.length_map]
    rfl
  refine ⟨?_, ?_, ?_⟩
  · rw [hlen, s.ext]; exact co.cnt p
  · rw [hlen]; exact List.nodup_iff_count_le_one.mp co.ptrs p
  · intro i hi
    by_contra hne
    obtain ⟨e, he, rfl⟩ := (hlive i).mp (Option.isSome_iff_ne_none.mpr hne)
    have := co.fresh e he
    rw [s.rep.nextId] at hi
    omega

/-! ### The lists -/

theorem walk_prev {pv : Loc → Option Loc} {b : Loc} : ∀ (l : List Nat) (a : Loc),
    List.IsChain (fun x y => pv x = some y) (a :: (locs l ++ [b])) → Walk pv b a l
  | [], a, hc => (List.isChain_cons_cons.mp hc).1
  | i :: l, a, hc => by
    have hc' : List.IsChain (fun x y => pv x = some y) (a :: .elem i :: (locs l ++ [b])) := hc
    rw [List.isChain_cons_cons] at hc'
    exact ⟨hc'.1, walk_prev l _ hc'.2⟩

/-- The eviction list.  Following `next` from the head visits the elements of a list `l` once each and
comes back to the head; following `prev` visits them in the opposite order.  The list consists of the
entries of the table that are not pinned (in age mode: of all entries), most recently used (in age
mode: inserted) first. -/
theorem C83_eviction_list (hE : E.dbg = false ∨ Mono E.clk) (r : Reach E cfg h pw) :
    ∃ l : List Nat, l.Nodup ∧ Walk pw.cache.next .head .head l ∧ Walk pw.cache.prev .head .head l.reverse ∧
      (∀ i, i ∈ l ↔ ∃ k c, (k, i) ∈ pw.cache.table ∧ pw.cache.cell i = some c ∧
        (cfg.lru = true → held k c.ptr h = 0)) ∧
      l.Pairwise (fun i j => ∀ c d, pw.cache.cell i = some c → pw.cache.cell j = some d →
        stamp cfg.lru d.ptr h < stamp cfg.lru c.ptr h) := by
  obtain ⟨w, h1, s⟩ := r.sim hE
  have co := h1.good.core
  refine ⟨linkedIds w.cache.nodes, ?_, ?_, ?_, ?_, ?_⟩
  · exact locs_nodup.mp (List.nodup_cons.mp s.rep.ring_nodup).2
  · exact walk_next _ _ (ring_cons.mp s.rep.ring)
  · have := ring_back s.rep.ring
    exact walk_prev _ _ (by simpa [locs] using this)
  · intro i
    rw [mem_linkedIds]
    constructor
    · rintro ⟨e, he, hl, rfl⟩
      refine ⟨e.key, cellOf id e, s.tab.perm.mem_iff.mpr (List.mem_map.mpr ⟨e, he, rfl⟩), s.rep.cellN e he, ?_⟩
      intro hlru
      have := co.pins e (by simp [Cache.all, he])
      show held e.key e.ptr h = 0
      rw [← this]
      exact (co.link e he).mp hl hlru
    · rintro ⟨k, c, hm, hc, hh⟩
      obtain ⟨e, he, heq⟩ := List.mem_map.mp (s.tab.perm.mem_iff.mp hm)
      cases heq
      refine ⟨e, he, ?_, rfl⟩
      rw [s.rep.cellN e he] at hc
      cases hc
      refine (co.link e he).mpr ?_
      intro hlru
      rw [co.pins e (by simp [Cache.all, he])]
      exact hh hlru
  · unfold linkedIds
    rw [List.pairwise_map, List.pairwise_filter]
    refine (co.ring.imp_of_mem ?_)
    intro a b ha hb hab hla hlb c d hc hd
    rw [s.rep.cellN a ha] at hc
    rw [s.rep.cellN b hb] at hd
    cases hc; cases hd
    exact hab (by simpa using hla) (by simpa using hlb)

/-- The lists of removed entries that are still pinned, one for each key.  Following `next` from the
element recorded for a key visits elements `l` once each and comes back, and `prev` visits them in the
opposite order; these are exactly the elements with this key that are not in the table; and all of them
are pinned. -/
theorem C83_deferred_lists (hE : E.dbg = false ∨ Mono E.clk) (r : Reach E cfg h pw) (k : Bytes) :
    (∀ hd, assoc k pw.cache.defer = some hd → ∃ l : List Nat, (hd :: l).Nodup ∧
      Walk pw.cache.next (.elem hd) (.elem hd) l ∧ Walk pw.cache.prev (.elem hd) (.elem hd) l.reverse ∧
      ∀ i, i ∈ hd :: l ↔ ∃ c, pw.cache.cell i = some c ∧ c.key = k ∧ (k, i) ∉ pw.cache.table) ∧
    (∀ i c, pw.cache.cell i = some c → c.key = k → (k, i) ∉ pw.cache.table →
      0 < held k c.ptr h ∧ (assoc k pw.cache.defer).isSome) := by
  obtain ⟨w, h1, s⟩ := r.sim hE
  have co := h1.good.core
  obtain ⟨G, hG⟩ := s.rep.groups
  have hcell : ∀ i c, pw.cache.cell i = some c → (k, i) ∉ pw.cache.table → c.key = k →
      ∃ e ∈ w.cache.defer, e.id = i ∧ cellOf id e = c := by
    intro i c hc hn hk
    have hm := (s.rep.live i).mp (by rw [hc]; rfl)
    unfold idsOf at hm
    simp only [List.append_nil, List.mem_append, List.mem_map] at hm
    rcases hm with ⟨e, he, rfl⟩ | ⟨e, he, rfl⟩
    · rw [s.rep.cellN e he] at hc
      cases hc
      exact absurd (s.tab.perm.mem_iff.mpr (List.mem_map.mpr ⟨e, he, by rw [← hk]; rfl⟩)) hn
    · rw [s.rep.cellD e he] at hc
      cases hc
      exact ⟨e, he, rfl, rfl⟩
  have hnot : ∀ e ∈ w.cache.defer, (k, e.id) ∉ pw.cache.table := by
    intro e he hm
    obtain ⟨x, hx, heq⟩ := List.mem_map.mp (s.tab.perm.mem_iff.mp hm)
    exact s.rep.disjoint hx he (by simpa using congrArg Prod.snd heq)
  constructor
  · intro hd ha
    obtain ⟨G1, G2, t, hGe⟩ := hG.at ha
    have hgm : (k, hd :: t) ∈ G := by rw [hGe]; simp
    refine ⟨t, hG.nodup s.rep.idsD hgm, ?_, ?_, ?_⟩
    · exact walk_next _ _ (ring_cons.mp (hG.ring _ hgm))
    · have := ring_back (hG.ring _ hgm)
      exact walk_prev _ _ (by simpa [locs] using this)
    · intro i
      constructor
      · intro hi
        obtain ⟨e, he, rfl, hk⟩ := hG.key _ hgm i hi
        exact ⟨cellOf id e, s.rep.cellD e he, hk, hnot e he⟩
      · rintro ⟨c, hc, hk, hn⟩
        obtain ⟨e, he, rfl, rfl⟩ := hcell i c hc hn hk
        exact (hG.mem_iff s.rep.idsD hGe he).mpr hk
  · intro i c hc hk hn
    obtain ⟨e, he, rfl, rfl⟩ := hcell i c hc hn hk
    have hk' : e.key = k := hk
    subst hk'
    refine ⟨?_, ?_⟩
    · show 0 < held e.key e.ptr h
      rw [← co.pins e (by simp [Cache.all, he])]
      exact co.pinD e he
    · cases ha : assoc e.key pw.cache.defer with
      | some _ => rfl
      | none =>
        obtain ⟨G1, G2, l, hGe, _⟩ := hG.of s.rep.idsD he
        exact absurd rfl (hG.none ha (e.key, l) (by rw [hGe]; simp))

/-- The queries as they walk the lists: `StillInUse`, `DeferredEntries`, `DeferredSize`. -/
theorem C83_queries (hE : E.dbg = false ∨ Mono E.clk) (r : Reach E cfg h pw) :
    (∀ k p, ∃ b, pw.cache.stillInUse k (some p) = .ok b ∧
      (b = true ↔ present pw k = some p ∨ 0 < held k p h)) ∧
    (∀ k, ∃ b, pw.cache.stillInUse k none = .ok b ∧
      (b = true ↔ present pw k ≠ none ∨ ∃ p, 0 < held k p h)) ∧
    ∃ L : List (Bytes × Nat), L.Nodup ∧ (∀ k p, (k, p) ∈ L ↔ 0 < held k p h ∧ present pw k ≠ some p) ∧
      pw.cache.countDeferred = .ok (L.length, (L.map (fun x => (unitsOf x.2 h : Int))).sum) := by
  obtain ⟨w, h1, s⟩ := r.sim hE
  refine ⟨?_, ?_, ?_⟩
  · intro k p
    refine ⟨_, stillInUse_eq s k (some p), ?_⟩
    rw [present_eq s]
    exact (C80_still_in_use h1 k).1 p
  · intro k
    refine ⟨_, stillInUse_eq s k none, ?_⟩
    rw [present_eq s]
    exact (C80_still_in_use h1 k).2
  · obtain ⟨L, a1, a2, a3, a4⟩ := C80_deferred h1
    refine ⟨L, a1, ?_, ?_⟩
    · intro k p
      rw [a2, present_eq s]
    · rw [countDeferred_eq s.rep, a3, a4]

/-! ### Non-vacuity -/

/-- Run calls, stopping at the first illegal one. -/
def runLegal (E : Env) (cfg : Config) : List (Call β) → Option (Hist β × PWorld (List Nat) β)
  | [] =>
    match setTimeout E logDel cfg.cycles cfg.lru
      { cache := PCache.new cfg.maxUnits, tick := 0, ext := [] } with
    | .ok w => some ([], w)
    | .error _ => none
  | c :: cs =>
    match runLegal E cfg cs with
    | none => none
    | some (h, w) =>
      if legalB cfg.lru h w.ext c then
        match step E c w with
        | .ok (w', out) => some ({ call := c, out := out, time := w.now E } :: h, w')
        | .error _ => none
      else none

theorem runLegal_reach (cs : List (Call β)) : ∀ {h : Hist β} {w : PWorld (List Nat) β},
    runLegal E cfg cs = some (h, w) → Reach E cfg h w := by
  induction cs with
  | nil =>
    intro h w hr
    simp only [runLegal] at hr
    split at hr
    · rename_i w1 h1; cases hr; exact .init h1
    · cases hr
  | cons c cs ih =>
    intro h w hr
    simp only [runLegal] at hr
    split at hr
    · cases hr
    · rename_i h1 w1 h2
      split at hr
      · rename_i hl
        split at hr
        · rename_i w2 out hs; cases hr; exact .call (ih h2) (legalB_sound hl) hs
        · cases hr
      · cases hr

/-- `sampleCalls`, after which the removed and still pinned entry `3` is inserted and removed twice
more: its list of removed entries has three elements. -/
def ringCalls : List (Call Nat) :=
  [.remove (sampleKey 3), .insertPinned (sampleKey 3) 16 0 1,
   .remove (sampleKey 3), .insertPinned (sampleKey 3) 15 0 1] ++ sampleCalls

example : ∃ h w, runLegal sampleEnv sampleCfg ringCalls = some (h, w) ∧ Reach sampleEnv sampleCfg h w ∧
    w.ext = [12, 11] ∧ w.cache.table = [(sampleKey 4, 3)] ∧ w.cache.defer = [(sampleKey 3, 2)] ∧
    w.cache.next (.elem 2) = some (.elem 5) ∧ w.cache.next (.elem 5) = some (.elem 4) ∧
    w.cache.next (.elem 4) = some (.elem 2) ∧ w.cache.prev (.elem 2) = some (.elem 4) := by
  have hr : ∃ h w, runLegal sampleEnv sampleCfg ringCalls = some (h, w) ∧
      w.ext = [12, 11] ∧ w.cache.table = [(sampleKey 4, 3)] ∧ w.cache.defer = [(sampleKey 3, 2)] ∧
      w.cache.next (.elem 2) = some (.elem 5) ∧ w.cache.next (.elem 5) = some (.elem 4) ∧
      w.cache.next (.elem 4) = some (.elem 2) ∧ w.cache.prev (.elem 2) = some (.elem 4) :=
    ⟨_, _, rfl, by decide⟩
  obtain ⟨h, w, h1, h2⟩ := hr
  exact ⟨h, w, h1, runLegal_reach _ h1, h2⟩

/-- The head of that list is released first, and another element takes its place. -/
example : ∃ h w, runLegal sampleEnv sampleCfg (.release true (sampleKey 3) 13 :: ringCalls) = some (h, w) ∧
    Reach sampleEnv sampleCfg h w ∧ w.ext = [12, 11, 13] ∧ w.cache.defer = [(sampleKey 3, 4)] ∧
    w.cache.next (.elem 5) = some (.elem 4) ∧ w.cache.next (.elem 4) = some (.elem 5) ∧
    w.cache.cell 2 = none := by
  have hr : ∃ h w, runLegal sampleEnv sampleCfg (.release true (sampleKey 3) 13 :: ringCalls) = some (h, w) ∧
      w.ext = [12, 11, 13] ∧ w.cache.defer = [(sampleKey 3, 4)] ∧
      w.cache.next (.elem 5) = some (.elem 4) ∧ w.cache.next (.elem 4) = some (.elem 5) ∧
      w.cache.cell 2 = none :=
    ⟨_, _, rfl, by decide⟩
  obtain ⟨h, w, h1, h2⟩ := hr
  exact ⟨h, w, h1, runLegal_reach _ h1, h2⟩

/-- Two idle entries on the eviction list, the last used first. -/
example : ∃ h w, runLegal sampleEnv sampleCfg (sampleCalls.drop 3) = some (h, w) ∧
    Reach sampleEnv sampleCfg h w ∧ Walk w.cache.next .head .head [0, 2, 1] := by
  have hr : ∃ h w, runLegal sampleEnv sampleCfg (sampleCalls.drop 3) = some (h, w) ∧
      (w.cache.next .head = some (.elem 0) ∧ w.cache.next (.elem 0) = some (.elem 2) ∧
        w.cache.next (.elem 2) = some (.elem 1) ∧ w.cache.next (.elem 1) = some .head) :=
    ⟨_, _, rfl, by decide⟩
  obtain ⟨h, w, h1, h2⟩ := hr
  exact ⟨h, w, h1, runLegal_reach _ h1, h2⟩

end Verif.Lru.Ptr
