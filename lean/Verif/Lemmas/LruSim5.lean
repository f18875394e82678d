import Verif.Lemmas.LruSim4
import Verif.Spec.LruPointers
import Verif.Props.LruQueries
/-
Queries; histories.
-/
namespace Verif.Lru.Ptr

variable {σ β γ : Type} {vw : β → γ} {Z : List Nat} {p : PCache γ} {c : Cache β}

/-! ### Queries -/

theorem any_congr' {l : List (Elem β)} {f f' : Elem β → Bool} (h : ∀ e ∈ l, f e = f' e) : l.any f = l.any f' := by
  induction l with
  | nil => rfl
  | cons a l ih => rw [List.any_cons, List.any_cons, h a (by simp), ih (fun e he => h e (by simp [he]))]

theorem inDeferred_chain {h : Nat} {v : Option Nat} (r : Rep vw Z p c) : ∀ (xs : List Nat) (x n : Nat),
    xs.length < n →
    List.IsChain (fun x y => p.prev x = some y) (locs (x :: (xs ++ [h]))) →
    (∀ i ∈ xs, i ≠ h) → (∀ i ∈ x :: xs, ∃ e ∈ c.defer, e.id = i) →
    inDeferred h v p n (some (.elem x)) =
      .ok (c.defer.any (fun e => decide (e.id ∈ x :: xs) && (v == none || v == some e.ptr)))
  | xs, x, 0, hn, _, _, _ => by omega
  | xs, x, n + 1, hn, hc, hh, hx => by
    obtain ⟨e, he, rfl⟩ := hx x (by simp)
    unfold inDeferred
    simp only [bind, Except.bind, load_ok (r.cellD e he)]
    have hptr : (cellOf vw e).ptr = e.ptr := rfl
    rw [hptr]
    by_cases hm : v = none ∨ v = some e.ptr
    · rw [if_pos hm]
      congr 1
      symm
      rw [List.any_eq_true]
      exact ⟨e, he, by simpa using hm⟩
    · rw [if_neg hm]
      have hal : Alive p (.elem e.id) := by
        show (p.cell e.id).isSome
        rw [r.cellD e he]; rfl
      simp only [getPrev, deref_alive hal, bind, Except.bind]
      have skip : ∀ f ∈ c.defer, (decide (f.id ∈ e.id :: xs) && (v == none || v == some f.ptr)) =
          (decide (f.id ∈ xs) && (v == none || v == some f.ptr)) := by
        intro f hf
        by_cases hfe : f.id = e.id
        · have := List.inj_on_of_nodup_map r.idsD hf he hfe
          subst this
          have hm' : (v == none || v == some f.ptr) = false := by
            rw [Bool.eq_false_iff]; simpa using hm
          rw [hm', Bool.and_false, Bool.and_false]
        · simp [hfe]
      rw [show c.defer.any (fun f => decide (f.id ∈ e.id :: xs) && (v == none || v == some f.ptr)) =
        c.defer.any (fun f => decide (f.id ∈ xs) && (v == none || v == some f.ptr)) from
          any_congr' skip]
      cases xs with
      | nil =>
        have : p.prev (.elem e.id) = some (.elem h) := by simpa [locs] using hc
        rw [this, if_neg (by simp)]
        simp
      | cons y ys =>
        have hc2 : List.IsChain (fun x y => p.prev x = some y) (.elem e.id :: .elem y :: locs (ys ++ [h])) := hc
        rw [List.isChain_cons_cons] at hc2
        rw [hc2.1, if_pos (by have := hh y (by simp); simpa using this)]
        exact inDeferred_chain r ys y n (by simp at hn; omega) hc2.2
          (fun i hi => hh i (by simp [hi])) (fun i hi => hx i (by simp at hi ⊢; tauto))

theorem back_chain {G : List (Bytes × List Nat)} (r : Rep vw Z p c)
    (hG : Groups p.next p.prev p.defer c.defer G) {k : Bytes} {h : Nat} {t : List Nat} (hg : (k, h :: t) ∈ G) :
    List.IsChain (fun x y => p.prev x = some y) (locs (h :: (t.reverse ++ [h]))) ∧ (h :: t).Nodup ∧
    (∀ i ∈ h :: t, ∃ e ∈ c.defer, e.id = i) ∧ (h :: t).length ≤ p.nextId ∧ (∀ i ∈ t.reverse, i ≠ h) := by
  have hgd := hG.nodup r.idsD hg
  have hel : ∀ i ∈ h :: t, ∃ e ∈ c.defer, e.id = i := by
    intro i hi
    obtain ⟨e, he, h1, _⟩ := hG.key _ hg i hi
    exact ⟨e, he, h1⟩
  refine ⟨?_, hgd, hel, ?_, ?_⟩
  · simpa [locs] using ring_back (hG.ring _ hg)
  · refine length_le_of_nodup hgd ?_
    intro i hi
    obtain ⟨e, he, h1⟩ := hel i hi
    rw [r.nextId, ← h1]
    exact r.fresh e.id (by unfold idsOf; simp; exact .inr (.inl ⟨e, he, rfl⟩))
  · intro i hi
    rintro rfl
    exact (List.nodup_cons.mp hgd).1 (by simpa using hi)

theorem inDeferredTable_eq (r : Rep vw Z p c) (k : Bytes) (v : Option Nat) :
    p.inDeferredTable k v = .ok (c.defer.any (fun e => e.key == k && (v == none || v == some e.ptr))) := by
  obtain ⟨G, hG⟩ := r.groups
  unfold PCache.inDeferredTable
  cases ha : assoc k p.defer with
  | none =>
    simp only
    congr 1
    symm
    rw [List.any_eq_false]
    intro e he
    obtain ⟨G1, G2, l, hGe, _⟩ := hG.of r.idsD he
    have := hG.none ha (e.key, l) (by rw [hGe]; simp)
    simp [this]
  | some h =>
    obtain ⟨G1, G2, t, hGe⟩ := hG.at ha
    have hgm : (k, h :: t) ∈ G := by rw [hGe]; simp
    obtain ⟨b1, b2, b3, b4, b5⟩ := back_chain r hG hgm
    simp only
    rw [inDeferred_chain r t.reverse h (p.nextId + 1) (by simp at b4 ⊢; omega) b1 b5
      (fun i hi => b3 i (by simpa using hi))]
    congr 1
    apply any_congr'
    intro e he
    have := hG.mem_iff r.idsD hGe he
    have h2 : decide (e.id ∈ h :: t.reverse) = (e.key == k) := by
      rw [Bool.eq_iff_iff]; simpa using this
    rw [h2]

theorem stillInUse_eq {τ : Type} {I : Joint τ σ β γ} {Q : List (Item β)} {w : World σ β} {pw : PWorld τ γ} (s : Sim I Z Q pw w) (k : Bytes) (v : Option Nat) :
    pw.cache.stillInUse k v = .ok (w.cache.stillInUse k v) := by
  unfold PCache.stillInUse Cache.stillInUse
  rw [s.tab.find]
  cases hf : findKey k w.cache.nodes with
  | none =>
    simp only [Option.map_none]
    rw [inDeferredTable_eq s.rep]
    simp [Option.filter]
  | some e =>
    obtain ⟨he, rfl⟩ := (findKey_iff s.tab.keys).mp hf
    simp only [Option.map_some, bind, Except.bind, load_ok (s.rep.cellN e he)]
    have hptr : (cellOf I.view e).ptr = e.ptr := rfl
    rw [hptr]
    by_cases hm : v = none ∨ v = some e.ptr
    · have hm' : (v == none || v == some e.ptr) = true := by simpa using hm
      rw [if_pos hm]
      simp only [Option.filter, hm', if_true, Option.isSome_some, Bool.true_or]
    · have hm' : (v == none || v == some e.ptr) = false := by
        rw [Bool.eq_false_iff]; simpa using hm
      rw [if_neg hm, inDeferredTable_eq s.rep]
      simp only [Option.filter, hm', Bool.false_eq_true, if_false, Option.isSome_none, Bool.false_or]

/-- The size of the element at an address. -/
def unitsAt (p : PCache γ) (i : Nat) : Int :=
  match p.cell i with
  | some c => c.units
  | none => 0

theorem countRing_chain {h : Nat} : ∀ (xs : List Nat) (x n num : Nat) (size : Int),
    xs.length < n →
    List.IsChain (fun x y => p.prev x = some y) (locs (x :: (xs ++ [h]))) →
    (∀ i ∈ xs, i ≠ h) → (∀ i ∈ x :: xs, (p.cell i).isSome) →
    countRing h p n (some (.elem x)) (num, size) =
      .ok (num + (x :: xs).length, size + ((x :: xs).map (unitsAt p)).sum)
  | xs, x, 0, _, _, hn, _, _, _ => by omega
  | xs, x, n + 1, num, size, hn, hc, hh, hx => by
    obtain ⟨e, he⟩ := Option.isSome_iff_exists.mp (hx x (by simp))
    unfold countRing
    simp only [bind, Except.bind, load_ok he]
    have hal : Alive p (.elem x) := hx x (by simp)
    simp only [getPrev, deref_alive hal, bind, Except.bind]
    have hu : unitsAt p x = e.units := by simp [unitsAt, he]
    cases xs with
    | nil =>
      have : p.prev (.elem x) = some (.elem h) := by simpa [locs] using hc
      rw [this, if_neg (by simp)]
      simp [hu]
    | cons y ys =>
      have hc2 : List.IsChain (fun x y => p.prev x = some y) (.elem x :: .elem y :: locs (ys ++ [h])) := hc
      rw [List.isChain_cons_cons] at hc2
      rw [hc2.1, if_pos (by have := hh y (by simp); simpa using this)]
      rw [countRing_chain ys y n _ _ (by simp at hn; omega) hc2.2
        (fun i hi => hh i (by simp [hi])) (fun i hi => hx i (by simp at hi ⊢; tauto))]
      congr 2
      · simp only [List.length_cons]; omega
      · simp only [List.map_cons, List.sum_cons, hu]; omega

theorem countDeferred_eq (r : Rep vw Z p c) :
    p.countDeferred = .ok (c.deferredEntries, c.deferredSize) := by
  obtain ⟨G, hG⟩ := r.groups
  have loop : ∀ (G' : List (Bytes × List Nat)), (∀ g ∈ G', g ∈ G) → ∀ (num : Nat) (size : Int),
      (G'.map (fun g => (g.1, g.2.headD 0))).foldlM
        (fun acc x => countRing x.2 p (p.nextId + 1) (some (.elem x.2)) acc) (num, size) =
      .ok (num + (G'.flatMap (·.2)).length, size + ((G'.flatMap (·.2)).map (unitsAt p)).sum) := by
    intro G'
    induction G' with
    | nil => intro _ num size; simp [pure, Except.pure]
    | cons g G' ih =>
      intro hs num size
      obtain ⟨k, l⟩ := g
      have hg := hs (k, l) (by simp)
      cases l with
      | nil => exact absurd rfl (hG.ne _ hg)
      | cons h t =>
        obtain ⟨b1, b2, b3, b4, b5⟩ := back_chain r hG hg
        rw [List.map_cons, List.foldlM_cons]
        simp only [List.headD_cons]
        rw [countRing_chain t.reverse h (p.nextId + 1) num size (by simp at b4 ⊢; omega) b1 b5 (by
          intro i hi
          obtain ⟨e, he, rfl⟩ := b3 i (by simpa using hi)
          rw [r.cellD e he]; rfl)]
        simp only [bind, Except.bind]
        rw [ih (fun g hg => hs g (by simp [hg]))]
        congr 2
        · simp only [List.flatMap_cons, List.length_append, List.length_cons, List.length_reverse]; omega
        · simp only [List.flatMap_cons, List.map_append, List.map_cons, List.map_reverse, List.sum_append,
            List.sum_cons, List.sum_reverse]
          omega
  unfold PCache.countDeferred
  rw [hG.defer, loop G (fun _ h => h)]
  have h1 := hG.ids.length_eq
  have h2 := (hG.ids.map (unitsAt p)).sum_eq
  have h3 : (c.defer.map (·.id)).map (unitsAt p) = c.defer.map (fun e => (e.units : Int)) := by
    rw [List.map_map]
    apply List.map_congr_left
    intro e he
    show unitsAt p e.id = _
    simp [unitsAt, r.cellD e he, cellOf]
  rw [h3] at h2
  rw [h1, h2]
  simp [Cache.deferredEntries, Cache.deferredSize]

/-! ### Histories -/

def logF : Cell β → List Nat → List Nat := fun c d => d ++ [c.ptr]

theorem pDel_log : (logDel : PDeleter (List Nat) β) = pDel logF := rfl
theorem aDel_log : (Lru.logDel : Deleter (List Nat) β) = aDel logF := rfl

theorem uniqueDeferred {lru : Bool} {h : Hist β} {w : World (List Nat) β} (co : Core lru h w) :
    UniqueDeferred w.cache := by
  intro a ha b hb _ hp
  have hn := co.ptrs
  rw [Cache.all, List.map_append, List.nodup_append] at hn
  exact List.inj_on_of_nodup_map hn.2.1 ha hb hp

theorem map_ok {α γ : Type} {x : Res α} {f : α → γ} {y : γ} (h : x.map f = .ok y) :
    ∃ a, x = .ok a ∧ f a = y := by
  cases x with
  | error e => cases h
  | ok a => exact ⟨a, rfl, by simpa [Except.map] using h⟩

theorem same_any {Q Q' : List (Item β)} {pw : PWorld σ β} {w : World σ β} (s : Sim (sameExt σ β) Z Q pw w) :
    Sim (sameExt σ β) Z Q' pw w := ⟨⟨s.rep, s.tick, s.inv⟩, s.tab⟩

theorem step_sim {E : Env} {pw : PWorld (List Nat) β} {w w' : World (List Nat) β} {cl : Call β}
    {out : Option Nat} (s : Sim (sameExt _ _) Z [] pw w) (hu : UniqueDeferred w.cache)
    (h : Lru.step E cl w = .ok (w', out)) : ∃ pw', step E cl pw = .ok (pw', out) ∧ Sim (sameExt _ _) Z [] pw' w' := by
  cases cl <;> simp only [Lru.step, step, pDel_log, aDel_log] at h ⊢
  case insertPinned =>
    obtain ⟨a, h1, h2⟩ := map_ok h
    cases h2
    obtain ⟨pw', b1, b2⟩ := insertPinned_quiet (quiet_same logF) (Q := []) (same_any s) h1
    simp only [sameExt, id_eq] at b1
    exact ⟨pw', by rw [show pDel logF = extDel (γ := β) (fun c x => .ok (logF c x)) from rfl, b1]; rfl, b2⟩
  case lookup =>
    obtain ⟨⟨a, r⟩, h1, h2⟩ := map_ok h
    cases h2
    obtain ⟨pw', b1, b2⟩ := lookup_sim (follows_same logF) s h1
    exact ⟨pw', b1, b2⟩
  case release =>
    obtain ⟨a, h1, h2⟩ := map_ok h
    cases h2
    obtain ⟨pw', b1, b2⟩ := release_sim (follows_same logF) s ⟨_, _, rfl, rfl, quiet_same logF, hu⟩ h1
    exact ⟨pw', by rw [b1]; rfl, b2⟩
  case remove =>
    obtain ⟨a, h1, h2⟩ := map_ok h
    cases h2
    obtain ⟨pw', b1, b2, _⟩ := remove_sim (follows_same logF) s h1
    exact ⟨pw', by rw [b1]; rfl, b2⟩
  case removeAll =>
    obtain ⟨a, h1, h2⟩ := map_ok h
    cases h2
    obtain ⟨pw', b1, b2⟩ := removeAll_sim (quiet_same logF) s h1
    exact ⟨pw', by rw [show pDel logF = extDel (γ := β) (fun c x => .ok (logF c x)) from rfl, b1]; rfl, b2⟩
  case removeUnpinned =>
    obtain ⟨a, h1, h2⟩ := map_ok h
    cases h2
    obtain ⟨pw', b1, b2⟩ := removeUnpinned_sim (follows_same logF) s h1
    exact ⟨pw', by rw [b1]; rfl, b2⟩
  case clear =>
    obtain ⟨a, h1, h2⟩ := map_ok h
    cases h2
    obtain ⟨pw', b1, b2⟩ := clear_sim s h1
    exact ⟨pw', by rw [b1]; rfl, b2⟩
  case removeExpired =>
    obtain ⟨a, h1, h2⟩ := map_ok h
    cases h2
    obtain ⟨pw', b1, b2⟩ := removeExpired_sim (follows_same logF) s h1
    exact ⟨pw', by rw [b1]; rfl, b2⟩
  case updateSize =>
    obtain ⟨a, h1, h2⟩ := map_ok h
    cases h2
    obtain ⟨pw', b1, b2⟩ := updateSize_sim (follows_same logF) s h1
    exact ⟨pw', by rw [b1]; rfl, b2⟩
  case setMaxSize =>
    obtain ⟨a, h1, h2⟩ := map_ok h
    cases h2
    obtain ⟨pw', b1, b2⟩ := setMaxSize_sim (follows_same logF) s h1
    exact ⟨pw', by rw [b1]; rfl, b2⟩
  case write =>
    cases h
    exact ⟨_, rfl, setVal_sim s s.inv⟩

theorem new_sim (n : Int) :
    Sim (sameExt _ _) ([] : List Nat) [] { cache := PCache.new n, tick := 0, ext := ([] : List Nat) }
      { cache := (Cache.new n : Cache β), tick := 0, ext := [] } := by
  refine ⟨⟨?_, rfl, rfl⟩, ⟨by simp [PCache.new, Cache.new], by simp [Cache.new], by simp [PCache.new]⟩⟩
  exact
    { units := rfl, pinnedUnits := rfl, maxUnits := rfl, maxIdle := rfl, lru := rfl, nextId := rfl,
      ids := by simp [idsOf, Cache.new], fresh := by simp [idsOf, Cache.new],
      live := by simp [idsOf, Cache.new, PCache.new], cellN := by simp [Cache.new], cellD := by simp [Cache.new],
      ring := by
        show Ring _ _ [Loc.head]
        rw [ring_cons]
        exact List.isChain_pair.mpr ⟨by simp [PCache.new], by simp [PCache.new]⟩,
      off := by simp [Cache.new],
      groups := ⟨[], by simp [PCache.new], by simp, by simp, by simp [Cache.new], by simp, by simp⟩ }

theorem walk_next {nx pv : Loc → Option Loc} {b : Loc} : ∀ (l : List Nat) (a : Loc),
    List.IsChain (Adj nx pv) (a :: (locs l ++ [b])) → Walk nx b a l
  | [], a, hc => (List.isChain_pair.mp hc).1
  | i :: l, a, hc => by
    have hc' : List.IsChain (Adj nx pv) (a :: .elem i :: (locs l ++ [b])) := hc
    rw [List.isChain_cons_cons] at hc'
    exact ⟨hc'.1.1, walk_next l _ hc'.2⟩

theorem walk_unique {f : Loc → Option Loc} : ∀ {a : Loc} {l l' : List Nat}, Walk f .head a l → Walk f .head a l' → l = l'
  | _, [], [], _, _ => rfl
  | a, [], _ :: _, h, h' => by have h2 : f a = some .head := h; have h1 := h'.1; rw [h2] at h1; cases h1
  | a, _ :: _, [], h, h' => by have h2 : f a = some .head := h'; have h1 := h.1; rw [h2] at h1; cases h1
  | _, i :: l, j :: l', h, h' => by
    have h1 := h.1
    rw [h'.1] at h1
    cases h1
    rw [walk_unique h.2 h'.2]

theorem Sim.cleared {pw : PWorld (List Nat) β} {w : World (List Nat) β} (s : Sim (sameExt _ _) [] [] pw w) :
    Sim (sameExt (List Nat) β) [] [] { pw with ext := [] } { w with ext := [] } :=
  ⟨⟨s.rep, s.tick, rfl⟩, s.tab⟩

/-- The main chain, when every entry is on it. -/
theorem Sim.entries {pw : PWorld (List Nat) β} {w : World (List Nat) β} (s : Sim (sameExt _ _) [] [] pw w)
    (hl : ∀ e ∈ w.cache.nodes, e.pin = 0 ∧ e.linked = true) :
    ∃ (ids : List Nat) (cells : List (Cell β)), Walk pw.cache.next .head .head ids ∧
      ids.map pw.cache.cell = cells.map some ∧ cells.map Cell.entry = w.cache.nodes.map Elem.entry := by
  have hids : linkedIds w.cache.nodes = w.cache.nodes.map (·.id) := by
    unfold linkedIds
    rw [List.filter_eq_self.mpr (fun e he => (hl e he).2)]
  refine ⟨linkedIds w.cache.nodes, w.cache.nodes.map (cellOf id), walk_next _ _ (ring_cons.mp s.rep.ring), ?_, ?_⟩
  · rw [hids, List.map_map, List.map_map]
    exact List.map_congr_left (fun e he => s.rep.cellN e he)
  · rw [List.map_map]; rfl

/-- Every reachable state of the pointer-level cache is a reachable state of the cache with lists. -/
theorem Reach.sim {E : Env} {cfg : Config} {h : Hist β} {pw : PWorld (List Nat) β}
    (hE : E.dbg = false ∨ Mono E.clk) (r : Reach E cfg h pw) : ∃ w, Lru.Reach E cfg h w ∧ Sim (sameExt _ _) [] [] pw w := by
  induction r with
  | init h1 =>
    obtain ⟨w, h2, _⟩ := init_good (β := β) E _
    refine ⟨w, .init h2, ?_⟩
    rw [aDel_log] at h2
    rw [pDel_log] at h1
    obtain ⟨pw', b1, b2⟩ := setTimeout_sim (follows_same logF) (new_sim (β := β) _) h2
    rw [h1] at b1
    cases b1
    exact b2
  | @limit _ _ _ pw0 _ _ hl hx hk hs ih =>
    obtain ⟨w, h1, s⟩ := ih
    obtain ⟨w', h2, _⟩ := limit_good hE h1.good hl
    have hnow : PWorld.now E pw0 = World.now E w := by
      unfold PWorld.now World.now
      rw [s.tick]
    refine ⟨w', by rw [hnow]; exact .limit h1 hl hx hk h2, ?_⟩
    rw [aDel_log] at h2
    rw [pDel_log] at hs
    obtain ⟨pw', b1, b2⟩ := setTimeout_sim (follows_same logF) s h2
    rw [hs] at b1
    cases b1
    exact b2
  | again _ hp hm hx hw hc hs ih =>
    obtain ⟨w, h1, s⟩ := ih
    have g := h1.good
    obtain ⟨w', h2, _⟩ := again_good hE g hp hm
    obtain ⟨ids', cells', e1, e2, e3⟩ := s.entries (g.core.unpinned hp).2
    have hi := walk_unique hw e1
    subst hi
    rw [e2] at hc
    have hcc := List.map_injective_iff.mpr (Option.some_injective _) hc
    subst hcc
    refine ⟨w', by rw [e3]; exact .again h1 hp hm (by rw [hx, s.rep.maxUnits]) h2, ?_⟩
    rw [aDel_log] at h2
    rw [pDel_log] at hs
    obtain ⟨pw', b1, b2⟩ := setTimeout_sim (follows_same logF) s.cleared h2
    rw [hs] at b1
    cases b1
    exact b2
  | @call _ h pw0 _ _ _ r hl hs ih =>
    obtain ⟨w, h1, h2⟩ := ih
    rw [h2.ext] at hl
    obtain ⟨w', out, h3⟩ := C30_legal_call_succeeds hE h1 hl
    obtain ⟨pw', b1, b2⟩ := step_sim h2 (uniqueDeferred h1.good.core) h3
    rw [hs] at b1
    cases b1
    refine ⟨w', ?_, b2⟩
    have hnow : PWorld.now E pw0 = World.now E w := by
      unfold PWorld.now World.now
      rw [h2.tick]
    rw [hnow]
    exact .call h1 hl h3

end Verif.Lru.Ptr
