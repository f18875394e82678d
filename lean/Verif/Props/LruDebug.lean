import Verif.Props.LruAge
import Verif.Props.LruPointers
/-
C122 with pointers; C123: `DebugOutput` shows every element once.
-/
namespace Verif.Lru.Ptr

section
variable {β γ : Type} {vw : β → γ} {Z : List Nat} {p : PCache γ} {c : Cache β}

theorem age_eq (r : Rep vw Z p c) (now : Int) : p.ageOfLru now = c.ageOfLru now := by
  have hl := r.prevHead
  unfold ringLast at hl
  unfold PCache.ageOfLru Cache.ageOfLru
  cases hg : (c.nodes.filter (·.linked)).getLast? with
  | none =>
    rw [hg] at hl
    replace hl : p.prev .head = some .head := hl
    rw [if_pos hl]
  | some e =>
    rw [hg] at hl
    replace hl : p.prev .head = some (.elem e.id) := hl
    have he : e ∈ c.nodes := (List.mem_filter.mp (List.mem_of_getLast? hg)).1
    rw [if_neg (by rw [hl]; simp), hl, load_ok (r.cellN e he)]
    rfl

/-- What is shown of the element at an address. -/
def shownAt (p : PCache γ) (b : Bool) (i : Nat) : Shown :=
  match p.cell i with
  | some c => c.shown b
  | none => ⟨[], 0, 0, 0, b⟩

theorem debugRing_chain {h : Nat} : ∀ (xs : List Nat) (x n : Nat) (out : List Shown),
    xs.length < n →
    List.IsChain (fun x y => p.prev x = some y) (locs (x :: (xs ++ [h]))) →
    (∀ i ∈ xs, i ≠ h) → (∀ i ∈ x :: xs, (p.cell i).isSome) →
    debugRing h p n (some (.elem x)) out = .ok (out ++ (x :: xs).map (shownAt p true))
  | xs, x, 0, _, hn, _, _, _ => by omega
  | xs, x, n + 1, out, hn, hc, hh, hx => by
    obtain ⟨e, he⟩ := Option.isSome_iff_exists.mp (hx x (by simp))
    unfold debugRing
    simp only [bind, Except.bind, load_ok he]
    have hal : Alive p (.elem x) := hx x (by simp)
    simp only [getPrev, deref_alive hal, bind, Except.bind]
    have hu : shownAt p true x = e.shown true := by simp [shownAt, he]
    cases xs with
    | nil =>
      have : p.prev (.elem x) = some (.elem h) := by simpa [locs] using hc
      rw [this, if_neg (by simp)]
      simp [hu]
    | cons y ys =>
      have hc2 : List.IsChain (fun x y => p.prev x = some y) (.elem x :: .elem y :: locs (ys ++ [h])) := hc
      rw [List.isChain_cons_cons] at hc2
      rw [hc2.1, if_pos (by have := hh y (by simp); simpa using this)]
      rw [debugRing_chain ys y n _ (by simp at hn; omega) hc2.2
        (fun i hi => hh i (by simp [hi])) (fun i hi => hx i (by simp at hi ⊢; tauto))]
      simp [hu]

theorem debugTable_eq : ∀ (l : List (Elem β)) (out : List Shown), (∀ e ∈ l, p.cell e.id = some (cellOf vw e)) →
    (l.map (·.id)).foldlM (fun out i => do
      let (_, c) ← load (some (.elem i)) p
      (.ok (out ++ [c.shown false]) : Res (List Shown))) out =
    .ok (out ++ l.map fun e => (cellOf vw e).shown false)
  | [], out, _ => by simp [pure, Except.pure]
  | e :: l, out, h => by
    rw [List.map_cons, List.foldlM_cons, load_ok (h e (by simp))]
    simp only [bind, Except.bind]
    have := debugTable_eq l (out ++ [(cellOf vw e).shown false]) (fun e he => h e (by simp [he]))
    simp only [bind, Except.bind] at this
    rw [this]
    simp

theorem debugOutput_eq {E : Env} (r : Rep vw Z p c) (t : Tab p.table c) : ∃ D : List (Elem β), D.Perm c.defer ∧
    p.debugOutput E = .ok (((Lru.tableOrder E c.nodes).map fun e => (cellOf vw e).shown false) ++
      D.map fun e => (cellOf vw e).shown true) := by
  obtain ⟨G, hG⟩ := r.groups
  have hone : ∀ g ∈ G, G.filter (fun x => x.1 == g.1) = [g] := by
    rintro ⟨k, l⟩ hg
    obtain ⟨A, B, hAB⟩ := List.append_of_mem hg
    have hk := hG.keys
    rw [hAB]
    rw [hAB] at hk
    simp only [List.map_append, List.map_cons, List.nodup_append, List.nodup_cons] at hk
    have hA : A.filter (fun g => g.1 == k) = [] := by
      rw [List.filter_eq_nil_iff]
      intro g hg' he
      exact hk.2.2 g.1 (List.mem_map_of_mem hg') k (by simp) (by simpa using he)
    have hB : B.filter (fun g => g.1 == k) = [] := by
      rw [List.filter_eq_nil_iff]
      intro g hg' he
      exact hk.2.1.1 (by rw [← (beq_iff_eq.mp he : g.1 = k)]; exact List.mem_map_of_mem hg')
    simp [hA, hB]
  have loop : ∀ (G' : List (Bytes × Nat)), (∀ x ∈ G', x ∈ p.defer) → ∀ out : List Shown, ∃ is : List Nat,
      is.Perm (G'.flatMap fun x => (G.filter (fun g => g.1 == x.1)).flatMap (·.2)) ∧
      G'.foldlM (fun out x => debugRing x.2 p (p.nextId + 1) (some (.elem x.2)) out) out =
      .ok (out ++ is.map (shownAt p true)) := by
    intro G'
    induction G' with
    | nil => intro _ out; exact ⟨[], by simp, by simp [pure, Except.pure]⟩
    | cons x G' ih =>
      intro hs out
      have hx := hs x (by simp)
      rw [hG.defer] at hx
      obtain ⟨⟨k, l⟩, hg, rfl⟩ := List.mem_map.mp hx
      cases l with
      | nil => exact absurd rfl (hG.ne _ hg)
      | cons h t =>
        obtain ⟨b1, b2, b3, b4, b5⟩ := back_chain r hG hg
        have hone := hone _ hg
        simp only at hone
        obtain ⟨is, hp, he⟩ := ih (fun y hy => hs y (by simp [hy])) (out ++ (h :: t.reverse).map (shownAt p true))
        refine ⟨(h :: t.reverse) ++ is, ?_, ?_⟩
        · rw [List.flatMap_cons]
          simp only [hone, List.flatMap_cons, List.flatMap_nil, List.append_nil]
          exact List.Perm.append ((List.reverse_perm t).cons h) hp
        · rw [List.foldlM_cons]
          simp only [List.headD_cons]
          rw [debugRing_chain t.reverse h (p.nextId + 1) out (by simp at b4 ⊢; omega) b1 b5 (by
            intro i hi
            obtain ⟨e, he, rfl⟩ := b3 i (by simpa using hi)
            rw [r.cellD e he]; rfl)]
          simp only [bind, Except.bind]
          rw [he]
          simp
  obtain ⟨is, hp, he⟩ := loop (E.order.ord Nat p.defer) (fun x hx => (E.order.perm Nat p.defer).mem_iff.mp hx)
    ((Lru.tableOrder E c.nodes).map fun e => (cellOf vw e).shown false)
  have hall : is.Perm (c.defer.map (·.id)) := by
    refine (hp.trans ((E.order.perm Nat p.defer).flatMap_right _)).trans (.trans ?_ hG.ids)
    rw [hG.defer, List.flatMap_map]
    refine .of_eq ?_
    unfold List.flatMap
    congr 1
    apply List.map_congr_left
    intro g hg
    rw [hone g hg]
    simp
  have hD : ∃ D : List (Elem β), D.Perm c.defer ∧ is = D.map (·.id) := by
    have hf : List.Forall₂ (fun (i : Nat) (e : Elem β) => i = e.id) (c.defer.map (·.id)) c.defer := by
      rw [List.forall₂_map_left_iff, List.forall₂_same]
      exact fun _ _ => rfl
    obtain ⟨D, h1, h2⟩ := List.perm_comp_forall₂ hall hf
    refine ⟨D, h2, ?_⟩
    rw [← List.forall₂_eq_eq_eq, List.forall₂_map_right_iff]
    exact h1
  obtain ⟨D, hD1, rfl⟩ := hD
  refine ⟨D, hD1, ?_⟩
  unfold PCache.debugOutput
  rw [tableOrder_sim t r.idsN, debugTable_eq (vw := vw) _ _ (fun e he' => r.cellN e ((tableOrder_perm E c.nodes).mem_iff.mp he'))]
  simp only [bind, Except.bind, List.nil_append]
  rw [he, List.map_map]
  congr 2
  apply List.map_congr_left
  intro e hm
  show shownAt p true e.id = _
  simp [shownAt, r.cellD e (hD1.mem_iff.mp hm)]

end

section
variable {β : Type} {E : Env} {cfg : Config} {h : Hist β} {pw : PWorld (List Nat) β}

/-- **C122** (partial) as the code finds the element, following `head_.prev`. -/
theorem C122_age_pointers_partial (m : Mono E.clk) (r : Reach E cfg h pw)
    (small : ∀ k p, present pw k = some p → 1000000 * (pw.now E - touchTime cfg.lru p h) ≤ int64Max) :
    (∃ k p, present pw k = some p ∧ (cfg.lru = true → held k p h = 0) ∧
      pw.cache.ageOfLru (pw.now E) = .ok (pw.now E - touchTime cfg.lru p h) ∧
      ∀ k' p', present pw k' = some p' → (cfg.lru = true → held k' p' h = 0) →
        pw.now E - touchTime cfg.lru p' h ≤ pw.now E - touchTime cfg.lru p h) ∨
    ((∀ k p, present pw k = some p → cfg.lru = true ∧ held k p h ≠ 0) ∧
      pw.cache.ageOfLru (pw.now E) = .ok 0) := by
  obtain ⟨w, h1, s⟩ := r.sim (.inr m)
  have hnow : pw.now E = w.now E := by
    unfold PWorld.now World.now
    rw [s.tick]
  simp only [present_eq s, age_eq s.rep, hnow] at small ⊢
  rcases C122_age_partial m h1 small with ⟨k, p, h2, h3, h4⟩ | ⟨h2, h3⟩
  · exact .inl ⟨k, p, h2.1, h2.2, h3, fun k' p' h5 h6 => h4 k' p' ⟨h5, h6⟩⟩
  · refine .inr ⟨fun k p hp => ?_, h3⟩
    by_contra hcon
    exact h2 k p ⟨hp, fun hl => by_contra fun hh => hcon ⟨hl, hh⟩⟩

/-- **C123**.  `DebugOutput` returns, and shows first every entry of the cache and then every value that is
no longer in the cache but still in use, each once, with its key, the number of uses and which of the two it
is; of entries of the cache also the time of last use. -/
theorem C123_debug_output (hE : E.dbg = false ∨ Mono E.clk) (r : Reach E cfg h pw) :
    ∃ L D : List Shown, pw.cache.debugOutput E = .ok (L ++ D) ∧
      (L.map (·.ptr) ++ D.map (·.ptr)).Nodup ∧ (L.map (·.key)).Nodup ∧
      (∀ x ∈ L, x.deferred = false) ∧ (∀ x ∈ D, x.deferred = true) ∧
      (∀ k p n t, ⟨k, p, n, t, false⟩ ∈ L ↔
        present pw k = some p ∧ n = held k p h ∧ t = touchTime cfg.lru p h) ∧
      (∀ k p n, (∃ t, ⟨k, p, n, t, true⟩ ∈ D) ↔ present pw k ≠ some p ∧ n = held k p h ∧ 0 < n) := by
  obtain ⟨w, h1, s⟩ := r.sim hE
  have c := h1.good.core
  obtain ⟨D, hD, he⟩ := debugOutput_eq (E := E) s.rep s.tab
  have hT := tableOrder_perm E w.cache.nodes
  refine ⟨_, _, he, ?_, ?_, ?_, ?_, ?_, ?_⟩
  · have hp : (((Lru.tableOrder E w.cache.nodes).map (·.ptr)) ++ D.map (·.ptr)).Perm (w.cache.all.map (·.ptr)) := by
      unfold Cache.all
      rw [List.map_append]
      exact (hT.map _).append (hD.map _)
    have := hp.nodup_iff.mpr c.ptrs
    simpa [List.map_map, Function.comp_def, Cell.shown, cellOf] using this
  · have := (hT.map (·.key)).nodup_iff.mpr c.keys
    simpa [List.map_map, Function.comp_def, Cell.shown, cellOf] using this
  · intro x hx
    obtain ⟨e, _, rfl⟩ := List.mem_map.mp hx
    rfl
  · intro x hx
    obtain ⟨e, _, rfl⟩ := List.mem_map.mp hx
    rfl
  · intro k p n t
    rw [present_eq s]
    constructor
    · intro hx
      obtain ⟨e, hm, he⟩ := List.mem_map.mp hx
      have hm := hT.mem_iff.mp hm
      simp only [Cell.shown, cellOf, Shown.mk.injEq, and_true] at he
      obtain ⟨rfl, rfl, rfl, rfl⟩ := he
      refine ⟨?_, c.pins e (by simp [Cache.all, hm]), c.time e hm⟩
      unfold Lru.present
      rw [(findKey_iff c.keys).mpr ⟨hm, rfl⟩]
      rfl
    · rintro ⟨hp, rfl, rfl⟩
      unfold Lru.present at hp
      cases hf : findKey k w.cache.nodes with
      | none => rw [hf] at hp; cases hp
      | some e =>
        rw [hf] at hp
        simp only [Option.map_some, Option.some.injEq] at hp
        obtain ⟨hm, hk⟩ := (findKey_iff c.keys).mp hf
        refine List.mem_map.mpr ⟨e, hT.mem_iff.mpr hm, ?_⟩
        simp only [Cell.shown, cellOf, Shown.mk.injEq, and_true]
        refine ⟨hk, hp, ?_, ?_⟩
        · rw [c.pins e (by simp [Cache.all, hm]), hk, hp]
        · rw [c.time e hm, hp]
  · intro k p n
    rw [present_eq s]
    constructor
    · rintro ⟨t, hx⟩
      obtain ⟨e, hm, he⟩ := List.mem_map.mp hx
      have hm := hD.mem_iff.mp hm
      simp only [Cell.shown, cellOf, Shown.mk.injEq, and_true] at he
      obtain ⟨rfl, rfl, rfl, rfl⟩ := he
      exact ⟨((deferred_iff c).mp ⟨e, hm, rfl, rfl⟩).2, c.pins e (by simp [Cache.all, hm]), c.pinD e hm⟩
    · rintro ⟨hp, rfl, hn⟩
      obtain ⟨e, hm, rfl, rfl⟩ := (deferred_iff c).mpr ⟨hn, hp⟩
      exact ⟨e.lastUse, List.mem_map.mpr ⟨e, hD.mem_iff.mpr hm, by
        simp only [Cell.shown, cellOf, Shown.mk.injEq, and_true, true_and]
        exact c.pins e (by simp [Cache.all, hm])⟩⟩

end

/-! ### Concrete cases -/

/-- One entry in use, and three values that are in use and were removed. -/
example : ∃ h w, runLegal sampleEnv sampleCfg ringCalls = some (h, w) ∧ Reach sampleEnv sampleCfg h w ∧
    w.cache.debugOutput sampleEnv = .ok [⟨sampleKey 4, 14, 1, 9, false⟩,
      ⟨sampleKey 3, 13, 1, 6, true⟩, ⟨sampleKey 3, 15, 1, 11, true⟩, ⟨sampleKey 3, 16, 1, 12, true⟩] := by
  have hr : ∃ h w, runLegal sampleEnv sampleCfg ringCalls = some (h, w) ∧
    w.cache.debugOutput sampleEnv = .ok [⟨sampleKey 4, 14, 1, 9, false⟩,
      ⟨sampleKey 3, 13, 1, 6, true⟩, ⟨sampleKey 3, 15, 1, 11, true⟩, ⟨sampleKey 3, 16, 1, 12, true⟩] := ⟨_, _, rfl, by decide⟩
  obtain ⟨h, w, h1, h2⟩ := hr
  exact ⟨h, w, h1, runLegal_reach _ h1, h2⟩

/-- Three idle entries, of which `12` was used first. -/
example : ∃ h w, runLegal sampleEnv sampleCfg (sampleCalls.drop 3) = some (h, w) ∧ Mono sampleEnv.clk ∧
    Reach sampleEnv sampleCfg h w ∧
    (∀ k p, present w k = some p → 1000000 * (w.now sampleEnv - touchTime sampleCfg.lru p h) ≤ int64Max) ∧
    (present w (sampleKey 2) = some 12 ∧ held (sampleKey 2) 12 h = 0 ∧ touchTime true 12 h = 4 ∧
      w.now sampleEnv = 9 ∧ w.cache.ageOfLru (w.now sampleEnv) = .ok 5) := by
  have hr : ∃ h w, runLegal sampleEnv sampleCfg (sampleCalls.drop 3) = some (h, w) ∧
    (present w (sampleKey 2) = some 12 ∧ held (sampleKey 2) 12 h = 0 ∧ touchTime true 12 h = 4 ∧
      w.now sampleEnv = 9 ∧ w.cache.ageOfLru (w.now sampleEnv) = .ok 5) := ⟨_, _, rfl, by decide⟩
  obtain ⟨h, w, h1, h2⟩ := hr
  have r := runLegal_reach _ h1
  refine ⟨h, w, h1, sampleEnv_mono, r, fun k p _ => ?_, h2⟩
  obtain ⟨w', h3, s⟩ := r.sim (.inr sampleEnv_mono)
  have hnow : w.now sampleEnv = sampleEnv.clk w'.tick := by rw [← s.tick]; rfl
  have := touchTime_range (h3.good.times sampleEnv_mono) (by rw [← hnow, h2.2.2.2.1]; decide) sampleCfg.lru p
  rw [h2.2.2.2.1]
  simp only [int64Max]
  omega

end Verif.Lru.Ptr
