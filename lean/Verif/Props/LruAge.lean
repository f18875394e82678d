import Verif.Model.LruIterator
import Verif.Props.LruCache
/-
C122: the age query of the generic cache, and iteration over its contents.
-/
namespace Verif.Lru

section
variable {β : Type} {E : Env} {cfg : Config} {h : Hist β} {w : World (List Nat) β}

/-- The value `p` is in the cache under key `k` and not in use: in LRU mode nobody holds it; a cache in age
mode does not ask. -/
def Idle (cfg : Config) (h : Hist β) (w : World (List Nat) β) (k : Bytes) (p : Nat) : Prop :=
  present w k = some p ∧ (cfg.lru = true → held k p h = 0)

theorem idle_iff (c : Core cfg.lru h w) {k : Bytes} {p : Nat} :
    Idle cfg h w k p ↔ ∃ e ∈ w.cache.nodes, e.linked = true ∧ e.key = k ∧ e.ptr = p := by
  unfold Idle present
  constructor
  · rintro ⟨hp, hh⟩
    cases hf : findKey k w.cache.nodes with
    | none => rw [hf] at hp; cases hp
    | some e =>
      rw [hf] at hp
      simp only [Option.map_some, Option.some.injEq] at hp
      obtain ⟨he, hk⟩ := (findKey_iff c.keys).mp hf
      refine ⟨e, he, (c.link e he).mpr fun hl => ?_, hk, hp⟩
      rw [c.pins e (by simp [Cache.all, he]), hk, hp]
      exact hh hl
  · rintro ⟨e, he, hl, rfl, rfl⟩
    refine ⟨by rw [(findKey_iff c.keys).mpr ⟨he, rfl⟩]; rfl, fun hm => ?_⟩
    rw [← c.pins e (by simp [Cache.all, he])]
    exact (c.link e he).mp hl hm

theorem getLast_least {α : Type} (f : α → Int) : ∀ {l : List α} {x : α}, l.Pairwise (fun a b => f b ≤ f a) →
    l.getLast? = some x → x ∈ l ∧ ∀ y ∈ l, f x ≤ f y
  | [], x, _, hx => by cases hx
  | [a], x, _, hx => by
    simp only [List.getLast?_singleton, Option.some.injEq] at hx
    subst hx
    simp
  | a :: b :: l, x, hp, hx => by
    rw [List.getLast?_cons_cons] at hx
    obtain ⟨h1, h2⟩ := List.pairwise_cons.mp hp
    obtain ⟨hm, hle⟩ := getLast_least f h2 hx
    refine ⟨by simp [hm], fun y hy => ?_⟩
    rcases List.mem_cons.mp hy with rfl | hy
    · exact h1 x hm
    · exact hle y hy

/-- **C122** (partial).  While no age exceeds what a 64 bit number of picoseconds holds, the age query returns
the greatest age of a value that is not in use, and 0 if there is none.  Missing: values in use (LRU mode) are
not considered, and older values make the query overflow. -/
theorem C122_age_partial (m : Mono E.clk) (r : Reach E cfg h w)
    (small : ∀ k p, present w k = some p → 1000000 * (w.now E - touchTime cfg.lru p h) ≤ int64Max) :
    (∃ k p, Idle cfg h w k p ∧ w.cache.ageOfLru (w.now E) = .ok (w.now E - touchTime cfg.lru p h) ∧
      ∀ k' p', Idle cfg h w k' p' → w.now E - touchTime cfg.lru p' h ≤ w.now E - touchTime cfg.lru p h) ∨
    ((∀ k p, ¬ Idle cfg h w k p) ∧ w.cache.ageOfLru (w.now E) = .ok 0) := by
  have g := r.good
  have c := g.core
  unfold Cache.ageOfLru
  cases hl : (w.cache.nodes.filter (·.linked)).getLast? with
  | none =>
    right
    refine ⟨fun k p hi => ?_, rfl⟩
    obtain ⟨e, he, hlk, _⟩ := (idle_iff c).mp hi
    rw [List.getLast?_eq_none_iff] at hl
    have : e ∈ w.cache.nodes.filter (·.linked) := by simp [he, hlk]
    rw [hl] at this
    cases this
  | some e =>
    left
    have hs : (w.cache.nodes.filter (·.linked)).Pairwise (fun a b => b.lastUse ≤ a.lastUse) := by
      rw [List.pairwise_filter]
      exact (g.sorted m).imp fun h1 => h1
    obtain ⟨hm, hle⟩ := getLast_least (fun e : Elem β => e.lastUse) hs hl
    obtain ⟨he, hlk⟩ := List.mem_filter.mp hm
    have hi : Idle cfg h w e.key e.ptr := (idle_iff c).mpr ⟨e, he, hlk, rfl, rfl⟩
    have hc0 : 0 ≤ E.clk w.tick := Int.le_trans m.nonneg (m.le (Nat.zero_le _))
    have hr := touchTime_range (g.times m) hc0 cfg.lru e.ptr
    have hsm := small _ _ hi.1
    have hnow : w.now E = E.clk w.tick := rfl
    refine ⟨e.key, e.ptr, hi, ?_, fun k' p' hi' => ?_⟩
    · simp only [mulI64, c.time e he]
      rw [if_pos ⟨by rw [hnow]; simp only [int64Min]; omega, hsm⟩]
      show Except.ok _ = Except.ok _
      rw [Int.mul_tdiv_cancel_left _ (by decide)]
    · obtain ⟨e', he', hlk', _, rfl⟩ := (idle_iff c).mp hi'
      have := hle e' (by simp [he', hlk'])
      rw [c.time e he, c.time e' he'] at this
      omega

theorem loop_eq : ∀ (l : List (Elem β)) (n : Nat) (v), l.length < n →
    Iter.loop n (Iter.look ⟨l, v⟩) = .ok (l.map fun e => some (e.key, e.ptr, e.lastUse))
  | [], n + 1, v, _ => by simp [Iter.loop, Iter.look, Iter.same, Cache.end]
  | e :: l, n + 1, v, hn => by
    have ih := loop_eq l n (some (e.key, e.ptr, e.lastUse)) (by simp at hn; omega)
    simp only [Iter.loop, Iter.look, Iter.same, Cache.end, Iter.next]
    simp only [List.length_cons, List.length_nil, Nat.add_one_ne_zero, beq_iff_eq, if_false]
    simp only [Iter.look] at ih
    simp only [ih, bind, Except.bind, List.map_cons]

/-- **C122**.  A loop over the iterators shows every key of the cache once, with its value and its time of
last use, and ends. -/
theorem C122_iterates (r : Reach E cfg h w) {n : Nat} (hn : w.cache.entries < n) :
    ∃ L : List (Bytes × Nat × Int), Iter.loop n (w.cache.begin E) = .ok (L.map some) ∧
      (L.map (·.1)).Nodup ∧ L.length = w.cache.entries ∧
      ∀ k p t, (k, p, t) ∈ L ↔ present w k = some p ∧ t = touchTime cfg.lru p h := by
  have c := r.good.core
  have hp := tableOrder_perm E w.cache.nodes
  refine ⟨(tableOrder E w.cache.nodes).map fun e => (e.key, e.ptr, e.lastUse), ?_, ?_, ?_, ?_⟩
  · rw [Cache.begin, loop_eq _ n none (by rw [hp.length_eq]; exact hn)]
    simp [List.map_map, Function.comp_def]
  · rw [List.map_map]
    exact (hp.map (·.key)).nodup_iff.mpr c.keys
  · simp [hp.length_eq, Cache.entries]
  · intro k p t
    simp only [List.mem_map, hp.mem_iff, Prod.mk.injEq]
    unfold present
    constructor
    · rintro ⟨e, he, rfl, rfl, rfl⟩
      rw [(findKey_iff c.keys).mpr ⟨he, rfl⟩]
      exact ⟨rfl, c.time e he⟩
    · rintro ⟨hp', ht⟩
      cases hf : findKey k w.cache.nodes with
      | none => rw [hf] at hp'; cases hp'
      | some e =>
        rw [hf] at hp'
        simp only [Option.map_some, Option.some.injEq] at hp'
        obtain ⟨he, hk⟩ := (findKey_iff c.keys).mp hf
        exact ⟨e, he, hk, hp', by rw [c.time e he, hp', ht]⟩

end

/-! ### Witnesses and concrete cases -/

/-- In LRU mode a value in use is not counted: a cache whose only value is in use and was inserted some time
ago reports the age 0, as an empty cache does. -/
theorem C122_false_in_use : ∃ (h : Hist Nat) (w : World (List Nat) Nat), Reach sampleEnv sampleCfg h w ∧
    present w (sampleKey 1) = some 11 ∧ 0 < w.now sampleEnv - touchTime true 11 h ∧
    w.cache.ageOfLru (w.now sampleEnv) = .ok 0 := by
  have hr : ∃ (h : Hist Nat) (w : World (List Nat) Nat), runLegal sampleEnv sampleCfg
      [.insertPinned (sampleKey 1) 11 0 1] = some (h, w) ∧
      present w (sampleKey 1) = some 11 ∧ 0 < w.now sampleEnv - touchTime true 11 h ∧
      w.cache.ageOfLru (w.now sampleEnv) = .ok 0 := ⟨_, _, rfl, by decide⟩
  obtain ⟨h, w, h1, h2⟩ := hr
  exact ⟨h, w, runLegal_reach _ h1, h2⟩

/-- A clock of which each reading is 108 days (in microseconds) after the one before. -/
def slowEnv : Env := { sampleEnv with clk := fun n => 9331200000000 * (n : Int) }

theorem slowEnv_mono : Mono slowEnv.clk :=
  ⟨by decide, fun i => by simp only [slowEnv]; push_cast; omega⟩

/-- Once the least recently used value has not been used for 107 days, the query overflows: it multiplies the
age in microseconds by a million before it divides by a million. -/
theorem C122_false_overflow : ∃ (h : Hist Nat) (w : World (List Nat) Nat),
    Mono slowEnv.clk ∧ Reach slowEnv { sampleCfg with limit := none } h w ∧
    present w (sampleKey 1) = some 11 ∧ held (sampleKey 1) 11 h = 0 ∧
    w.now slowEnv - touchTime true 11 h = 108 * 86400 * 1000000 ∧
    w.cache.ageOfLru (w.now slowEnv) = .error .signedOverflow := by
  have hr : ∃ (h : Hist Nat) (w : World (List Nat) Nat), runLegal slowEnv { sampleCfg with limit := none }
      [.release true (sampleKey 1) 11, .insertPinned (sampleKey 1) 11 0 1] = some (h, w) ∧
      present w (sampleKey 1) = some 11 ∧ held (sampleKey 1) 11 h = 0 ∧
      w.now slowEnv - touchTime true 11 h = 108 * 86400 * 1000000 ∧
      w.cache.ageOfLru (w.now slowEnv) = .error .signedOverflow := ⟨_, _, rfl, by decide⟩
  obtain ⟨h, w, h1, h2⟩ := hr
  exact ⟨h, w, slowEnv_mono, runLegal_reach _ h1, h2⟩

/-- The hypotheses of `C122_age_partial` and `C122_iterates` are met by the state of `sampleRun`, in which `11`
is the only idle value and `14` is in use; a loop shows both. -/
example : ∃ h w, sampleRun = some (h, w) ∧ Mono sampleEnv.clk ∧ Reach sampleEnv sampleCfg h w ∧
    (∀ k p, present w k = some p → 1000000 * (w.now sampleEnv - touchTime sampleCfg.lru p h) ≤ int64Max) ∧
    (present w (sampleKey 1) = some 11 ∧ held (sampleKey 1) 11 h = 0 ∧
      touchTime true 11 h = 8 ∧ w.now sampleEnv = 11 ∧ w.cache.ageOfLru (w.now sampleEnv) = .ok 3 ∧
      w.cache.entries < 3 ∧ Iter.loop 3 (w.cache.begin sampleEnv) =
        .ok [some (sampleKey 1, 11, 8), some (sampleKey 4, 14, 9)]) := by
  have hr : ∃ h w, sampleRun = some (h, w) ∧ (present w (sampleKey 1) = some 11 ∧ held (sampleKey 1) 11 h = 0 ∧
      touchTime true 11 h = 8 ∧ w.now sampleEnv = 11 ∧ w.cache.ageOfLru (w.now sampleEnv) = .ok 3 ∧
      w.cache.entries < 3 ∧ Iter.loop 3 (w.cache.begin sampleEnv) =
        .ok [some (sampleKey 1, 11, 8), some (sampleKey 4, 14, 9)]) := ⟨_, _, rfl, by decide⟩
  obtain ⟨h, w, h1, h2⟩ := hr
  have r := runLegal_reach _ h1
  refine ⟨h, w, h1, sampleEnv_mono, r, fun k p _ => ?_, h2⟩
  have hnow : w.now sampleEnv = sampleEnv.clk w.tick := rfl
  have := touchTime_range (r.good.times sampleEnv_mono) (by rw [← hnow, h2.2.2.2.1]; decide) sampleCfg.lru p
  rw [h2.2.2.2.1]
  simp only [int64Max]
  omega

end Verif.Lru
