import Verif.Lemmas.LruReach
/-
The remaining calls, and: every legal call succeeds and keeps the invariant; so every reachable
cache satisfies it.
-/
namespace Verif.Lru

variable {β : Type}

/-! ### Insert -/

theorem insertPinned_good {E : Env} {cfg : Config} {h : Hist β} {w : World (List Nat) β}
    (g : Good E cfg h w) (k : Bytes) (p : Nat) (v : β) (u : Nat)
    (hp : (insertedPtrs h).count p = w.ext.count p) :
    ∃ w', insertPinned E logDel k p v u w = .ok w' ∧ w.tick ≤ w'.tick ∧
      w'.cache.maxIdle = w.cache.maxIdle ∧
      (w'.cache.overfull → ∀ e ∈ w'.cache.nodes, 0 < e.pin) ∧
      Core cfg.lru ({ call := .insertPinned k p v u, out := none, time := w.now E } :: h) w' := by
  have hpl : ∀ e ∈ w.cache.all, e.ptr ≠ p := by
    intro e he hh
    have := g.core.cnt p
    have h2 : 0 < (w.cache.all.map (·.ptr)).count p :=
      List.count_pos_iff.mpr (hh ▸ List.mem_map_of_mem he)
    omega
  obtain ⟨w1, h1, r1, hk1, ht1⟩ := remove_removed E g.core k
  have c1 := r1.core g.core
  have hp1 : (insertedPtrs h).count p = w1.ext.count p := by
    have h3 := c1.cnt p
    have h4 : w.ext.count p ≤ w1.ext.count p := by
      obtain ⟨k', g', p', t, rfl, _⟩ := r1
      simp [rmWorld, logF_foldl]
    omega
  have c2 := c1.add E k p v u none hk1 hp1
  obtain ⟨w3, h3, r3, hcap, _⟩ := gc_removed (E := E) c2
  refine ⟨w3, ?_, ?_, ?_, hcap, ?_⟩
  · unfold insertPinned; rw [h1]; exact h3
  · have := r3.tick_le
    have h5 : (addPinned E k p v u w1).tick = w1.tick + 1 := rfl
    omega
  · rw [r3.maxIdle]; show w1.cache.maxIdle = _; rw [r1.maxIdle]
  · have := r3.core c2
    rwa [show w1.now E = w.now E by simp only [World.now, ht1]] at this

/-! ### UpdateSize -/

theorem resize_core {cfg : Config} {h : Hist β} {w : World (List Nat) β}
    (c : Core cfg.lru h w) (k : Bytes) (p : Nat) (u : Nat) (tm : Int) :
    Core cfg.lru ({ call := .updateSize k p u, out := none, time := tm } :: h)
      { w with cache := resize k (some p) u w.cache } := by
  have hho : ∀ (e : Elem β) (e' : Elem β), e'.pin = e.pin → ∀ k' p', held k' p'
      (({ call := .updateSize k p u, out := none, time := tm } : Event β) :: h) =
      held k' p' h + if k' = e.key ∧ p' = e.ptr then e'.pin - e.pin else 0 := by
    intro e e' hee k' p'
    simp [held, hee]
  have hune : ∀ q, q ≠ p → unitsOf q
      (({ call := .updateSize k p u, out := none, time := tm } : Event β) :: h) = unitsOf q h := by
    intro q hq
    simp only [unitsOf]
    rw [if_neg]; rintro ⟨rfl, _⟩; exact hq rfl
  have hueq : ∀ e : Elem β, keyOf e.ptr h = some e.key → e.key = k → e.ptr = p → unitsOf p
      (({ call := .updateSize k p u, out := none, time := tm } : Event β) :: h) = u := by
    intro e h1 h2 h3
    simp only [unitsOf]
    rw [if_pos]; refine ⟨trivial, ?_⟩; rw [← h3, h1, h2]
  unfold resize
  cases hf : (findKey k w.cache.nodes).filter (fun e => (some p : Option Nat) == none || some p == some e.ptr) with
  | some e =>
    obtain ⟨hf1, hf2⟩ : findKey k w.cache.nodes = some e ∧ e.ptr = p := by
      rw [Option.filter_eq_some_iff] at hf
      refine ⟨hf.1, ?_⟩
      have := hf.2; simp at this; exact this.symm
    obtain ⟨A, B, hn, hek, hA⟩ := findKey_split hf1
    have hd := c.distinct; rw [hn] at hd
    obtain ⟨hAi, hBi⟩ := mid_ids hd.ids
    have he : e ∈ w.cache.nodes := by simp [hn]
    have hea : e ∈ w.cache.all := by simp [Cache.all, he]
    have hpn := c.pinN e he
    simp only []
    rw [hn, setElem_mid (e := e) ({ e with units := u } : Elem β) rfl hAi hBi]
    refine c.replace (A := A) (B := B) (e := e) (e' := { e with units := u }) (t := w.tick) hn rfl
      rfl rfl (List.Perm.refl _) (c.pinN e he) (hho _ _ rfl) rfl (fun _ => rfl) (fun _ => rfl)
      ?_ ?_ (c.link e he) ?_ (fun _ _ => rfl) (c.time e he) rfl ?_
    · intro q hq; rw [hf2] at hq; exact hune q hq
    · rw [hf2]; exact hueq e (c.key e hea) hek hf2
    · have hring := c.ring
      rw [hn] at hring
      exact pairwise_middle_replace hring (fun a b _ _ hab => hab) (fun a _ hab => hab)
        (fun a _ hab => hab)
    · show (if e.pin > 0 then _ else _) = _ - _ + (if e.pin = 0 then 0 else (u : Int))
      by_cases h0 : e.pin = 0
      · rw [if_neg (by omega), if_pos h0, if_pos h0]; omega
      · rw [if_pos (by omega), if_neg h0, if_neg h0]
  | none =>
    have hnot : ∀ e ∈ w.cache.nodes, ¬ (e.key = k ∧ e.ptr = p) := by
      rintro e he ⟨h1, h2⟩
      have : findKey k w.cache.nodes = some e := (findKey_iff c.keys).mpr ⟨he, h1⟩
      rw [this] at hf
      simp [h2] at hf
    have hhit : ∀ e : Elem β, (e.key == k && ((some p : Option Nat) == none || some p == some e.ptr)) =
        decide (e.key = k ∧ e.ptr = p) := by
      intro e
      by_cases h1 : e.key = k <;> by_cases h2 : e.ptr = p <;> simp [h1, h2, Ne.symm]
    simp only [hhit]
    by_cases hx : ∃ x ∈ w.cache.defer, x.key = k ∧ x.ptr = p
    · obtain ⟨x, hxd, hxk, hxp⟩ := hx
      obtain ⟨A, B, hn⟩ := List.append_of_mem hxd
      have hxa : x ∈ w.cache.all := by simp [Cache.all, hxd]
      have hnod : ((A ++ x :: B).map (·.ptr)).Nodup := by
        have := c.ptrs
        rw [Cache.all, List.map_append, List.nodup_append] at this
        rw [← hn]; exact this.2.1
      have hoth : ∀ y, y ∈ A ∨ y ∈ B → ¬ (y.key = k ∧ y.ptr = p) := by
        rintro y hy ⟨_, hyp⟩
        rw [List.map_append, List.map_cons, List.nodup_append, List.nodup_cons] at hnod
        rcases hy with hy | hy
        · exact hnod.2.2 y.ptr (List.mem_map_of_mem hy) x.ptr (by simp) (by rw [hyp, hxp])
        · exact hnod.2.1.1 (by rw [hxp, ← hyp]; exact List.mem_map_of_mem hy)
      have hfilt : w.cache.defer.filter (fun e => decide (e.key = k ∧ e.ptr = p)) = [x] := by
        rw [hn, List.filter_append, List.filter_cons_of_pos (by simp [hxk, hxp])]
        rw [List.filter_eq_nil_iff.mpr (fun y hy => by simpa using hoth y (Or.inl hy)),
          List.filter_eq_nil_iff.mpr (fun y hy => by simpa using hoth y (Or.inr hy))]
        rfl
      have hmap : w.cache.defer.map (fun e => if decide (e.key = k ∧ e.ptr = p) = true then
          { e with units := u } else e) = A ++ ({ x with units := u } : Elem β) :: B := by
        rw [hn, List.map_append, List.map_cons, if_pos (by simp [hxk, hxp])]
        have hid : ∀ l : List (Elem β), (∀ y ∈ l, ¬ (y.key = k ∧ y.ptr = p)) →
            l.map (fun e => if decide (e.key = k ∧ e.ptr = p) = true then
              { e with units := u } else e) = l := by
          intro l hl
          conv_rhs => rw [← List.map_id l]
          refine List.map_congr_left ?_
          intro y hy
          rw [if_neg (by simpa using hl y hy)]; rfl
        rw [hid A (fun y hy => hoth y (Or.inl hy)), hid B (fun y hy => hoth y (Or.inr hy))]
      simp only [hfilt, hmap]
      refine c.replaceD (e := x) (e' := { x with units := u }) hn rfl rfl rfl (c.pinD x hxd)
        (hho _ _ rfl) rfl (fun _ => rfl) (fun _ => rfl) ?_ ?_ (fun _ _ => rfl) (fun _ _ => rfl) ?_
      · intro q hq; rw [hxp] at hq; exact hune q hq
      · rw [hxp]; exact hueq x (c.key x hxa) hxk hxp
      · simp
    · have hdn : ∀ y ∈ w.cache.defer, ¬ (y.key = k ∧ y.ptr = p) := by
        intro y hy hyp; exact hx ⟨y, hy, hyp⟩
      have hfilt : w.cache.defer.filter (fun e => decide (e.key = k ∧ e.ptr = p)) = [] :=
        List.filter_eq_nil_iff.mpr (fun y hy => by simpa using hdn y hy)
      have hmap : w.cache.defer.map (fun e => if decide (e.key = k ∧ e.ptr = p) = true then
          { e with units := u } else e) = w.cache.defer := by
        conv_rhs => rw [← List.map_id w.cache.defer]
        refine List.map_congr_left ?_
        intro y hy
        rw [if_neg (by simpa using hdn y hy)]; rfl
      simp only [hfilt, hmap, List.map_nil, List.sum_nil, Int.sub_zero, Int.add_zero]
      refine c.congr (fun _ _ => rfl) rfl (fun _ _ => rfl) (fun _ => rfl) ?_ (fun _ => rfl)
        (fun _ => rfl)
      intro e he
      by_cases hep : e.ptr = p
      · simp only [unitsOf]
        rw [if_neg]
        rintro ⟨_, hk⟩
        rw [c.key e he] at hk
        simp only [Option.some.injEq] at hk
        rcases List.mem_append.mp he with he' | he'
        · exact hnot e he' ⟨hk, hep⟩
        · exact hdn e he' ⟨hk, hep⟩
      · exact hune _ hep

/-! ### All calls -/

theorem step_good {E : Env} {cfg : Config} {h : Hist β} {w : World (List Nat) β} (hE : Sound E)
    (g : Good E cfg h w) (c : Call β) (hl : Legal cfg.lru h w.ext c) :
    ∃ w' out, step E c w = .ok (w', out) ∧
      Good E cfg ({ call := c, out := out, time := w.now E } :: h) w' := by
  have hgood : ∀ (w' : World (List Nat) β) (out : Option Nat), w.tick ≤ w'.tick →
      w'.cache.maxIdle = w.cache.maxIdle →
      (w'.cache.overfull → ∀ e ∈ w'.cache.nodes, 0 < e.pin) →
      Core cfg.lru ({ call := c, out := out, time := w.now E } :: h) w' →
      Good E cfg ({ call := c, out := out, time := w.now E } :: h) w' := by
    intro w' out ht hi hc hcore
    exact ⟨hcore, hc, by rw [hi]; exact g.idle, fun m => (g.times m).cons m ht c out⟩
  cases c with
  | insertPinned k p v u =>
    obtain ⟨w', h1, h2, h3, h4, h5⟩ := insertPinned_good g k p v u hl
    exact ⟨w', none, by simp [step, h1, Except.map], hgood w' none h2 h3 h4 h5⟩
  | lookup upd k =>
    obtain ⟨w1, h1, r1, _⟩ := removeExpired_pure hE g
    obtain ⟨c1, ht, hi, hcap⟩ := pinKey_core (r1.core g.core) upd k hl (w.now E)
    refine ⟨(pinKey upd k w1).1, (pinKey upd k w1).2.map (·.ptr), ?_, ?_⟩
    · simp [step, lookup, h1, Except.map, bind, Except.bind]
    · exact hgood _ _ (by rw [ht]; exact r1.tick_le) (by rw [hi]; exact r1.maxIdle)
        (hcap (r1.cap g.cap)) c1
  | release upd k p =>
    obtain ⟨w', h1, h2, h3, h4, h5⟩ := release_good g upd k p hl.1 hl.2
    exact ⟨w', none, by simp [step, h1, Except.map], hgood w' none h2 h3 h4 h5⟩
  | remove k =>
    obtain ⟨w', h1, r, hk, _⟩ := remove_removed E g.core k
    refine ⟨w', none, by simp [step, h1, Except.map],
      hgood w' none r.tick_le r.maxIdle (r.cap g.cap) ?_⟩
    refine (r.core g.core).congr (fun _ _ => rfl) rfl ?_ (fun _ => rfl) (fun _ _ => rfl)
      (fun _ => rfl) (fun _ => rfl)
    intro e he
    simp only [current]
    rw [if_neg (fun hh => hk e he hh.symm)]
  | removeAll =>
    obtain ⟨w', h1, r, hk⟩ := removeAll_removed E g.core
    refine ⟨w', none, by simp [step, h1, Except.map],
      hgood w' none r.tick_le r.maxIdle (r.cap g.cap) ?_⟩
    refine (r.core g.core).congr (fun _ _ => rfl) rfl ?_ (fun _ => rfl) (fun _ _ => rfl)
      (fun _ => rfl) (fun _ => rfl)
    intro e he; rw [hk] at he; cases he
  | clear =>
    obtain ⟨w', h1, r, hk⟩ := clear_removed E g.core hl
    refine ⟨w', none, by simp [step, h1, Except.map],
      hgood w' none r.tick_le r.maxIdle (r.cap g.cap) ?_⟩
    refine (r.core g.core).congr (fun _ _ => rfl) rfl ?_ (fun _ => rfl) (fun _ _ => rfl)
      (fun _ => rfl) (fun _ => rfl)
    intro e he; rw [hk] at he; cases he
  | removeUnpinned =>
    obtain ⟨w', h1, r, hk⟩ := removeUnpinned_removed E g.core
    have c' := r.core g.core
    refine ⟨w', none, by simp [step, h1, Except.map],
      hgood w' none r.tick_le r.maxIdle (r.cap g.cap) ?_⟩
    refine c'.congr (fun _ _ => rfl) rfl ?_ (fun _ => rfl) (fun _ _ => rfl)
      (fun _ => rfl) (fun _ => rfl)
    intro e he
    simp only [current, c'.cur e he]
    rw [if_neg]
    rw [← c'.pins e (by simp [Cache.all, he])]
    exact hk e he
  | removeExpired =>
    obtain ⟨w', h1, r, _⟩ := removeExpired_pure hE g
    refine ⟨w', none, by simp [step, h1, Except.map],
      hgood w' none r.tick_le r.maxIdle (r.cap g.cap) ?_⟩
    exact (r.core g.core).congr (fun _ _ => rfl) rfl (fun _ _ => rfl) (fun _ => rfl)
      (fun _ _ => rfl) (fun _ => rfl) (fun _ => rfl)
  | updateSize k p u =>
    have c1 := resize_core g.core k p u (w.now E)
    obtain ⟨w', h1, r, hcap, _⟩ := gc_removed (E := E) c1
    have hmi : (resize k (some p) u w.cache).maxIdle = w.cache.maxIdle := by
      unfold resize; split <;> rfl
    exact ⟨w', none, by simp [step, updateSize, h1, Except.map],
      hgood w' none r.tick_le (by rw [r.maxIdle]; exact hmi) hcap (r.core c1)⟩
  | setMaxSize n =>
    have c1 : Core cfg.lru ({ call := .setMaxSize n, out := none, time := w.now E } :: h)
        { w with cache := { w.cache with maxUnits := n } } :=
      { mode := g.core.mode, keys := g.core.keys, ids := g.core.ids, fresh := g.core.fresh
        ptrs := g.core.ptrs, pinN := g.core.pinN, pinD := g.core.pinD, pins := g.core.pins
        heldz := g.core.heldz, units := g.core.units, pinned := g.core.pinned, link := g.core.link
        cnt := g.core.cnt, cur := g.core.cur, key := g.core.key, uo := g.core.uo
        ring := g.core.ring, time := g.core.time }
    obtain ⟨w', h1, r, hcap, _⟩ := gc_removed (E := E) c1
    exact ⟨w', none, by simp [step, setMaxSize, h1, Except.map],
      hgood w' none r.tick_le r.maxIdle hcap (r.core c1)⟩
  | write p v =>
    refine ⟨setVal p v w, none, rfl, hgood _ none (Nat.le_refl _) rfl ?_ ?_⟩
    · intro ho e he
      obtain ⟨x, hx, rfl⟩ := List.mem_map.mp (show e ∈ w.cache.nodes.map _ from he)
      have := g.cap ho x hx
      split <;> exact this
    · exact (g.core.setVal p v).congr (fun _ _ => rfl) rfl (fun _ _ => rfl) (fun _ => rfl)
        (fun _ _ => rfl) (fun _ => rfl) (fun _ => rfl)

theorem init_good (E : Env) (cfg : Config) :
    ∃ w : World (List Nat) β, setTimeout E logDel cfg.cycles cfg.lru
      { cache := Cache.new cfg.maxUnits, tick := 0, ext := [] } = .ok w ∧ Good E cfg [] w := by
  have hcore : ∀ (m : Int) (t : Nat), Core cfg.lru ([] : Hist β) { cache := { (Cache.new cfg.maxUnits : Cache β) with lru := cfg.lru, maxIdle := m }, tick := t, ext := [] } := by
    intro m t
    refine { mode := rfl, keys := ?_, ids := ?_, fresh := ?_, ptrs := ?_, pinN := ?_, pinD := ?_,
             pins := ?_, heldz := ?_, units := ?_, pinned := ?_, link := ?_, cnt := ?_, cur := ?_,
             key := ?_, uo := ?_, ring := ?_, time := ?_ } <;>
      simp [Cache.new, Cache.all, held, pinnedOf, insertedPtrs]
  cases hlim : cfg.limit with
  | none =>
    simp only [Config.cycles, hlim]
    refine ⟨_, rfl, hcore _ _, by simp [Cache.new], by simp [hlim], ?_⟩
    intro _; exact ⟨by simp, by simp⟩
  | some n =>
    have hb : ¬ ((Cache.new cfg.maxUnits : Cache β).maxIdle ≥ 0 ∧ cfg.lru ≠ (Cache.new cfg.maxUnits : Cache β).lru) := by
      simp [Cache.new]
    have hds := discardIdle_pure E logF (n : Int)
      ({ cache := { (Cache.new cfg.maxUnits : Cache β) with lru := cfg.lru, maxIdle := n }, tick := 0, ext := [] } : World (List Nat) β)
      (hcore n 0).distinct (hcore n 0).pinN (by omega) (by intro _; simp [Cache.new, idleAsserts])
    simp only [Config.cycles, hlim, setTimeout]
    rw [if_neg hb, logDel_eq]
    refine ⟨_, hds, ?_, ?_, ?_, ?_⟩
    · exact ((hcore n 0).rm (kept := []) (gone := []) (pinned := []) (by simp [Cache.new])
        (by simp) (by simp) (by simp)).setTick 1
    · intro _; simp [Cache.new, rmWorld, idleScan]
    · simp [rmWorld, hlim]; rfl
    · intro _; exact ⟨by simp, by simp⟩

end Verif.Lru
