import Verif.Lemmas.LruHistory
/-
Every legal call succeeds and keeps the invariant.
-/
namespace Verif.Lru

variable {β : Type}

/-- Times of the recorded calls never decrease and are not in the future. -/
structure Times (E : Env) (h : Hist β) (tick : Nat) : Prop where
  order : h.Pairwise (fun a b => b.time ≤ a.time)
  range : ∀ ev ∈ h, 0 ≤ ev.time ∧ ev.time ≤ E.clk tick

structure Good (E : Env) (cfg : Config) (h : Hist β) (w : World (List Nat) β) : Prop where
  core : Core cfg.lru h w
  cap : w.cache.overfull → ∀ e ∈ w.cache.nodes, 0 < e.pin
  idle : w.cache.maxIdle = match cfg.limit with | none => -1 | some n => (n : Int)
  times : Mono E.clk → Times E h w.tick

theorem Mono.le {clk : Nat → Int} (m : Mono clk) {i j : Nat} (h : i ≤ j) : clk i ≤ clk j := by
  induction j with
  | zero => have : i = 0 := by omega
            subst this; exact Int.le_refl _
  | succ j ih =>
    by_cases hij : i ≤ j
    · exact Int.le_trans (ih hij) (m.step j)
    · have : i = j + 1 := by omega
      subst this; exact Int.le_refl _

theorem touchTime_range {E : Env} {h : Hist β} {t : Nat} (T : Times E h t) (hc : 0 ≤ E.clk t)
    (lru : Bool) (p : Nat) : 0 ≤ touchTime lru p h ∧ touchTime lru p h ≤ E.clk t := by
  obtain ⟨_, hr⟩ := T
  induction h with
  | nil => exact ⟨Int.le_refl _, hc⟩
  | cons ev h ih =>
    unfold touchTime
    split
    · exact hr ev (by simp)
    · exact ih (List.pairwise_cons.mp ‹_›).2 (fun e he => hr e (by simp [he]))

theorem touchTime_mono {E : Env} {h : Hist β} {t : Nat} (T : Times E h t)
    (lru : Bool) {p q : Nat} (hpq : stamp lru p h < stamp lru q h) :
    touchTime lru p h ≤ touchTime lru q h := by
  obtain ⟨ho, hr⟩ := T
  induction h with
  | nil => simp [stamp] at hpq
  | cons ev h ih =>
    rw [List.pairwise_cons] at ho
    have hr' : ∀ e ∈ h, 0 ≤ e.time ∧ e.time ≤ E.clk t := fun e he => hr e (by simp [he])
    have hev := hr ev (by simp)
    have hbound : touchTime lru p h ≤ ev.time := by
      clear ih hpq
      induction h with
      | nil => exact hev.1
      | cons ev2 h ih2 =>
        unfold touchTime
        split
        · exact ho.1 ev2 (by simp)
        · exact ih2 ⟨fun b hb => ho.1 b (by simp [hb]), (List.pairwise_cons.mp ho.2).2⟩
            (fun e he => hr e (by
              rcases List.mem_cons.mp he with rfl | he
              · simp
              · simp [he]))
            (fun e he => hr' e (by simp [he]))
    unfold stamp at hpq
    unfold touchTime
    by_cases h1 : touches lru p ev = true
    · by_cases h2 : touches lru q ev = true
      · simp [h1, h2]
      · simp only [h1, if_true, h2] at hpq
        have := stamp_le lru q h
        simp at hpq; omega
    · by_cases h2 : touches lru q ev = true
      · simp only [h1, h2, if_true]; exact hbound
      · simp only [h1, h2] at hpq ⊢
        exact ih (by simpa using hpq) ho.2 hr'

/-- In a run with a good clock the ring is sorted by time of use. -/
theorem Good.sorted {E : Env} {cfg : Config} {h : Hist β} {w : World (List Nat) β}
    (g : Good E cfg h w) (m : Mono E.clk) :
    w.cache.nodes.Pairwise (fun a b => a.linked = true → b.linked = true → b.lastUse ≤ a.lastUse) := by
  refine g.core.ring.imp_of_mem ?_
  intro a b ha hb hab la lb
  rw [g.core.time a ha, g.core.time b hb]
  exact touchTime_mono (g.times m) _ (hab la lb)

/-- `w'` results from `w` by removing entries (and reading the clock). -/
def Removed (w w' : World (List Nat) β) : Prop :=
  ∃ kept gone pinned t, w' = { rmWorld logF w kept gone pinned with tick := t } ∧ w.tick ≤ t ∧
    (kept ++ (gone ++ pinned)).Perm w.cache.nodes ∧ kept.Sublist w.cache.nodes ∧
    (∀ e ∈ gone, e.pin = 0) ∧ (∀ e ∈ pinned, e.pin ≠ 0)

theorem Core.setTick {lru : Bool} {h : Hist β} {w : World (List Nat) β} (c : Core lru h w)
    (t : Nat) : Core lru h { w with tick := t } :=
  { mode := c.mode, keys := c.keys, ids := c.ids, fresh := c.fresh, ptrs := c.ptrs, pinN := c.pinN,
    pinD := c.pinD, pins := c.pins, heldz := c.heldz, units := c.units, pinned := c.pinned,
    link := c.link, cnt := c.cnt, cur := c.cur, key := c.key, uo := c.uo, ring := c.ring,
    time := c.time }

section removed
variable {w w' : World (List Nat) β}

theorem Removed.refl (w : World (List Nat) β) : Removed w w :=
  ⟨w.cache.nodes, [], [], w.tick, by simp [rmWorld], Nat.le_refl _, by simp, by simp, by simp,
    by simp⟩

theorem Removed.core (r : Removed w w') {lru : Bool} {h : Hist β} (c : Core lru h w) :
    Core lru h w' := by
  obtain ⟨k, g, p, t, rfl, _, h1, h2, h3, h4⟩ := r
  exact (c.rm h1 h2 h3 h4).setTick t

theorem Removed.units_le (r : Removed w w') : w'.cache.units ≤ w.cache.units := by
  obtain ⟨k, g, p, t, rfl, _, h1, h2, h3, h4⟩ := r
  have := sumUnits_nonneg g
  show w.cache.units - sumUnits g ≤ _
  omega

theorem Removed.tick_le (r : Removed w w') : w.tick ≤ w'.tick := by
  obtain ⟨k, g, p, t, rfl, h, _⟩ := r; exact h

theorem Removed.maxUnits (r : Removed w w') : w'.cache.maxUnits = w.cache.maxUnits := by
  obtain ⟨k, g, p, t, rfl, _⟩ := r; rfl
theorem Removed.maxIdle (r : Removed w w') : w'.cache.maxIdle = w.cache.maxIdle := by
  obtain ⟨k, g, p, t, rfl, _⟩ := r; rfl
theorem Removed.sub (r : Removed w w') : w'.cache.nodes.Sublist w.cache.nodes := by
  obtain ⟨k, g, p, t, rfl, _, h1, h2, h3, h4⟩ := r; exact h2

theorem Removed.cap (r : Removed w w') (hc : w.cache.overfull → ∀ e ∈ w.cache.nodes, 0 < e.pin) :
    w'.cache.overfull → ∀ e ∈ w'.cache.nodes, 0 < e.pin := by
  intro ho e he
  refine hc ?_ e (r.sub.subset he)
  have := r.units_le
  rw [Cache.overfull, r.maxUnits] at ho
  unfold Cache.overfull; omega
end removed

theorem now_mono {E : Env} (m : Mono E.clk) {i : Nat} : 0 ≤ E.clk i :=
  Int.le_trans m.nonneg (m.le (Nat.zero_le i))

/-- Extending a history by an event at the current reading. -/
theorem Times.cons {E : Env} {h : Hist β} {t t' : Nat} (T : Times E h t) (m : Mono E.clk)
    (htt : t ≤ t') (c : Call β) (out : Option Nat) :
    Times E ({ call := c, out := out, time := E.clk t } :: h) t' := by
  refine ⟨List.pairwise_cons.mpr ⟨fun b hb => (T.range b hb).2, T.order⟩, ?_⟩
  intro ev hev
  rcases List.mem_cons.mp hev with rfl | hev
  · exact ⟨now_mono m, m.le htt⟩
  · exact ⟨(T.range ev hev).1, Int.le_trans (T.range ev hev).2 (m.le htt)⟩

/-- Build or clock under which no assertion can fire. -/
abbrev Sound (E : Env) : Prop := E.dbg = false ∨ Mono E.clk

/-! ### Removing operations -/

theorem rev_pairwise_sorted {l : List (Elem β)}
    (h : l.Pairwise (fun a b => a.linked = true → b.linked = true → b.lastUse ≤ a.lastUse)) :
    l.reverse.Pairwise (fun a b => a.linked = true → b.linked = true → a.lastUse ≤ b.lastUse) := by
  rw [List.pairwise_reverse]
  exact h.imp (fun {a b} hab hb ha => hab ha hb)

theorem removeExpired_pure {E : Env} {cfg : Config} {h : Hist β} {w : World (List Nat) β}
    (hE : Sound E) (g : Good E cfg h w) :
    ∃ w', removeExpired E logDel w = .ok w' ∧ Removed w w' ∧
      w' = if 0 ≤ w.cache.maxIdle then
        rmWorld logF w.ticked ((idleScan (w.now E - w.cache.maxIdle) w.cache.nodes.reverse).1.reverse)
          (unpinned (idleScan (w.now E - w.cache.maxIdle) w.cache.nodes.reverse).2)
          (pinnedOf (idleScan (w.now E - w.cache.maxIdle) w.cache.nodes.reverse).2) else w := by
  unfold removeExpired
  by_cases hm : w.cache.maxIdle ≥ 0
  · rw [if_pos hm, logDel_eq, discardIdle_pure E logF _ w g.core.distinct g.core.pinN hm]
    · refine ⟨_, rfl, ?_, by rw [if_pos hm]⟩
      refine ⟨_, _, _, w.tick + 1, rfl, by omega, ?_, ?_, ?_, ?_⟩
      · generalize hthr : w.now E - w.cache.maxIdle = thr
        have h1 := idleScan_perm thr w.cache.nodes.reverse
        have h2 := split_pinned (idleScan thr w.cache.nodes.reverse).2
        calc ((idleScan thr w.cache.nodes.reverse).1.reverse ++
              (unpinned (idleScan thr w.cache.nodes.reverse).2 ++
               pinnedOf (idleScan thr w.cache.nodes.reverse).2)).Perm
              ((idleScan thr w.cache.nodes.reverse).1 ++ (idleScan thr w.cache.nodes.reverse).2) :=
                (List.reverse_perm _).append h2
          List.Perm _ w.cache.nodes.reverse := h1
          List.Perm _ w.cache.nodes := List.reverse_perm _
      · have := (idleScan_sublist (w.now E - w.cache.maxIdle) w.cache.nodes.reverse).reverse
        simpa using this
      · intro e he; exact (mem_unpinned.mp he).2
      · intro e he; exact (mem_pinnedOf.mp he).2
    · intro hd
      have m : Mono E.clk := by
        rcases hE with h' | h'
        · rw [h'] at hd; cases hd
        · exact h'
      have T := g.times m
      refine idleAsserts_of_sorted _ _ _ _ (rev_pairwise_sorted (g.sorted m)) ?_ ?_
      · intro e he _
        have he' : e ∈ w.cache.nodes := by simpa using he
        rw [g.core.time e he']
        have := (touchTime_range T (now_mono m) cfg.lru e.ptr).1
        omega
      · intro hlru e he hl
        have he' : e ∈ w.cache.nodes := by simpa using he
        exact (g.core.link e he').mp hl (by rw [← g.core.mode]; exact hlru)
  · rw [if_neg hm]
    exact ⟨w, rfl, Removed.refl w, by rw [if_neg hm]⟩

theorem gc_removed {E : Env} {lru : Bool} {h : Hist β} {w : World (List Nat) β}
    (c : Core lru h w) :
    ∃ w', garbageCollect E logDel w = .ok w' ∧ Removed w w' ∧
      (w'.cache.overfull → ∀ e ∈ w'.cache.nodes, 0 < e.pin) ∧
      w' = rmWorld logF w
        ((gcScan (w.cache.units - w.cache.maxUnits) w.cache.nodes.reverse).1.reverse)
        (gcScan (w.cache.units - w.cache.maxUnits) w.cache.nodes.reverse).2 [] := by
  rw [logDel_eq, garbageCollect_pure E logF w c.distinct, gcWorld_eq_rmWorld]
  generalize hov : w.cache.units - w.cache.maxUnits = over
  have hg := gcScan_gone w.cache.nodes.reverse over
  have hperm := gcScan_perm w.cache.nodes.reverse over
  have hsub := gcScan_sublist w.cache.nodes.reverse over
  have hdone := gcScan_done w.cache.nodes.reverse over
  refine ⟨_, rfl, ⟨_, _, _, w.tick, rfl, Nat.le_refl _, ?_, ?_, ?_, by simp⟩, ?_, rfl⟩
  · rw [List.append_nil]
    exact (((List.reverse_perm _).append_right _).trans hperm).trans (List.reverse_perm _)
  · simpa using hsub.reverse
  · intro e he; exact (hg e he).2
  · intro ho e he
    have he1 : e ∈ (gcScan over w.cache.nodes.reverse).1 := by
      simpa [rmWorld] using he
    have he2 : e ∈ w.cache.nodes := by simpa using hsub.subset he1
    have h0 := c.pinN e he2
    rcases hdone with hd | hd
    · exfalso
      have : w.cache.units - sumUnits (gcScan over w.cache.nodes.reverse).2 > w.cache.maxUnits := ho
      omega
    · have := hd e he1
      rcases Int.lt_or_eq_of_le h0 with h1 | h1
      · exact h1
      · exact absurd ⟨(c.link e he2).mpr (fun _ => h1.symm), h1.symm⟩ this

theorem remove_removed (E : Env) {lru : Bool} {h : Hist β} {w : World (List Nat) β}
    (c : Core lru h w) (k : Bytes) :
    ∃ w', remove E logDel k w = .ok w' ∧ Removed w w' ∧ (∀ e ∈ w'.cache.nodes, e.key ≠ k) ∧
      w'.tick = w.tick := by
  rw [logDel_eq]
  cases hk : findKey k w.cache.nodes with
  | none =>
    rw [remove_pure_none E logF k w hk]
    exact ⟨w, rfl, Removed.refl w, findKey_none.mp hk, rfl⟩
  | some e =>
    obtain ⟨A, B, hn, rfl, hA⟩ := findKey_split hk
    have hd := c.distinct; rw [hn] at hd
    have hp := c.pinN e (by simp [hn])
    have hB := (mid_keys hd.keys).2
    rw [remove_pure_some E logF e w A B hn hd hp]
    have hperm : (A ++ B ++ [e]).Perm w.cache.nodes := by
      rw [hn, List.append_assoc]
      exact List.Perm.append_left _ List.perm_append_comm
    have hsub : (A ++ B).Sublist w.cache.nodes := by rw [hn]; simp
    have hkeys : ∀ x ∈ A ++ B, x.key ≠ e.key := by
      intro x hx
      rcases List.mem_append.mp hx with hx | hx
      · exact hA x hx
      · exact hB x hx
    by_cases h0 : e.pin = 0
    · refine ⟨_, rfl, ?_, ?_, ?_⟩
      · rw [if_pos h0]
        exact ⟨_, _, _, w.tick, rfl, Nat.le_refl _, by simpa using hperm, hsub, by simpa using h0,
          by simp⟩
      · rw [if_pos h0]; exact hkeys
      · rw [if_pos h0]; rfl
    · refine ⟨_, rfl, ?_, ?_, ?_⟩
      · rw [if_neg h0]
        exact ⟨_, _, _, w.tick, rfl, Nat.le_refl _, by simpa using hperm, hsub, by simp,
          by simpa using h0⟩
      · rw [if_neg h0]; exact hkeys
      · rw [if_neg h0]; rfl

theorem removeAll_removed (E : Env) {lru : Bool} {h : Hist β} {w : World (List Nat) β}
    (c : Core lru h w) :
    ∃ w', removeAll E logDel w = .ok w' ∧ Removed w w' ∧ w'.cache.nodes = [] := by
  rw [logDel_eq, removeAll_pure E logF w c.pinN]
  refine ⟨_, rfl, ⟨_, _, _, w.tick, rfl, Nat.le_refl _, ?_, by simp, ?_, ?_⟩, rfl⟩
  · simpa using (split_pinned _).trans (tableOrder_perm E _)
  · intro e he; exact (mem_unpinned.mp he).2
  · intro e he; exact (mem_pinnedOf.mp he).2

theorem removeUnpinned_removed (E : Env) {lru : Bool} {h : Hist β} {w : World (List Nat) β}
    (c : Core lru h w) :
    ∃ w', removeUnpinned E logDel w = .ok w' ∧ Removed w w' ∧ ∀ e ∈ w'.cache.nodes, e.pin ≠ 0 := by
  rw [logDel_eq, removeUnpinned_pure E logF w c.distinct]
  refine ⟨_, rfl, ⟨_, _, _, w.tick, rfl, Nat.le_refl _, ?_, by simp, ?_, by simp⟩, ?_⟩
  · rw [List.append_nil]
    refine List.perm_append_comm.trans ?_
    exact List.filter_append_perm _ _
  · intro e he
    have := (List.mem_filter.mp he).2
    simp [rmUnpinnable] at this; exact this.2
  · intro e he h0
    have he' : e ∈ w.cache.nodes.filter (fun e => !rmUnpinnable e) := he
    obtain ⟨h1, h2⟩ := List.mem_filter.mp he'
    have := (c.link e h1).mpr (fun _ => h0)
    simp [rmUnpinnable, h0, this] at h2

theorem clear_removed (E : Env) {lru : Bool} {h : Hist β} {w : World (List Nat) β}
    (c : Core lru h w) (hno : ∀ k p, held k p h = 0) :
    ∃ w', clear E logDel w = .ok w' ∧ Removed w w' ∧ w'.cache.nodes = [] := by
  have hN : ∀ e ∈ w.cache.nodes, e.pin = 0 := by
    intro e he; rw [c.pins e (by simp [Cache.all, he]), hno]
  have hD : w.cache.defer = [] := by
    cases hd : w.cache.defer with
    | nil => rfl
    | cons e l =>
      have h1 := c.pinD e (by simp [hd])
      rw [c.pins e (by simp [Cache.all, hd]), hno] at h1
      omega
  unfold clear
  rw [logDel_eq, clear_fold E logF _ w (fun e he => hN e ((tableOrder_perm E _).subset he))]
  have hd' : (rmWorld logF w w.cache.nodes (tableOrder E w.cache.nodes) []).cache.defer = [] := by
    simp [rmWorld, hD]
  simp only [bind, Except.bind, assertThat, hd', decide_true, Bool.not_true, Bool.and_false,
    Bool.false_eq_true, if_false]
  have hsum := sumUnits_perm (tableOrder_perm E w.cache.nodes)
  have hu := c.units
  have hp := c.pinned
  rw [hD] at hu
  rw [pinnedOf_of_zero hN] at hp
  simp only [sumUnits_nil] at hu hp
  refine ⟨_, rfl, ⟨[], tableOrder E w.cache.nodes, [], w.tick, ?_, Nat.le_refl _, ?_, by simp, ?_,
    by simp⟩, rfl⟩
  · simp only [rmWorld, sumUnits_nil, List.map_nil, List.reverse_nil, List.nil_append]
    congr 1
    congr 1
    · exact hD.symm
    · omega
    · omega
  · simpa using tableOrder_perm E w.cache.nodes
  · intro e he; exact hN e ((tableOrder_perm E _).subset he)

/-! ### Lookup -/

theorem pinKey_core {cfg : Config} {h : Hist β} {w : World (List Nat) β}
    (c : Core cfg.lru h w) (upd : Bool) (k : Bytes) (hupd : cfg.lru = true → upd = true)
    (tm : Int) :
    Core cfg.lru ({ call := .lookup upd k, out := (pinKey upd k w).2.map (·.ptr), time := tm } :: h)
      (pinKey upd k w).1 ∧
    (pinKey upd k w).1.tick = w.tick ∧ (pinKey upd k w).1.cache.maxIdle = w.cache.maxIdle ∧
    ((w.cache.overfull → ∀ e ∈ w.cache.nodes, 0 < e.pin) →
      (pinKey upd k w).1.cache.overfull → ∀ e ∈ (pinKey upd k w).1.cache.nodes, 0 < e.pin) := by
  unfold pinKey
  cases hk : findKey k w.cache.nodes with
  | none =>
    refine ⟨?_, rfl, rfl, fun hc => hc⟩
    refine c.congr ?_ rfl (fun _ _ => rfl) (fun _ => rfl) (fun _ _ => rfl) (fun _ => rfl)
      (fun _ => rfl)
    intro k' p; simp [held]
  | some e =>
    obtain ⟨A, B, hn, rfl, hA⟩ := findKey_split hk
    have hd := c.distinct; rw [hn] at hd
    obtain ⟨hAi, hBi⟩ := mid_ids hd.ids
    have hp := c.pinN e (by simp [hn])
    have hl := c.link e (by simp [hn])
    simp only [Option.map_some]
    generalize he' : ({ e with
      pin := e.pin + 1,
      linked := if e.pin = 0 ∧ w.cache.lru = true ∧ upd = true then false else e.linked } : Elem β) = e'
    have hid : e'.id = e.id := by rw [← he']
    have hkey : e'.key = e.key := by rw [← he']
    have hptr : e'.ptr = e.ptr := by rw [← he']
    have hpin : e'.pin = e.pin + 1 := by rw [← he']
    have hun : e'.units = e.units := by rw [← he']
    have hlu : e'.lastUse = e.lastUse := by rw [← he']
    have hlk : e'.linked = if e.pin = 0 ∧ w.cache.lru = true ∧ upd = true then false else e.linked := by
      rw [← he']
    rw [hn, setElem_mid e' hid hAi hBi]
    refine ⟨?_, by first | rfl | trivial, by first | rfl | trivial, ?_⟩
    · refine c.replace (A := A) (B := B) (e := e) (e' := e') (t := w.tick) hn hid hkey hptr
        (List.Perm.refl _) (by omega) ?_ rfl (fun _ => rfl) (fun _ => rfl) (fun _ _ => rfl) ?_ ?_ ?_
        (fun _ _ => rfl) ?_ ?_ ?_
      · intro k' p'
        simp only [held, hptr, hpin]
        by_cases hkp : k' = e.key ∧ p' = e.ptr
        · rw [if_pos hkp, if_pos ⟨hkp.1.symm, by rw [hkp.2]⟩]; omega
        · rw [if_neg hkp, if_neg]
          rintro ⟨h1, h2⟩
          exact hkp ⟨h1.symm, by simpa using h2.symm⟩
      · rw [hun]; exact c.uo e (by simp [Cache.all, hn])
      · rw [hlk, hpin]
        have hmode := c.mode
        cases hlru : cfg.lru
        · rw [hlru] at hl hmode; simp [hmode] ; simpa using hl
        · have := hupd hlru
          rw [hlru] at hl hmode
          simp only [hmode, this, and_true]
          constructor
          · intro hh
            by_cases h0 : e.pin = 0
            · simp [h0] at hh
            · rw [if_neg h0] at hh
              exact absurd (hl.mp hh rfl) h0
          · intro hh; have := hh trivial; omega
      · have hring := c.ring
        rw [hn] at hring
        refine pairwise_middle_replace hring (fun a b _ _ hab => hab) ?_ ?_
        · intro a ha hab la lb
          rw [hptr]
          refine hab la ?_
          rw [hlk] at lb
          split at lb
          · cases lb
          · exact lb
        · intro b hb hab la lb
          rw [hptr]
          refine hab ?_ lb
          rw [hlk] at la
          split at la
          · cases la
          · exact la
      · rw [hlu]; exact c.time e (by simp [hn])
      · rw [hun]; omega
      · rw [hun, hpin]
        rw [if_neg (show ¬ e.pin + 1 = 0 by omega)]
        split <;> omega
    · intro hc ho x hx
      have hx' : x ∈ A ∨ x = e' ∨ x ∈ B := by simpa using hx
      rcases hx' with hx' | rfl | hx'
      · exact hc ho x (by simp [hn, hx'])
      · rw [hpin]; omega
      · exact hc ho x (by simp [hn, hx'])

/-! ### Release -/

theorem held_release (upd : Bool) (k : Bytes) (p : Nat) (out : Option Nat) (tm : Int) (h : Hist β)
    (k' : Bytes) (p' : Nat) (d : Int) (hd : d = -1) :
    held k' p' ({ call := .release upd k p, out := out, time := tm } :: h) =
      held k' p' h + if k' = k ∧ p' = p then d else 0 := by
  subst hd
  simp only [held]
  by_cases hkp : k' = k ∧ p' = p
  · rw [if_pos hkp, if_pos ⟨hkp.1.symm, hkp.2.symm⟩]; omega
  · rw [if_neg hkp, if_neg (fun hh => hkp ⟨hh.1.symm, hh.2.symm⟩)]; omega

theorem stamp_release_ne (lru upd : Bool) (k : Bytes) (p q : Nat) (out : Option Nat) (tm : Int)
    (h : Hist β) (hq : q ≠ p) :
    stamp lru q ({ call := .release upd k p, out := out, time := tm } :: h) = stamp lru q h := by
  rw [stamp, if_neg]; simp [touches]; intro _ hh; exact hq hh.symm

theorem touchTime_release_ne (lru upd : Bool) (k : Bytes) (p q : Nat) (out : Option Nat) (tm : Int)
    (h : Hist β) (hq : q ≠ p) :
    touchTime lru q ({ call := .release upd k p, out := out, time := tm } :: h) = touchTime lru q h := by
  rw [touchTime, if_neg]; simp [touches]; intro _ hh; exact hq hh.symm

theorem release_good {E : Env} {cfg : Config} {h : Hist β} {w : World (List Nat) β}
    (g : Good E cfg h w) (upd : Bool) (k : Bytes) (p : Nat) (hh : 0 < held k p h)
    (hupd : cfg.lru = true → upd = true) :
    ∃ w', release E logDel upd k p w = .ok w' ∧ w.tick ≤ w'.tick ∧
      w'.cache.maxIdle = w.cache.maxIdle ∧
      (w'.cache.overfull → ∀ e ∈ w'.cache.nodes, 0 < e.pin) ∧
      Core cfg.lru ({ call := .release upd k p, out := none, time := w.now E } :: h) w' := by
  have c := g.core
  -- the element is live
  obtain ⟨e, he, hek, hep⟩ : ∃ e ∈ w.cache.all, e.key = k ∧ e.ptr = p := by
    by_contra hcon
    have := c.heldz k p (fun e he hkp => hcon ⟨e, he, hkp⟩)
    omega
  have hpin := c.pins e he
  rw [hek, hep] at hpin
  unfold release
  cases hf : w.cache.defer.find? (fun e => e.key == k && e.ptr == p) with
  | some x =>
    obtain ⟨hx, A, B, hn, hA⟩ := List.find?_eq_some_iff_append.mp hf
    have hxall : x ∈ w.cache.all := by simp [Cache.all, hn]
    have hxp : x.key = k ∧ x.ptr = p := by simpa using hx
    obtain rfl : x = e := c.ptr_inj hxall he (by rw [hxp.2, hep])
    have hnod : ((A ++ x :: B).map (·.id)).Nodup := by
      have := c.ids
      rw [Cache.all, List.map_append, List.nodup_append] at this
      rw [← hn]; exact this.2.1
    obtain ⟨hAi, hBi⟩ := mid_ids hnod
    have hpos : x.pin > 0 := by omega
    simp only [releaseDeferred, assertThat, hpos, decide_true, Bool.not_true, Bool.and_false,
      Bool.false_eq_true, if_false, bind, Except.bind]
    by_cases h1 : x.pin - 1 = 0
    · rw [if_pos h1]
      simp only [discard, assertThat, h1, decide_true, Bool.not_true, Bool.and_false,
        Bool.false_eq_true, if_false, bind, Except.bind, logDel]
      rw [hn, dropId_mid hAi hBi]
      refine ⟨_, rfl, Nat.le_refl _, rfl, ?_, ?_⟩
      · intro ho
        refine g.cap ?_
        have ho' : w.cache.units - x.units > w.cache.maxUnits := ho
        unfold Cache.overfull; omega
      · refine c.dropD (e := x) hn ?_ rfl (fun _ => rfl) (fun _ => rfl) (fun _ => rfl) ?_ ?_
        · intro k' p'
          rw [hxp.1, hxp.2]
          exact held_release upd k p none _ h k' p' (-x.pin) (by omega)
        · intro q hq; rw [hxp.2] at hq; exact stamp_release_ne _ _ _ _ _ _ _ _ hq
        · intro q hq; rw [hxp.2] at hq; exact touchTime_release_ne _ _ _ _ _ _ _ _ hq
    · rw [if_neg h1]
      rw [hn, setElem_mid _ (by rfl) hAi hBi]
      refine ⟨_, rfl, Nat.le_refl _, rfl, g.cap, ?_⟩
      refine c.replaceD (e := x) (e' := { x with pin := x.pin - 1 }) hn rfl rfl rfl
        (by show 0 < x.pin - 1; omega) ?_ rfl
        (fun _ => rfl) (fun _ => rfl) (fun _ _ => rfl) (c.uo x hxall) ?_ ?_ (by simp)
      · intro k' p'
        rw [hxp.1, hxp.2]
        exact held_release upd k p none _ h k' p' _ (by show x.pin - 1 - x.pin = -1; omega)
      · intro q hq; rw [hxp.2] at hq; exact stamp_release_ne _ _ _ _ _ _ _ _ hq
      · intro q hq; rw [hxp.2] at hq; exact touchTime_release_ne _ _ _ _ _ _ _ _ hq
  | none =>
    have heN : e ∈ w.cache.nodes := by
      simp only [Cache.all, List.mem_append] at he
      rcases he with he | he
      · exact he
      · have := List.find?_eq_none.mp hf e he
        simp [hek, hep] at this
    have hfk : findKey k w.cache.nodes = some e := (findKey_iff c.keys).mpr ⟨heN, hek⟩
    obtain ⟨A, B, hn, _, hA⟩ := findKey_split hfk
    have hd := c.distinct; rw [hn] at hd
    obtain ⟨hAi, hBi⟩ := mid_ids hd.ids
    have hpos : e.pin > 0 := by omega
    have hl := c.link e heN
    have hmode := c.mode
    have htouch : (w.cache.lru && upd) = cfg.lru := by
      rw [hmode]; cases hb : cfg.lru
      · rfl
      · rw [hupd hb]; rfl
    have hdec : decide (e.ptr = p) = true := decide_eq_true hep
    simp only [hfk, releaseTable, assertThat, hpos, hdec, decide_true, Bool.not_true, Bool.and_false,
      Bool.false_eq_true, if_false, bind, Except.bind, htouch]
    generalize he1 : ({ e with
      lastUse := if cfg.lru = true then w.now E else e.lastUse, pin := e.pin - 1 } : Elem β) = e1
    have hid : e1.id = e.id := by rw [← he1]
    have hkey1 : e1.key = e.key := by rw [← he1]
    have hptr1 : e1.ptr = e.ptr := by rw [← he1]
    have hpin1 : e1.pin = e.pin - 1 := by rw [← he1]
    have hun1 : e1.units = e.units := by rw [← he1]
    have hlu1 : e1.lastUse = if cfg.lru = true then w.now E else e.lastUse := by rw [← he1]
    have hlk1 : e1.linked = e.linked := by rw [← he1]
    have hpinv : ({ id := e.id, key := e.key, ptr := e.ptr, val := e.val, pin := e.pin - 1, units := e.units, lastUse := if cfg.lru = true then w.now E else e.lastUse, linked := e.linked } : Elem β).pin = e.pin - 1 := rfl
    have htt : touchTime cfg.lru e.ptr
        (({ call := .release upd k p, out := none, time := w.now E } : Event β) :: h) = e1.lastUse := by
      rw [touchTime, hlu1, hep]
      cases hb : cfg.lru
      · simp [touches]; rw [← hb, ← hep]; exact (c.time e heN).symm
      · simp [touches]
    -- nodes with e replaced in place
    have hplace : ∀ (t : Nat) (pu : Int),
        (cfg.lru = true → e1.pin ≠ 0) →
        pu = w.cache.pinnedUnits - (if e.pin = 0 then 0 else (e.units : Int))
          + (if e1.pin = 0 then 0 else (e1.units : Int)) →
        Core cfg.lru ({ call := .release upd k p, out := none, time := w.now E } :: h)
          { w with tick := t, cache := { w.cache with nodes := A ++ e1 :: B, pinnedUnits := pu } } := by
      intro t pu hz hpu
      refine c.replace (A := A) (B := B) (e := e) (e' := e1) (t := t) (un := w.cache.units)
        hn hid hkey1 hptr1 (List.Perm.refl _) (by omega) ?_ rfl (fun _ => rfl) (fun _ => rfl)
        (fun _ _ => rfl) ?_ ?_ ?_ ?_ htt.symm (by rw [hun1]; omega) hpu
      · intro k' p'
        rw [hek, hep]
        exact held_release upd k p none _ h k' p' _ (by rw [hpin1]; omega)
      · rw [hun1]; exact c.uo e he
      · rw [hlk1, hl]
        constructor
        · intro hh2 hb; have := hh2 hb; omega
        · intro hh2 hb; exact absurd (hh2 hb) (hz hb)
      · have hring := c.ring
        rw [hn] at hring
        have hst : ∀ q, q ∈ A ++ B → stamp cfg.lru q.ptr
            (({ call := .release upd k p, out := none, time := w.now E } : Event β) :: h) =
            stamp cfg.lru q.ptr h := by
          intro q hq
          refine stamp_release_ne _ _ _ _ _ _ _ _ ?_
          intro hqp
          have : q ∈ w.cache.all := by
            simp only [Cache.all, hn, List.mem_append] at hq ⊢
            rcases hq with hq | hq <;> simp [hq]
          have := c.ptr_inj this he (by rw [hqp, hep])
          subst this
          rcases List.mem_append.mp hq with hq | hq
          · exact hAi q hq rfl
          · exact hBi q hq rfl
        -- if e1 is linked then we are in age mode and nothing moved
        have hage : e1.linked = true → cfg.lru = false := by
          intro hh2
          cases hb : cfg.lru
          · rfl
          · rw [hlk1, hl] at hh2; have := hh2 hb; omega
        refine pairwise_middle_replace hring ?_ ?_ ?_
        · intro a b ha hb hab la lb
          rw [hst a ha, hst b hb]; exact hab la lb
        · intro a ha hab la lb
          have hlru := hage lb
          rw [hlk1] at lb
          rw [hptr1, hst a (by simp [ha])]
          have : stamp cfg.lru e.ptr
            (({ call := .release upd k p, out := none, time := w.now E } : Event β) :: h) =
            stamp cfg.lru e.ptr h := by rw [stamp, if_neg]; simp [touches, hlru]
          rw [this]; exact hab la lb
        · intro b hb hab la lb
          have hlru := hage la
          rw [hlk1] at la
          rw [hptr1, hst b (by simp [hb])]
          have : stamp cfg.lru e.ptr
            (({ call := .release upd k p, out := none, time := w.now E } : Event β) :: h) =
            stamp cfg.lru e.ptr h := by rw [stamp, if_neg]; simp [touches, hlru]
          rw [this]; exact hab la lb
      · intro q hq; rw [hep] at hq; exact touchTime_release_ne _ _ _ _ _ _ _ _ hq
    by_cases h0 : e.pin - 1 = 0
    · -- last pin
      rw [if_pos h0]
      -- the common end: maybe kicked out
      have hend : ∀ w2 : World (List Nat) β,
          Core cfg.lru ({ call := .release upd k p, out := none, time := w.now E } :: h) w2 →
          w.tick ≤ w2.tick → w2.cache.maxIdle = w.cache.maxIdle →
          w2.cache.units = w.cache.units → w2.cache.maxUnits = w.cache.maxUnits →
          (∀ x ∈ w2.cache.nodes, x.key = k ∨ x ∈ w.cache.nodes) →
          ∃ w', (if w2.cache.overfull then remove E logDel k w2 else .ok w2) = .ok w' ∧
            w.tick ≤ w'.tick ∧ w'.cache.maxIdle = w.cache.maxIdle ∧
            (w'.cache.overfull → ∀ e ∈ w'.cache.nodes, 0 < e.pin) ∧
            Core cfg.lru ({ call := .release upd k p, out := none, time := w.now E } :: h) w' := by
        intro w2 c2 ht hmi hu hmx hmem
        by_cases ho : w2.cache.overfull
        · rw [if_pos ho]
          obtain ⟨w3, h3, hr, hk3, ht3⟩ := remove_removed E c2 k
          refine ⟨w3, h3, by omega, by rw [hr.maxIdle, hmi], ?_, hr.core c2⟩
          intro _ x hx
          have hx2 := hr.sub.subset hx
          rcases hmem x hx2 with hxk | hxn
          · exact absurd hxk (hk3 x hx)
          · refine g.cap ?_ x hxn
            unfold Cache.overfull at ho ⊢; omega
        · rw [if_neg ho]
          exact ⟨w2, rfl, ht, hmi, fun h' => absurd h' ho, c2⟩
      cases hb : cfg.lru
      · -- age mode: stays where it is
        rw [hb] at he1 hplace hend hl htt
        simp only [Bool.false_eq_true, if_false]
        have : setElem e1 w.cache.nodes = A ++ e1 :: B := by rw [hn, setElem_mid e1 hid hAi hBi]
        simp only [Bool.false_eq_true, if_false] at he1
        simp only [he1, this]
        refine hend _ (hplace w.tick _ (by simp) ?_) (Nat.le_refl _) rfl rfl rfl ?_
        · show w.cache.pinnedUnits - _ = _
          rw [if_neg (show ¬ e.pin = 0 by omega), if_pos (show e1.pin = 0 by omega)]; omega
        · intro x hx
          have hx' : x ∈ A ∨ x = e1 ∨ x ∈ B := by simpa using hx
          rcases hx' with hx' | rfl | hx'
          · right; simp [hn, hx']
          · left; rw [hkey1, hek]
          · right; simp [hn, hx']
      · -- LRU mode: moves to the front
        rw [hb] at he1 hplace hend hl htt
        simp only [if_true] at he1
        have hunl : e.linked = false := by
          cases hle : e.linked
          · rfl
          · have := hl.mp hle rfl; omega
        simp only [if_true, he1, linkFront, hlk1, hunl, World.ticked]
        have hdrop : dropId e1.id w.cache.nodes = A ++ B := by rw [hid, hn, dropId_mid hAi hBi]
        simp only [hdrop, Bool.false_eq_true, if_false]
        refine hend { w with
          tick := w.tick + 1,
          cache := { w.cache with
            nodes := relink e1 :: (A ++ B), pinnedUnits := w.cache.pinnedUnits - e.units } }
          ?_ (Nat.le_succ _) rfl rfl rfl ?_
        · have hstmem : ∀ q, q ∈ A ++ B → stamp true q.ptr
              (({ call := .release upd k p, out := none, time := w.now E } : Event β) :: h) =
              stamp true q.ptr h := by
            intro q hq
            refine stamp_release_ne _ _ _ _ _ _ _ _ ?_
            intro hqp
            have : q ∈ w.cache.all := by
              simp only [Cache.all, hn, List.mem_append] at hq ⊢
              rcases hq with hq | hq <;> simp [hq]
            have := c.ptr_inj this he (by rw [hqp, hep])
            subst this
            rcases List.mem_append.mp hq with hq | hq
            · exact hAi q hq rfl
            · exact hBi q hq rfl
          rw [hb] at c
          refine c.replace (A := A) (B := B) (e := e) (e' := relink e1) (t := w.tick + 1)
            (N := relink e1 :: (A ++ B)) (un := w.cache.units)
            hn hid hkey1 hptr1 ?_ (by show 0 ≤ e1.pin; omega) ?_ rfl (fun _ => rfl)
            (fun _ => rfl) (fun _ _ => rfl) ?_ ?_ ?_ ?_ htt.symm
            (by show _ = w.cache.units - e.units + (e1.units : Int); rw [hun1]; omega) ?_
          · exact List.perm_middle.symm
          · intro k' p'
            rw [hek, hep]
            exact held_release upd k p none _ h k' p' _ (by show e1.pin - e.pin = -1; omega)
          · show _ = e1.units
            rw [hun1]; exact c.uo e he
          · constructor
            · intro _ _; show e1.pin = 0; omega
            · intro _; rfl
          · rw [List.pairwise_cons]
            constructor
            · intro b hb' _ _
              rw [hstmem b hb', show (relink e1).ptr = p by rw [← hep]; exact hptr1, stamp,
                if_pos (by simp [touches])]
              have := stamp_le true b.ptr h
              omega
            · have hring := c.ring
              rw [hn] at hring
              refine (hring.sublist (l₁ := A ++ B) (by simp)).imp_of_mem ?_
              intro a b ha hb' hab la lb
              rw [hstmem a ha, hstmem b hb']; exact hab la lb
          · intro q hq; rw [hep] at hq; exact touchTime_release_ne _ _ _ _ _ _ _ _ hq
          · show w.cache.pinnedUnits - (e.units : Int) = _ - _ + (if e1.pin = 0 then 0 else _)
            rw [if_neg (show ¬ e.pin = 0 by omega), if_pos (show e1.pin = 0 by omega)]; omega
        · intro x hx
          have hx' : x = relink e1 ∨ x ∈ A ∨ x ∈ B := by simpa [relink] using hx
          rcases hx' with rfl | hx' | hx'
          · left; show e1.key = k; rw [hkey1, hek]
          · right; simp [hn, hx']
          · right; simp [hn, hx']
    · -- other pins remain
      rw [if_neg h0]
      have hcap : ∀ (t : Nat), (({ w with tick := t, cache := { w.cache with nodes := A ++ e1 :: B } } : World (List Nat) β).cache.overfull → ∀ x ∈ A ++ e1 :: B, 0 < x.pin) := by
        intro t ho x hx
        have hx' : x ∈ A ∨ x = e1 ∨ x ∈ B := by simpa using hx
        rcases hx' with hx' | rfl | hx'
        · exact g.cap ho x (by simp [hn, hx'])
        · omega
        · exact g.cap ho x (by simp [hn, hx'])
      have hset : setElem e1 w.cache.nodes = A ++ e1 :: B := by rw [hn, setElem_mid e1 hid hAi hBi]
      cases hb : cfg.lru
      · rw [hb] at he1 hplace htt
        simp only [Bool.false_eq_true, if_false] at he1 ⊢
        simp only [he1, hset]
        refine ⟨_, rfl, Nat.le_refl _, rfl, hcap w.tick, ?_⟩
        refine hplace w.tick w.cache.pinnedUnits (by simp) ?_
        rw [if_neg (show ¬ e.pin = 0 by omega), if_neg (show ¬ e1.pin = 0 by omega), hun1]; omega
      · rw [hb] at he1 hplace htt
        simp only [if_true] at he1 ⊢
        simp only [he1, World.ticked, hset]
        refine ⟨_, rfl, by show w.tick ≤ w.tick + 1; omega, rfl, hcap (w.tick + 1), ?_⟩
        refine hplace (w.tick + 1) w.cache.pinnedUnits (by intro _; omega) ?_
        rw [if_neg (show ¬ e.pin = 0 by omega), if_neg (show ¬ e1.pin = 0 by omega), hun1]; omega

end Verif.Lru
