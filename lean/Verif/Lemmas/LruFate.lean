import Verif.Lemmas.LruBuild
/-
What a call does to each value: which are handed to the deleter and why, and which become
unfindable while pinned.
-/
namespace Verif.Lru

variable {β : Type}

structure Fate (RD RF : Elem β → Prop) (w w' : World (List Nat) β) : Prop where
  pre : ∃ l, w'.ext = w.ext ++ l
  del : ∀ p, w.ext.count p < w'.ext.count p → ∃ e ∈ w.cache.all, e.ptr = p ∧ RD e
  defer : ∀ e' ∈ w'.cache.defer, ∃ e ∈ w.cache.all, e.key = e'.key ∧ e.ptr = e'.ptr ∧
    (e ∈ w.cache.defer ∨ RF e)
  max : w'.cache.maxUnits = w.cache.maxUnits

theorem Fate.same {RD RF : Elem β → Prop} {w w' : World (List Nat) β} (h1 : w'.ext = w.ext)
    (h2 : ∀ e' ∈ w'.cache.defer, ∃ e ∈ w.cache.defer, e.key = e'.key ∧ e.ptr = e'.ptr)
    (h3 : w'.cache.maxUnits = w.cache.maxUnits) : Fate RD RF w w' := by
  refine ⟨⟨[], by simp [h1]⟩, ?_, ?_, h3⟩
  · intro p hp; rw [h1] at hp; omega
  · intro e' he'
    obtain ⟨e, he, hk, hp⟩ := h2 e' he'
    exact ⟨e, by simp [Cache.all, he], hk, hp, Or.inl he⟩

theorem Fate.rm {w : World (List Nat) β} {kept gone pinned : List (Elem β)} {t : Nat}
    (hg : ∀ e ∈ gone, e ∈ w.cache.nodes) (hp : ∀ e ∈ pinned, e ∈ w.cache.nodes) :
    Fate (fun e => e ∈ gone) (fun e => e ∈ pinned) w
      { rmWorld logF w kept gone pinned with tick := t } := by
  refine ⟨⟨gone.map (·.ptr), ?_⟩, ?_, ?_, rfl⟩
  · simp [rmWorld, logF_foldl]
  · intro p hlt
    simp only [rmWorld, logF_foldl, List.count_append] at hlt
    have : 0 < (gone.map (·.ptr)).count p := by omega
    obtain ⟨e, he, hep⟩ := List.mem_map.mp (List.count_pos_iff.mp this)
    exact ⟨e, by simp [Cache.all, hg e he], hep, he⟩
  · intro e' he'
    simp only [rmWorld, List.mem_append, List.mem_reverse, List.mem_map] at he'
    rcases he' with ⟨e, he, rfl⟩ | he'
    · exact ⟨e, by simp [Cache.all, hp e he], rfl, rfl, Or.inr he⟩
    · exact ⟨e', by simp [Cache.all, he'], rfl, rfl, Or.inl he'⟩

theorem Fate.mono {RD RF RD' RF' : Elem β → Prop} {w w' : World (List Nat) β}
    (f : Fate RD RF w w') (hd : ∀ e ∈ w.cache.all, RD e → RD' e)
    (hf : ∀ e ∈ w.cache.all, RF e → RF' e) : Fate RD' RF' w w' := by
  refine ⟨f.pre, ?_, ?_, f.max⟩
  · intro p hp
    obtain ⟨e, he, hep, hr⟩ := f.del p hp
    exact ⟨e, he, hep, hd e he hr⟩
  · intro e' he'
    obtain ⟨e, he, hk, hp, hr⟩ := f.defer e' he'
    exact ⟨e, he, hk, hp, hr.imp id (hf e he)⟩

theorem remove_fate (E : Env) {lru : Bool} {h : Hist β} {w w' : World (List Nat) β}
    (c : Core lru h w) (k : Bytes) (hr : remove E logDel k w = .ok w') :
    Fate (fun e => e.key = k ∧ e ∈ w.cache.nodes ∧ e.pin = 0)
      (fun e => e.key = k ∧ e ∈ w.cache.nodes ∧ 0 < e.pin) w w' ∧
    w'.cache.units ≤ w.cache.units ∧ w'.cache.nodes.Sublist w.cache.nodes := by
  rw [logDel_eq] at hr
  cases hk : findKey k w.cache.nodes with
  | none =>
    rw [remove_pure_none E logF k w hk] at hr
    cases hr
    exact ⟨Fate.same rfl (fun e he => ⟨e, he, rfl, rfl⟩) rfl, Int.le_refl _, List.Sublist.refl _⟩
  | some e =>
    obtain ⟨A, B, hn, rfl, hA⟩ := findKey_split hk
    have hd := c.distinct; rw [hn] at hd
    have hp := c.pinN e (by simp [hn])
    have he : e ∈ w.cache.nodes := by simp [hn]
    rw [remove_pure_some E logF e w A B hn hd hp] at hr
    have hsub : (A ++ B).Sublist w.cache.nodes := by rw [hn]; simp
    by_cases h0 : e.pin = 0
    · rw [if_pos h0] at hr; cases hr
      refine ⟨(Fate.rm (t := w.tick) (by simpa using he) (by simp)).mono ?_ (by simp), ?_, hsub⟩
      · intro x _ hx
        simp only [List.mem_singleton] at hx
        subst hx; exact ⟨rfl, he, h0⟩
      · show w.cache.units - sumUnits [e] ≤ _
        have := sumUnits_nonneg [e]; omega
    · rw [if_neg h0] at hr; cases hr
      refine ⟨(Fate.rm (t := w.tick) (by simp) (by simpa using he)).mono (by simp) ?_, ?_, hsub⟩
      · intro x _ hx
        simp only [List.mem_singleton] at hx
        subst hx; exact ⟨rfl, he, by omega⟩
      · show w.cache.units - sumUnits [] ≤ _
        simp

theorem gc_fate (E : Env) {lru : Bool} {h : Hist β} {w w' : World (List Nat) β}
    (c : Core lru h w) (hr : garbageCollect E logDel w = .ok w') :
    Fate (fun e => w.cache.maxUnits < w.cache.units ∧ e ∈ w.cache.nodes ∧ e.pin = 0)
      (fun _ => False) w w' := by
  obtain ⟨w1, h1, _, _, heq⟩ := gc_removed (E := E) c
  rw [h1] at hr; cases hr
  have hg := gcScan_gone w.cache.nodes.reverse (w.cache.units - w.cache.maxUnits)
  have hperm := gcScan_perm w.cache.nodes.reverse (w.cache.units - w.cache.maxUnits)
  rw [heq]
  have hin : ∀ e ∈ (gcScan (w.cache.units - w.cache.maxUnits) w.cache.nodes.reverse).2,
      e ∈ w.cache.nodes := by
    intro e he
    have := hperm.subset (by simp [he] : e ∈ _ ++ _)
    simpa using this
  refine (Fate.rm (t := w.tick) hin (by simp)).mono ?_ (by simp)
  intro e _ he
  refine ⟨?_, hin e he, (hg e he).2⟩
  by_cases ho : 0 < w.cache.units - w.cache.maxUnits
  · omega
  · rw [gcScan_stop ho] at he; cases he

theorem removeExpired_fate {E : Env} {cfg : Config} {h : Hist β} {w w' : World (List Nat) β}
    (hE : Sound E) (g : Good E cfg h w) (hr : removeExpired E logDel w = .ok w') :
    Fate (fun e => e ∈ w.cache.nodes ∧ expiredAt cfg h e.ptr (w.now E))
      (fun e => e ∈ w.cache.nodes ∧ cfg.lru = false ∧ expiredAt cfg h e.ptr (w.now E)) w w' := by
  obtain ⟨w1, h1, _, heq⟩ := removeExpired_pure hE g
  rw [h1] at hr; cases hr
  rw [heq]
  split
  · rename_i hm
    obtain ⟨n, hn, hmi⟩ : ∃ n, cfg.limit = some n ∧ w.cache.maxIdle = n := by
      have := g.idle
      cases hl : cfg.limit with
      | none => rw [hl] at this; simp only at this; omega
      | some n => rw [hl] at this; exact ⟨n, rfl, this⟩
    have hperm := idleScan_perm (w.now E - w.cache.maxIdle) w.cache.nodes.reverse
    have hgone := idleScan_gone (w.now E - w.cache.maxIdle) w.cache.nodes.reverse
    have hin : ∀ e ∈ (idleScan (w.now E - w.cache.maxIdle) w.cache.nodes.reverse).2,
        e ∈ w.cache.nodes := by
      intro e he
      have := hperm.subset (by simp [he] : e ∈ _ ++ _)
      simpa using this
    have hexp : ∀ e ∈ (idleScan (w.now E - w.cache.maxIdle) w.cache.nodes.reverse).2,
        expiredAt cfg h e.ptr (w.now E) := by
      intro e he
      refine ⟨n, hn, ?_⟩
      have h2 := (hgone e he).2
      rw [g.core.time e (hin e he)] at h2
      omega
    have hf := Fate.rm (w := w) (t := w.tick + 1)
      (kept := (idleScan (w.now E - w.cache.maxIdle) w.cache.nodes.reverse).1.reverse)
      (gone := unpinned (idleScan (w.now E - w.cache.maxIdle) w.cache.nodes.reverse).2)
      (pinned := pinnedOf (idleScan (w.now E - w.cache.maxIdle) w.cache.nodes.reverse).2)
      (fun e he => hin e (mem_unpinned.mp he).1) (fun e he => hin e (mem_pinnedOf.mp he).1)
    refine hf.mono ?_ ?_
    · intro e _ he
      exact ⟨hin e (mem_unpinned.mp he).1, hexp e (mem_unpinned.mp he).1⟩
    · intro e _ he
      obtain ⟨h1, h2⟩ := mem_pinnedOf.mp he
      refine ⟨hin e h1, ?_, hexp e h1⟩
      cases hb : cfg.lru
      · rfl
      · exact absurd ((g.core.link e (hin e h1)).mp (hgone e h1).1 hb) h2
  · exact Fate.same rfl (fun e he => ⟨e, he, rfl, rfl⟩) rfl

theorem mem_setElem {e' : Elem β} {l : List (Elem β)} {x : Elem β} (h : x ∈ setElem e' l) :
    x ∈ l ∨ x = e' := by
  induction l with
  | nil => cases h
  | cons a l ih =>
    simp only [setElem, List.map_cons, List.mem_cons] at h ih ⊢
    rcases h with h | h
    · split at h
      · exact Or.inr h
      · exact Or.inl (Or.inl h)
    · rcases ih h with h | h
      · exact Or.inl (Or.inr h)
      · exact Or.inr h

theorem assertThat_rel {E : Env} (hd : E.dbg = false) (p : Prop) [Decidable p] :
    assertThat E p = .ok () := by simp [assertThat, hd]

theorem release_fate {E : Env} (hdb : E.dbg = false) {cfg : Config} {h : Hist β}
    {w w' : World (List Nat) β} (g : Good E cfg h w) (upd : Bool) (k : Bytes) (p : Nat)
    (hh : 0 < held k p h) (hr : release E logDel upd k p w = .ok w') :
    Fate (fun e => e.key = k ∧ e.ptr = p ∧ e.pin = 1 ∧
      (e ∈ w.cache.defer ∨ w.cache.maxUnits < w.cache.units)) (fun _ => False) w w' := by
  have c := g.core
  obtain ⟨e, he, hek, hep⟩ : ∃ e ∈ w.cache.all, e.key = k ∧ e.ptr = p := by
    by_contra hcon
    have := c.heldz k p (fun e he hkp => hcon ⟨e, he, hkp⟩)
    omega
  have hpin := c.pins e he
  rw [hek, hep] at hpin
  unfold release at hr
  cases hf : w.cache.defer.find? (fun e => e.key == k && e.ptr == p) with
  | some x =>
    have hxd := List.mem_of_find?_eq_some hf
    have hxp : x.key = k ∧ x.ptr = p := by simpa using List.find?_some hf
    have hxa : x ∈ w.cache.all := by simp [Cache.all, hxd]
    obtain rfl : x = e := c.ptr_inj hxa he (by rw [hxp.2, hep])
    rw [hf] at hr
    simp only [releaseDeferred, assertThat_rel hdb, bind, Except.bind] at hr
    by_cases h1 : x.pin - 1 = 0
    · rw [if_pos h1] at hr
      simp only [discard, assertThat_rel hdb, bind, Except.bind, logDel] at hr
      cases hr
      refine ⟨⟨[x.ptr], rfl⟩, ?_, ?_, rfl⟩
      · intro q hq
        refine ⟨x, he, ?_, hxp.1, hxp.2, by omega, Or.inl hxd⟩
        simp only [List.count_append] at hq
        have : 0 < [x.ptr].count q := by omega
        simpa using (List.mem_singleton.mp (List.count_pos_iff.mp this)).symm
      · intro e' he'
        have : e' ∈ w.cache.defer := List.mem_of_mem_filter he'
        exact ⟨e', by simp [Cache.all, this], rfl, rfl, Or.inl this⟩
    · rw [if_neg h1] at hr
      cases hr
      refine Fate.same rfl ?_ rfl
      intro e' he'
      rcases mem_setElem he' with h2 | h2
      · exact ⟨e', h2, rfl, rfl⟩
      · subst h2; exact ⟨x, hxd, rfl, rfl⟩
  | none =>
    have heN : e ∈ w.cache.nodes := by
      simp only [Cache.all, List.mem_append] at he
      rcases he with he | he
      · exact he
      · have := List.find?_eq_none.mp hf e he
        simp [hek, hep] at this
    have hfk : findKey k w.cache.nodes = some e := (findKey_iff c.keys).mpr ⟨heN, hek⟩
    rw [hf] at hr
    simp only [hfk, releaseTable, assertThat_rel hdb, bind, Except.bind] at hr
    have hw : ∀ (b : Bool), (if b = true then w.ticked else w).cache = w.cache ∧
        (if b = true then w.ticked else w).ext = w.ext := by
      intro b; cases b <;> exact ⟨rfl, rfl⟩
    by_cases h1 : e.pin - 1 = 0
    · rw [if_pos h1] at hr
      -- the state before the possible removal
      have hend : ∀ (e2 : Elem β) (N : List (Elem β)) (w2 : World (List Nat) β),
          w2.cache.nodes = N → w2.ext = w.ext → w2.cache.defer = w.cache.defer →
          w2.cache.units = w.cache.units → w2.cache.maxUnits = w.cache.maxUnits →
          findKey k N = some e2 → e2.pin = 0 → e2.ptr = p →
          (if w2.cache.overfull then remove E logDel k w2 else .ok w2) = .ok w' →
          Fate (fun e => e.key = k ∧ e.ptr = p ∧ e.pin = 1 ∧
            (e ∈ w.cache.defer ∨ w.cache.maxUnits < w.cache.units)) (fun _ => False) w w' := by
        intro e2 N w2 hN hx hD hu hm hfk2 hp2 hep2 hr2
        split at hr2
        · rename_i ho
          simp only [remove, hN, hfk2] at hr2
          rw [removeElem, if_neg (by omega)] at hr2
          simp only [discard, assertThat_rel hdb, bind, Except.bind, logDel] at hr2
          cases hr2
          refine ⟨⟨[e2.ptr], by rw [← hx]⟩, ?_, ?_, hm⟩
          · intro q hq
            refine ⟨e, he, ?_, hek, hep, by omega, Or.inr ?_⟩
            · simp only [List.count_append, hx] at hq
              have : 0 < [e2.ptr].count q := by omega
              have := List.mem_singleton.mp (List.count_pos_iff.mp this)
              rw [this, hep, hep2]
            · unfold Cache.overfull at ho; omega
          · intro e' he'
            have he'' : e' ∈ w.cache.defer := by rw [← hD]; exact he'
            exact ⟨e', by simp [Cache.all, he''], rfl, rfl, Or.inl he''⟩
        · cases hr2
          exact Fate.same hx (fun x hx' => ⟨x, by rw [← hD]; exact hx', rfl, rfl⟩) hm
      have hfind : ∀ e1 : Elem β, e1.id = e.id → e1.key = e.key →
          findKey k (setElem e1 w.cache.nodes) = some e1 := by
        intro e1 hid hk1
        obtain ⟨A, B, hn, _, hA⟩ := findKey_split hfk
        have hd := c.distinct; rw [hn] at hd
        obtain ⟨hAi, hBi⟩ := mid_ids hd.ids
        rw [hn, setElem_mid e1 hid hAi hBi, ← hek, ← hk1]
        refine findKey_mid ?_
        intro a ha; rw [hk1, hek]; exact hA a ha
      cases hb : (w.cache.lru && upd)
      · rw [hb] at hr
        simp only [Bool.false_eq_true, if_false] at hr
        exact hend { e with pin := e.pin - 1 } _ { w with cache := { w.cache with
            nodes := setElem { e with pin := e.pin - 1 } w.cache.nodes,
            pinnedUnits := w.cache.pinnedUnits - e.units } }
          rfl rfl rfl rfl rfl (hfind _ rfl rfl) h1 hep hr
      · rw [hb] at hr
        simp only [if_true, linkFront, World.ticked] at hr
        split at hr
        · cases hr
        · rename_i c2 hc2
          split at hc2
          · cases hc2
          · cases hc2
            refine hend { e with lastUse := w.now E, pin := e.pin - 1, linked := true } _
              { w with
                tick := w.tick + 1,
                cache := { w.cache with
                  nodes := { e with lastUse := w.now E, pin := e.pin - 1, linked := true } ::
                    dropId e.id w.cache.nodes,
                  pinnedUnits := w.cache.pinnedUnits - e.units } }
              rfl rfl rfl rfl rfl ?_ ?_ ?_ hr
            · simp [findKey, hek]
            · exact h1
            · exact hep
    · rw [if_neg h1] at hr
      cases hr
      exact Fate.same (hw _).2 (fun x hx' => ⟨x, by rw [← (hw _).1]; exact hx', rfl, rfl⟩)
        (by show (if _ then _ else _ : World (List Nat) β).cache.maxUnits = _; rw [(hw _).1])

/-- Pinned values that became unfindable although not removed: only expired ones, in age mode. -/
structure Inv2 (cfg : Config) (h : Hist β) (w : World (List Nat) β) : Prop where
  max : w.cache.maxUnits = maxSizeOf cfg h
  dq : ∀ e ∈ w.cache.defer, current e.key h = some e.ptr →
    cfg.lru = false ∧ ∃ ev ∈ h, expiredAt cfg h e.ptr ev.time

/-- Which pinned values a call makes unfindable. -/
def Hidden (cfg : Config) (h : Hist β) (now : Int) : Call β → Elem β → Prop
  | .insertPinned k _ _ _, e => e.key = k
  | .remove k, e => e.key = k
  | .lookup _ _, e => cfg.lru = false ∧ expiredAt cfg h e.ptr now
  | .removeExpired, e => cfg.lru = false ∧ expiredAt cfg h e.ptr now
  | .removeAll, _ => True
  | .clear, _ => True
  | _, _ => False

theorem pinKey_ext (upd : Bool) (k : Bytes) (w : World (List Nat) β) :
    (pinKey upd k w).1.ext = w.ext ∧ (pinKey upd k w).1.cache.defer = w.cache.defer ∧
    (pinKey upd k w).1.cache.maxUnits = w.cache.maxUnits := by
  unfold pinKey; split <;> exact ⟨rfl, rfl, rfl⟩

theorem Fate.after {RD RF : Elem β → Prop} {w w1 w2 : World (List Nat) β} (f : Fate RD RF w w1)
    (h1 : w2.ext = w1.ext) (h2 : w2.cache.defer = w1.cache.defer)
    (h3 : w2.cache.maxUnits = w1.cache.maxUnits) : Fate RD RF w w2 := by
  refine ⟨by rw [h1]; exact f.pre, by rw [h1]; exact f.del, by rw [h2]; exact f.defer,
    by rw [h3]; exact f.max⟩

theorem resize_facts (k : Bytes) (p : Nat) (u : Nat) (c : Cache β)
    (hx : (c.defer.map (·.ptr)).Nodup) :
    (resize k (some p) u c).maxUnits = c.maxUnits ∧
    (resize k (some p) u c).units ≤ c.units + u ∧
    (∀ e' ∈ (resize k (some p) u c).defer, ∃ e ∈ c.defer, e.key = e'.key ∧ e.ptr = e'.ptr) ∧
    (∀ e' ∈ (resize k (some p) u c).nodes, ∃ e ∈ c.nodes, e.key = e'.key ∧ e.ptr = e'.ptr ∧
      e.pin = e'.pin) := by
  unfold resize
  split
  · rename_i e he
    refine ⟨rfl, ?_, fun x hx => ⟨x, hx, rfl, rfl⟩, ?_⟩
    · show c.units - (e.units : Int) + u ≤ _; omega
    · intro e' he'
      have hen : e ∈ c.nodes := by
        have := (Option.filter_eq_some_iff.mp he).1
        exact List.mem_of_find?_eq_some this
      rcases mem_setElem he' with h | h
      · exact ⟨e', h, rfl, rfl, rfl⟩
      · subst h; exact ⟨e, hen, rfl, rfl, rfl⟩
  · refine ⟨rfl, ?_, ?_, fun x hx => ⟨x, hx, rfl, rfl, rfl⟩⟩
    · simp only []
      have hlen : (c.defer.filter (fun e => e.key == k && ((some p : Option Nat) == none || some p == some e.ptr))).length ≤ 1 := by
        generalize c.defer = D at hx ⊢
        induction D with
        | nil => simp
        | cons d D ih =>
          rw [List.map_cons, List.nodup_cons] at hx
          rw [List.filter_cons]
          split
          · rename_i hd
            rw [List.filter_eq_nil_iff.mpr]
            · simp
            · intro y hy hh
              apply hx.1
              have h1 : d.ptr = p := by simp at hd; exact hd.2.symm
              have h2 : y.ptr = p := by simp at hh; exact hh.2.symm
              rw [h1, ← h2]; exact List.mem_map_of_mem hy
          · exact ih hx.2
      generalize hF : c.defer.filter (fun e => e.key == k && ((some p : Option Nat) == none || some p == some e.ptr)) = F at hlen ⊢
      match F, hlen with
      | [], _ => simp; omega
      | [x], _ => simp; omega
    · intro e' he'
      obtain ⟨x, hx, rfl⟩ := List.mem_map.mp he'
      refine ⟨x, hx, ?_⟩
      split <;> exact ⟨rfl, rfl⟩

theorem step_fate {E : Env} (hdb : E.dbg = false) {cfg : Config} {h : Hist β}
    {w w' : World (List Nat) β} {out : Option Nat} (g : Good E cfg h w) (i : Inv2 cfg h w)
    (c : Call β) (hl : Legal cfg.lru h w.ext c) (hs : step E c w = .ok (w', out))
    (hm : ∀ n, c ≠ .setMaxSize n) :
    Fate (fun e => Reason cfg h w.cache.size (w.now E) c e.ptr) (Hidden cfg h (w.now E) c) w w' := by
  have hmap : ∀ {x : Res (World (List Nat) β)} , x.map (·, (none : Option Nat)) = .ok (w', out) →
      x = .ok w' := by
    intro x hx; cases x with
    | error e => cases hx
    | ok a => cases hx; rfl
  cases c with
  | insertPinned k p v u =>
    have hs := hmap hs
    unfold insertPinned at hs
    obtain ⟨w1, h1, r1, hk1, ht1⟩ := remove_removed E g.core k
    obtain ⟨f1, hu1, hsub1⟩ := remove_fate E g.core k h1
    have c1 := r1.core g.core
    have hp1 : (insertedPtrs h).count p = w1.ext.count p := by
      have h3 := c1.cnt p
      obtain ⟨l, hl'⟩ := f1.pre
      have hl2 : (insertedPtrs h).count p = w.ext.count p := hl
      rw [hl', List.count_append] at h3 ⊢
      omega
    rw [h1] at hs
    have f2 := gc_fate E (c1.add E k p v u none hk1 hp1) hs
    refine ⟨?_, ?_, ?_, ?_⟩
    · obtain ⟨l1, e1⟩ := f1.pre
      obtain ⟨l2, e2⟩ := f2.pre
      exact ⟨l1 ++ l2, by rw [e2, ← List.append_assoc, ← e1]; rfl⟩
    · intro q hq
      by_cases hq1 : w.ext.count q < w1.ext.count q
      · obtain ⟨e, he, hep, hek, hen, _⟩ := f1.del q hq1
        refine ⟨e, he, hep, Or.inl ?_⟩
        rw [← hek]; exact g.core.cur e hen
      · have hq2 : (addPinned E k p v u w1).ext.count q < w'.ext.count q := by
          show w1.ext.count q < _; omega
        obtain ⟨e, he, hep, ho, hen, hpin⟩ := f2.del q hq2
        have hen1 : e ∈ w1.cache.nodes := by
          rcases List.mem_cons.mp hen with rfl | hen
          · cases hpin
          · exact hen
        refine ⟨e, by simp [Cache.all, hsub1.subset hen1], hep, Or.inr ?_⟩
        have h5 : (addPinned E k p v u w1).cache.maxUnits = w.cache.maxUnits := f1.max
        have h6 : (addPinned E k p v u w1).cache.units = w1.cache.units + u := rfl
        rw [← i.max]; unfold Cache.size
        omega
    · intro e' he'
      obtain ⟨e1, he1, hk, hp, hr⟩ := f2.defer e' he'
      rcases hr with hr | hr
      · obtain ⟨e, he, hk2, hp2, hr2⟩ := f1.defer e1 hr
        exact ⟨e, he, hk2.trans hk, hp2.trans hp, hr2.imp id (fun hh => hh.1)⟩
      · exact hr.elim
    · rw [f2.max]; exact f1.max
  | lookup upd k =>
    obtain ⟨w1, h1, _⟩ := removeExpired_pure (Or.inl hdb) g
    have f := removeExpired_fate (Or.inl hdb) g h1
    simp only [step, lookup, h1, bind, Except.bind, Except.map, Except.ok.injEq, Prod.mk.injEq] at hs
    obtain ⟨rfl, _⟩ := hs
    obtain ⟨a, b, c⟩ := pinKey_ext upd k w1
    exact (f.after a b c).mono (fun e _ he => he.2) (fun e _ he => he.2)
  | release upd k p =>
    have f := release_fate hdb g upd k p hl.1 (hmap hs)
    refine f.mono ?_ (fun _ _ he => he.elim)
    intro e he hr
    obtain ⟨hk, hp, h1, hr⟩ := hr
    refine ⟨hp, ?_, ?_⟩
    · rw [← g.core.pins e he |>.symm.trans h1 |> fun h => h, hk]
    · rcases hr with hr | hr
      · by_cases hc : current k h = some e.ptr
        · right; right; rw [← hk] at hc; exact i.dq e hr hc
        · left; exact hc
      · right; left; rw [← i.max]; exact hr
  | remove k =>
    obtain ⟨f, _⟩ := remove_fate E g.core k (hmap hs)
    refine f.mono ?_ (fun _ _ he => he.1)
    intro e he hr
    show current k h = some e.ptr
    rw [← hr.1]; exact g.core.cur e hr.2.1
  | removeAll =>
    obtain ⟨w1, h1, r, _⟩ := removeAll_removed E g.core
    have hs := hmap hs
    rw [h1] at hs; cases hs
    obtain ⟨kk, gg, pp, t, rfl, _, hperm, _⟩ := r
    exact (Fate.rm (fun e he => hperm.subset (by simp [he]))
      (fun e he => hperm.subset (by simp [he]))).mono (fun _ _ _ => trivial) (fun _ _ _ => trivial)
  | clear =>
    obtain ⟨w1, h1, r, _⟩ := clear_removed E g.core hl
    have hs := hmap hs
    rw [h1] at hs; cases hs
    obtain ⟨kk, gg, pp, t, rfl, _, hperm, _⟩ := r
    exact (Fate.rm (fun e he => hperm.subset (by simp [he]))
      (fun e he => hperm.subset (by simp [he]))).mono (fun _ _ _ => trivial) (fun _ _ _ => trivial)
  | removeUnpinned =>
    have hs := hmap hs
    rw [logDel_eq, removeUnpinned_pure E logF w g.core.distinct] at hs
    cases hs
    exact (Fate.rm (t := w.tick) (fun e he => List.mem_of_mem_filter he) (by simp)).mono
      (fun _ _ _ => trivial) (by simp)
  | removeExpired =>
    exact (removeExpired_fate (Or.inl hdb) g (hmap hs)).mono (fun e _ he => he.2)
      (fun e _ he => he.2)
  | updateSize k p u =>
    have hs := hmap hs
    unfold updateSize at hs
    have f := gc_fate E (resize_core g.core k p u (w.now E)) hs
    have hx : (w.cache.defer.map (·.ptr)).Nodup := by
      have := g.core.ptrs
      rw [Cache.all, List.map_append, List.nodup_append] at this
      exact this.2.1
    obtain ⟨hmx, hun, hdf, hnd⟩ := resize_facts k p u w.cache hx
    refine ⟨f.pre, ?_, ?_, ?_⟩
    · intro q hq
      obtain ⟨e, he, hep, ho, hen, hpin⟩ := f.del q hq
      obtain ⟨e0, he0, hk0, hp0, _⟩ := hnd e hen
      refine ⟨e0, by simp [Cache.all, he0], hp0.trans hep, ?_⟩
      show maxSizeOf cfg h < w.cache.units + u
      rw [← i.max]
      have ho' : (resize k (some p) u w.cache).maxUnits < (resize k (some p) u w.cache).units := ho
      omega
    · intro e' he'
      obtain ⟨e1, _, hk, hp, hr⟩ := f.defer e' he'
      rcases hr with hr | hr
      · obtain ⟨e, he, hk2, hp2⟩ := hdf e1 hr
        exact ⟨e, by simp [Cache.all, he], hk2.trans hk, hp2.trans hp, Or.inl he⟩
      · exact hr.elim
    · rw [f.max]; exact hmx
  | setMaxSize n => exact absurd rfl (hm n)
  | write p v =>
    cases hs
    refine Fate.same rfl ?_ rfl
    intro e' he'
    obtain ⟨x, hx, rfl⟩ := List.mem_map.mp (show e' ∈ w.cache.defer.map _ from he')
    refine ⟨x, hx, ?_⟩
    split <;> exact ⟨rfl, rfl⟩

theorem setMaxSize_fate {E : Env} {cfg : Config} {h : Hist β}
    {w w' : World (List Nat) β} (g : Good E cfg h w) (n : Int)
    (hs : setMaxSize E logDel n w = .ok w') :
    (∃ l, w'.ext = w.ext ++ l) ∧
    (∀ p, w.ext.count p < w'.ext.count p → n < w.cache.size) ∧
    (∀ e' ∈ w'.cache.defer, e' ∈ w.cache.defer) ∧ w'.cache.maxUnits = n := by
  have c1 : Core cfg.lru h { w with cache := { w.cache with maxUnits := n } } :=
    { mode := g.core.mode, keys := g.core.keys, ids := g.core.ids, fresh := g.core.fresh
      ptrs := g.core.ptrs, pinN := g.core.pinN, pinD := g.core.pinD, pins := g.core.pins
      heldz := g.core.heldz, units := g.core.units, pinned := g.core.pinned, link := g.core.link
      cnt := g.core.cnt, cur := g.core.cur, key := g.core.key, uo := g.core.uo
      ring := g.core.ring, time := g.core.time }
  have f := gc_fate E c1 hs
  refine ⟨f.pre, ?_, ?_, f.max⟩
  · intro p hp
    obtain ⟨e, _, _, ho, _⟩ := f.del p hp
    exact ho
  · obtain ⟨w1, h1, _, _, heq⟩ := gc_removed (E := E) c1
    unfold setMaxSize at hs
    rw [h1] at hs; cases hs
    intro e' he'
    rw [heq] at he'
    simpa [rmWorld] using he'

theorem Inv2.step {E : Env} (hdb : E.dbg = false) {cfg : Config} {h : Hist β}
    {w w' : World (List Nat) β} {out : Option Nat} (g : Good E cfg h w) (i : Inv2 cfg h w)
    (c : Call β) (hl : Legal cfg.lru h w.ext c) (hs : step E c w = .ok (w', out)) :
    Inv2 cfg ({ call := c, out := out, time := w.now E } :: h) w' := by
  -- a live value stays current only if it was
  have hlive : ∀ e ∈ w.cache.all, current e.key (({ call := c, out := out, time := w.now E } : Event β) :: h) = some e.ptr →
      current e.key h = some e.ptr := by
    intro e he hc
    cases c with
    | insertPinned k p v u =>
      simp only [current] at hc
      split at hc
      · exfalso
        have hl' : (insertedPtrs h).count p = w.ext.count p := hl
        have h1 := g.core.cnt p
        have h2 : 0 < (w.cache.all.map (·.ptr)).count p :=
          List.count_pos_iff.mpr (by
            simp only [Option.some.injEq] at hc; rw [hc]; exact List.mem_map_of_mem he)
        omega
      · exact hc
    | remove k =>
      simp only [current] at hc
      split at hc
      · cases hc
      · exact hc
    | removeUnpinned =>
      simp only [current] at hc
      split at hc
      · cases hc
      · rename_i q hq
        split at hc
        · cases hc
        · rw [hq]; exact hc
    | removeAll => cases hc
    | clear => cases hc
    | _ => exact hc
  have htt : ∀ e ∈ w.cache.all, cfg.lru = false → ∀ t, expiredAt cfg h e.ptr t →
      expiredAt cfg (({ call := c, out := out, time := w.now E } : Event β) :: h) e.ptr t := by
    rintro e he hb t ⟨n, hn, hlt⟩
    refine ⟨n, hn, ?_⟩
    rw [touchTime, if_neg]
    · exact hlt
    · rw [hb]
      cases c with
      | insertPinned k p v u =>
        simp only [touches]
        have hl' : (insertedPtrs h).count p = w.ext.count p := hl
        have h1 := g.core.cnt p
        intro hpe
        have hpe' : p = e.ptr := by simpa using hpe
        have h2 : 0 < (w.cache.all.map (·.ptr)).count p :=
          List.count_pos_iff.mpr (by rw [hpe']; exact List.mem_map_of_mem he)
        omega
      | _ => simp [touches]
  by_cases hm : ∃ n, c = .setMaxSize n
  · obtain ⟨n, rfl⟩ := hm
    have hs' : setMaxSize E logDel n w = .ok w' := by
      simp only [Lru.step] at hs
      cases hx : setMaxSize E logDel n w with
      | error e => rw [hx] at hs; cases hs
      | ok a => rw [hx] at hs; cases hs; rfl
    obtain ⟨_, _, hd, hmx⟩ := setMaxSize_fate g n hs'
    refine ⟨hmx, ?_⟩
    intro e' he' hc
    have he := hd e' he'
    obtain ⟨hb, ev, hev, hx⟩ := i.dq e' he hc
    exact ⟨hb, ev, by simp [hev], hx⟩
  · have f := step_fate hdb g i c hl hs (fun n hn => hm ⟨n, hn⟩)
    refine ⟨?_, ?_⟩
    · rw [f.max, i.max]
      cases c with
      | setMaxSize n => exact absurd ⟨n, rfl⟩ hm
      | _ => rfl
    · intro e' he' hc
      obtain ⟨e, he, hk, hp, hr⟩ := f.defer e' he'
      rw [← hk, ← hp] at hc
      rw [← hp]
      rcases hr with hr | hr
      · obtain ⟨hb, ev, hev, hx⟩ := i.dq e hr (hlive e he hc)
        exact ⟨hb, ev, by simp [hev], htt e he hb _ hx⟩
      · cases c with
        | insertPinned k p v u =>
          have hrk : e.key = k := hr
          exfalso
          simp only [current, hrk, if_true, Option.some.injEq] at hc
          have hl' : (insertedPtrs h).count p = w.ext.count p := hl
          have h1 := g.core.cnt p
          have h2 : 0 < (w.cache.all.map (·.ptr)).count p :=
            List.count_pos_iff.mpr (by rw [hc]; exact List.mem_map_of_mem he)
          omega
        | remove k =>
          have hrk : e.key = k := hr
          simp [current, hrk] at hc
        | removeAll => cases hc
        | clear => cases hc
        | lookup upd k => exact ⟨hr.1, _, List.mem_cons_self, htt e he hr.1 _ hr.2⟩
        | removeExpired => exact ⟨hr.1, _, List.mem_cons_self, htt e he hr.1 _ hr.2⟩
        | release upd k p => exact hr.elim
        | removeUnpinned => exact hr.elim
        | updateSize k p u => exact hr.elim
        | setMaxSize n => exact hr.elim
        | write p v => exact hr.elim

theorem Inv2.relim {E : Env} {cfg cfg' : Config} {h : Hist β} {w : World (List Nat) β} (g : Good E cfg h w) (i : Inv2 cfg h w)
    (hl : cfg'.lru = cfg.lru) (hx : cfg'.maxUnits = cfg.maxUnits) (hk : KeepsExpired cfg cfg' h) (m : Int) :
    Inv2 cfg' h (relim m w) := by
  refine ⟨?_, ?_⟩
  · show w.cache.maxUnits = _
    rw [i.max]
    clear hk i g
    induction h with
    | nil => exact hx.symm
    | cons ev h ih => unfold maxSizeOf; split; rfl; exact ih
  · intro e he hc
    obtain ⟨hb, ev, hev, hx⟩ := i.dq e he hc
    refine ⟨hl.trans hb, ev, hev, hk hb _ _ hc ?_ ev hev hx⟩
    have h1 := g.core.pinD e he
    have h2 := g.core.pins e (by simp [Cache.all, show e ∈ w.cache.defer from he])
    omega

theorem Reach.inv2 {E : Env} {cfg : Config} {h : Hist β} {w : World (List Nat) β}
    (r : Reach E cfg h w) : Inv2 cfg h w := by
  have key : ∀ {cfg h w}, Reach E.rel cfg h w → Inv2 (β := β) cfg h w := by
    intro cfg h w r
    induction r with
    | limit r hl hx hk hs ih =>
      have i2 := Inv2.relim r.good ih hl hx hk
      have g2 := relim_good r.good hl
      unfold limited
      rcases limit_step r.good hl hs with ⟨h1, rfl⟩ | ⟨n, h1, h2⟩
      · rw [h1]; exact i2 _
      · rw [h1] at g2 ⊢; exact Inv2.step rfl g2 (i2 _) _ trivial h2
    | again r hp hm hx hs ih =>
      obtain ⟨w2, h1, g, hmax⟩ := again_good (Or.inl rfl) r.good hp hm
      rw [h1] at hs; cases hs
      have hno := (g.core.unpinned (fun k p => held_reinserted k p _)).1
      refine ⟨?_, by simp [hno]⟩
      rw [maxSizeOf_reinserted, hmax, hx]
    | @init cfg w' hi =>
      obtain ⟨w2, h1, g⟩ := init_good (β := β) E.rel cfg
      have hw : w2 = w' := by rw [h1] at hi; cases hi; rfl
      subst hw
      have hno : w2.cache.defer = [] := by
        cases hd : w2.cache.defer with
        | nil => rfl
        | cons e l =>
          have h2 := g.core.pinD e (by simp [hd])
          have h3 := g.core.pins e (by simp [Cache.all, hd])
          simp only [held] at h3; omega
      refine ⟨?_, by simp [hno]⟩
      have : ∀ (m : Option Int) , setTimeout E.rel logDel m cfg.lru { cache := Cache.new cfg.maxUnits, tick := 0, ext := [] } = .ok w2 →
          w2.cache.maxUnits = cfg.maxUnits := by
        intro m hm
        cases m with
        | none => simp only [setTimeout] at hm; cases hm; rfl
        | some x =>
          simp only [setTimeout] at hm
          split at hm
          · rename_i hc
            have : (-1 : Int) ≥ 0 := hc.1
            omega
          unfold discardIdle at hm
          split at hm
          · cases hm; rfl
          · simp only [Cache.new] at hm
            simp only [ringLast, List.length_nil, List.filter_nil, List.getLast?_nil, Option.map_none] at hm
            have : ∀ n th w1 w3, idleLoop (σ := List Nat) (β := β) E.rel logDel th n none 0 w1 = .ok w3 → w3 = w1 := by
              intro n th w1 w3 hh; cases n <;> (simp only [idleLoop] at hh; cases hh; rfl)
            have := this _ _ _ _ hm
            rw [this]; rfl
      exact this _ h1
    | call r hl hs ih => exact Inv2.step rfl r.good ih _ hl hs
  exact key r.rel

end Verif.Lru
