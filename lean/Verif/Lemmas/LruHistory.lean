import Verif.Spec.LruCache
import Verif.Lemmas.LruCache
import Mathlib.Data.List.Nodup
/-
The invariant that ties the cache to the history of calls.
-/
namespace Verif.Lru

variable {β : Type}

/-- What `logDel` records. -/
def logF (e : Elem β) (s : List Nat) : List Nat := s ++ [e.ptr]

theorem logDel_eq : (logDel : Deleter (List Nat) β) = pureDel logF := rfl

theorem logF_foldl (gone : List (Elem β)) : ∀ s : List Nat,
    gone.foldl (fun s e => logF e s) s = s ++ gone.map (·.ptr) := by
  induction gone with
  | nil => simp
  | cons e g ih => intro s; rw [List.foldl_cons, ih]; simp [logF]

/-- All elements the cache owns. -/
def Cache.all (c : Cache β) : List (Elem β) := c.nodes ++ c.defer

structure Core (lru : Bool) (h : Hist β) (w : World (List Nat) β) : Prop where
  mode : w.cache.lru = lru
  keys : (w.cache.nodes.map (·.key)).Nodup
  ids : (w.cache.all.map (·.id)).Nodup
  fresh : ∀ e ∈ w.cache.all, e.id < w.cache.nextId
  ptrs : (w.cache.all.map (·.ptr)).Nodup
  pinN : ∀ e ∈ w.cache.nodes, 0 ≤ e.pin
  pinD : ∀ e ∈ w.cache.defer, 0 < e.pin
  pins : ∀ e ∈ w.cache.all, e.pin = held e.key e.ptr h
  heldz : ∀ k p, (∀ e ∈ w.cache.all, ¬ (e.key = k ∧ e.ptr = p)) → held k p h = 0
  units : w.cache.units = sumUnits w.cache.nodes + sumUnits w.cache.defer
  pinned : w.cache.pinnedUnits = sumUnits (pinnedOf w.cache.nodes)
  link : ∀ e ∈ w.cache.nodes, (e.linked = true ↔ (lru = true → e.pin = 0))
  cnt : ∀ p, (insertedPtrs h).count p = w.ext.count p + (w.cache.all.map (·.ptr)).count p
  cur : ∀ e ∈ w.cache.nodes, current e.key h = some e.ptr
  key : ∀ e ∈ w.cache.all, keyOf e.ptr h = some e.key
  uo : ∀ e ∈ w.cache.all, unitsOf e.ptr h = e.units
  ring : w.cache.nodes.Pairwise
    (fun a b => a.linked = true → b.linked = true → stamp lru b.ptr h < stamp lru a.ptr h)
  time : ∀ e ∈ w.cache.nodes, e.lastUse = touchTime lru e.ptr h

theorem Core.distinct {lru : Bool} {h : Hist β} {w : World (List Nat) β} (c : Core lru h w) :
    Distinct w.cache.nodes :=
  ⟨c.ids.sublist (by simp [Cache.all]), c.keys⟩

/-- Core does not mention the clock. -/
theorem Core.ticked {lru : Bool} {h : Hist β} {w : World (List Nat) β} (c : Core lru h w) :
    Core lru h w.ticked :=
  { mode := c.mode, keys := c.keys, ids := c.ids, fresh := c.fresh, ptrs := c.ptrs, pinN := c.pinN,
    pinD := c.pinD, pins := c.pins, heldz := c.heldz, units := c.units, pinned := c.pinned,
    link := c.link, cnt := c.cnt, cur := c.cur, key := c.key, uo := c.uo, ring := c.ring,
    time := c.time }

theorem mem_pinnedOf {l : List (Elem β)} {e : Elem β} : e ∈ pinnedOf l ↔ e ∈ l ∧ e.pin ≠ 0 := by
  simp [pinnedOf]
theorem mem_unpinned {l : List (Elem β)} {e : Elem β} : e ∈ unpinned l ↔ e ∈ l ∧ e.pin = 0 := by
  simp [unpinned]

theorem split_pinned (l : List (Elem β)) : (unpinned l ++ pinnedOf l).Perm l :=
  List.filter_append_perm _ l

theorem pinnedOf_append (a b : List (Elem β)) : pinnedOf (a ++ b) = pinnedOf a ++ pinnedOf b := by
  simp [pinnedOf]
theorem pinnedOf_perm {a b : List (Elem β)} (h : a.Perm b) : (pinnedOf a).Perm (pinnedOf b) :=
  h.filter _
theorem pinnedOf_of_pos {l : List (Elem β)} (h : ∀ e ∈ l, 0 < e.pin) : pinnedOf l = l := by
  unfold pinnedOf; rw [List.filter_eq_self]; intro e he; have := h e he; simp; omega
theorem pinnedOf_of_zero {l : List (Elem β)} (h : ∀ e ∈ l, e.pin = 0) : pinnedOf l = [] := by
  unfold pinnedOf; rw [List.filter_eq_nil_iff]; intro e he; have := h e he; simp [this]

/-- Setting the link flag (deferred elements sit in their own ring). -/
def relink (e : Elem β) : Elem β := { e with linked := true }

theorem sumUnits_map_relink (l : List (Elem β)) : sumUnits (l.map relink) = sumUnits l := by
  induction l with
  | nil => rfl
  | cons e l ih => simp [ih, relink]

/-- A removal keeps the invariant. -/
theorem Core.rm {lru : Bool} {h : Hist β} {w : World (List Nat) β} (c : Core lru h w)
    {kept gone pinned : List (Elem β)} (hperm : (kept ++ (gone ++ pinned)).Perm w.cache.nodes)
    (hsub : kept.Sublist w.cache.nodes) (hg : ∀ e ∈ gone, e.pin = 0)
    (hp : ∀ e ∈ pinned, e.pin ≠ 0) : Core lru h (rmWorld logF w kept gone pinned) := by
  have hpN : ∀ e ∈ pinned, 0 < e.pin := by
    intro e he
    have h1 := c.pinN e (hperm.subset (by simp [he]))
    have h2 := hp e he
    omega
  have hD : (rmWorld logF w kept gone pinned).cache.defer
      = (pinned.map relink).reverse ++ w.cache.defer := rfl
  have hN : (rmWorld logF w kept gone pinned).cache.nodes = kept := rfl
  have hall : ∀ e, e ∈ (rmWorld logF w kept gone pinned).cache.all ↔
      e ∈ kept ∨ e ∈ pinned.map relink ∨ e ∈ w.cache.defer := by
    intro e; simp only [Cache.all, hD, hN, List.mem_append, List.mem_reverse]
  -- the old elements, up to the link flag, are the new ones and the discarded ones
  have hmem : ∀ (P : Bytes → Nat → Nat → Int → Nat → Prop),
      (∀ e ∈ w.cache.all, P e.key e.ptr e.id e.pin e.units) →
      ∀ e ∈ (rmWorld logF w kept gone pinned).cache.all, P e.key e.ptr e.id e.pin e.units := by
    intro P hP e he
    rcases (hall e).mp he with he | he | he
    · exact hP e (by simp [Cache.all, hsub.subset he])
    · obtain ⟨x, hx, rfl⟩ := List.mem_map.mp he
      exact hP x (by simp only [Cache.all, List.mem_append]; left; exact hperm.subset (by simp [hx]))
    · exact hP e (by simp [Cache.all, he])
  have hsubids : ∀ {α : Type} (g : Elem β → α), (∀ e, g (relink e) = g e) →
      ((rmWorld logF w kept gone pinned).cache.all.map g ++ gone.map g).Perm
        (w.cache.all.map g) := by
    intro α g hgr
    simp only [Cache.all, hD, hN, List.map_append]
    have e1 : ((pinned.map relink).reverse.map g).Perm (pinned.map g) := by
      refine ((List.reverse_perm _).map g).trans ?_
      rw [List.map_map]
      have : g ∘ relink = g := by funext e; exact hgr e
      rw [this]
    have e2 := hperm.map g
    simp only [List.map_append] at e2
    have : (kept.map g ++ ((pinned.map relink).reverse.map g ++ w.cache.defer.map g) ++ gone.map g).Perm
        (kept.map g ++ (gone.map g ++ pinned.map g) ++ w.cache.defer.map g) := by
      have h1 : (kept.map g ++ ((pinned.map relink).reverse.map g ++ w.cache.defer.map g) ++ gone.map g).Perm
          (kept.map g ++ (pinned.map g ++ w.cache.defer.map g) ++ gone.map g) :=
        (((e1.append_right _).append_left _).append_right _)
      refine h1.trans ?_
      simp only [List.append_assoc]
      refine List.Perm.append_left _ ?_
      calc (pinned.map g ++ (w.cache.defer.map g ++ gone.map g)).Perm
            ((pinned.map g ++ w.cache.defer.map g) ++ gone.map g) := by simp
        List.Perm _ (gone.map g ++ (pinned.map g ++ w.cache.defer.map g)) := List.perm_append_comm
    exact this.trans (e2.append_right _)
  refine { mode := c.mode, keys := ?_, ids := ?_, fresh := ?_, ptrs := ?_, pinN := ?_, pinD := ?_,
           pins := ?_, heldz := ?_, units := ?_, pinned := ?_, link := ?_, cnt := ?_, cur := ?_,
           key := ?_, uo := ?_, ring := ?_, time := ?_ }
  · exact c.keys.sublist (hsub.map _)
  · have := (hsubids (·.id) (fun _ => rfl)).nodup_iff.mpr c.ids
    exact (List.nodup_append.mp this).1
  · exact hmem (fun _ _ i _ _ => i < w.cache.nextId) c.fresh
  · have := (hsubids (·.ptr) (fun _ => rfl)).nodup_iff.mpr c.ptrs
    exact (List.nodup_append.mp this).1
  · intro e he; exact c.pinN e (hsub.subset he)
  · intro e he
    rw [hD, List.mem_append, List.mem_reverse] at he
    rcases he with he | he
    · obtain ⟨x, hx, rfl⟩ := List.mem_map.mp he
      exact hpN x hx
    · exact c.pinD e he
  · exact hmem (fun k p _ n _ => n = held k p h) c.pins
  · intro k p hk
    by_cases hex : ∃ e ∈ w.cache.all, e.key = k ∧ e.ptr = p
    · obtain ⟨e, he, rfl, rfl⟩ := hex
      rw [← c.pins e he]
      simp only [Cache.all, List.mem_append] at he
      rcases he with he | he
      · have := hperm.symm.subset he
        simp only [List.mem_append] at this
        rcases this with h1 | h1 | h1
        · exact absurd ⟨rfl, rfl⟩ (hk e ((hall e).mpr (Or.inl h1)))
        · exact hg e h1
        · exact absurd ⟨rfl, rfl⟩
            (hk (relink e) ((hall _).mpr (Or.inr (Or.inl (List.mem_map_of_mem h1)))))
      · exact absurd ⟨rfl, rfl⟩ (hk e ((hall e).mpr (Or.inr (Or.inr he))))
    · exact c.heldz k p (fun e he hkp => hex ⟨e, he, hkp⟩)
  · rw [hD, hN]
    show w.cache.units - sumUnits gone = _
    rw [c.units, sumUnits_append, sumUnits_reverse, sumUnits_map_relink]
    have := sumUnits_perm hperm
    rw [sumUnits_append, sumUnits_append] at this
    omega
  · rw [hN]
    show w.cache.pinnedUnits - sumUnits pinned = _
    rw [c.pinned]
    have := sumUnits_perm (pinnedOf_perm hperm)
    rw [pinnedOf_append, pinnedOf_append, pinnedOf_of_zero hg, pinnedOf_of_pos hpN,
      sumUnits_append] at this
    simp only [List.nil_append] at this
    omega
  · intro e he; exact c.link e (hsub.subset he)
  · intro p
    have h1 := (hsubids (·.ptr) (fun _ => rfl)).count_eq p
    rw [List.count_append] at h1
    show _ = (gone.foldl (fun s e => logF e s) w.ext).count p + _
    rw [logF_foldl, List.count_append, c.cnt p]
    omega
  · intro e he; exact c.cur e (hsub.subset he)
  · exact hmem (fun k p _ _ _ => keyOf p h = some k) c.key
  · exact hmem (fun _ p _ _ u => unitsOf p h = u) c.uo
  · exact c.ring.sublist hsub
  · intro e he; exact c.time e (hsub.subset he)

/-- The invariant depends on the history only through the client's view of it. -/
theorem Core.congr {lru : Bool} {h h' : Hist β} {w : World (List Nat) β} (c : Core lru h w)
    (hh : ∀ k p, held k p h' = held k p h) (hi : insertedPtrs h' = insertedPtrs h)
    (hc : ∀ e ∈ w.cache.nodes, current e.key h' = current e.key h)
    (hk : ∀ p, keyOf p h' = keyOf p h)
    (hu : ∀ e ∈ w.cache.all, unitsOf e.ptr h' = unitsOf e.ptr h)
    (hs : ∀ p, stamp lru p h' = stamp lru p h)
    (ht : ∀ p, touchTime lru p h' = touchTime lru p h) : Core lru h' w :=
  { mode := c.mode, keys := c.keys, ids := c.ids, fresh := c.fresh, ptrs := c.ptrs, pinN := c.pinN,
    pinD := c.pinD
    pins := fun e he => by rw [hh]; exact c.pins e he
    heldz := fun k p hk => by rw [hh]; exact c.heldz k p hk
    units := c.units, pinned := c.pinned, link := c.link
    cnt := fun p => by rw [hi]; exact c.cnt p
    cur := fun e he => by rw [hc e he]; exact c.cur e he
    key := fun e he => by rw [hk]; exact c.key e he
    uo := fun e he => by rw [hu e he]; exact c.uo e he
    ring := c.ring.imp (fun {a b} hab ha hb => by rw [hs, hs]; exact hab ha hb)
    time := fun e he => by rw [ht]; exact c.time e he }

/-- An element of the table is unique by address. -/
theorem Core.ptr_inj {lru : Bool} {h : Hist β} {w : World (List Nat) β} (c : Core lru h w)
    {a b : Elem β} (ha : a ∈ w.cache.all) (hb : b ∈ w.cache.all) (hp : a.ptr = b.ptr) : a = b :=
  List.inj_on_of_nodup_map c.ptrs ha hb hp

theorem pinnedOf_single (e : Elem β) :
    sumUnits (pinnedOf [e]) = if e.pin = 0 then 0 else (e.units : Int) := by
  by_cases h : e.pin = 0 <;> simp [pinnedOf, h]

theorem pairwise_middle_replace {α : Type} {R S : α → α → Prop} {A B : List α} {e e' : α}
    (h : (A ++ e :: B).Pairwise R) (hAB : ∀ a b, a ∈ A ++ B → b ∈ A ++ B → R a b → S a b)
    (hA : ∀ a ∈ A, R a e → S a e') (hB : ∀ b ∈ B, R e b → S e' b) :
    (A ++ e' :: B).Pairwise S := by
  rw [List.pairwise_append, List.pairwise_cons] at h ⊢
  obtain ⟨h1, ⟨h2, h3⟩, h4⟩ := h
  refine ⟨?_, ⟨?_, ?_⟩, ?_⟩
  · exact h1.imp_of_mem (fun {a b} ha hb => hAB a b (by simp [ha]) (by simp [hb]))
  · intro b hb; exact hB b hb (h2 b hb)
  · exact h3.imp_of_mem (fun {a b} ha hb => hAB a b (by simp [ha]) (by simp [hb]))
  · intro a ha b hb
    rcases List.mem_cons.mp hb with rfl | hb'
    · exact hA a ha (h4 a ha e (by simp))
    · exact hAB a b (by simp [ha]) (by simp [hb']) (h4 a ha b (by simp [hb']))

/-- Changing one table element (and possibly its place in the ring). -/
theorem Core.replace {lru : Bool} {h h' : Hist β} {w : World (List Nat) β} (c : Core lru h w)
    {A B N : List (Elem β)} {e e' : Elem β} {t : Nat} {un pu : Int}
    (hn : w.cache.nodes = A ++ e :: B)
    (hid : e'.id = e.id) (hkey : e'.key = e.key) (hptr : e'.ptr = e.ptr)
    (hN : N.Perm (A ++ e' :: B)) (hpin : 0 ≤ e'.pin)
    (hheld : ∀ k p, held k p h' = held k p h + if k = e.key ∧ p = e.ptr then e'.pin - e.pin else 0)
    (hins : insertedPtrs h' = insertedPtrs h) (hcur : ∀ k, current k h' = current k h)
    (hko : ∀ p, keyOf p h' = keyOf p h)
    (hu : ∀ p, p ≠ e.ptr → unitsOf p h' = unitsOf p h) (hu' : unitsOf e.ptr h' = e'.units)
    (hlink : e'.linked = true ↔ (lru = true → e'.pin = 0))
    (hring : N.Pairwise
      (fun a b => a.linked = true → b.linked = true → stamp lru b.ptr h' < stamp lru a.ptr h'))
    (ht : ∀ p, p ≠ e.ptr → touchTime lru p h' = touchTime lru p h)
    (ht' : e'.lastUse = touchTime lru e.ptr h')
    (hun : un = w.cache.units - e.units + e'.units)
    (hpu : pu = w.cache.pinnedUnits - (if e.pin = 0 then 0 else (e.units : Int))
      + (if e'.pin = 0 then 0 else (e'.units : Int))) :
    Core lru h' { w with tick := t, cache := { w.cache with
      nodes := N, units := un, pinnedUnits := pu } } := by
  have hne : ∀ x ∈ w.cache.all, x ≠ e → x.ptr ≠ e.ptr := by
    intro x hx hxe hp
    exact hxe (c.ptr_inj hx (by simp [Cache.all, hn]) hp)
  have heall : e ∈ w.cache.all := by simp [Cache.all, hn]
  have hmid := mid_ids (A := A) (B := B) (e := e) (by rw [← hn]; exact c.distinct.ids)
  have hAB : ∀ x, x ∈ A ∨ x ∈ B → x ∈ w.cache.nodes ∧ x ≠ e := by
    intro x hx
    constructor
    · rw [hn]; rcases hx with hx | hx <;> simp [hx]
    · rintro rfl
      rcases hx with hx | hx
      · exact hmid.1 x hx rfl
      · exact hmid.2 x hx rfl
  have hDne : ∀ x ∈ w.cache.defer, x ≠ e := by
    rintro x hx rfl
    have := c.ids
    rw [Cache.all, List.map_append, List.nodup_append] at this
    exact this.2.2 x.id (List.mem_map_of_mem (by simp [hn])) x.id (List.mem_map_of_mem hx) rfl
  have hmemN : ∀ x, x ∈ N ↔ x ∈ A ∨ x = e' ∨ x ∈ B := by
    intro x; rw [hN.mem_iff]; simp
  have hmapN : ∀ {α : Type} (g : Elem β → α), g e' = g e →
      (N.map g).Perm (w.cache.nodes.map g) := by
    intro α g hg
    refine (hN.map g).trans ?_
    rw [hn]; simp [hg]
  have hmapAll : ∀ {α : Type} (g : Elem β → α), g e' = g e →
      ((N ++ w.cache.defer).map g).Perm (w.cache.all.map g) := by
    intro α g hg
    rw [Cache.all, List.map_append, List.map_append]
    exact (hmapN g hg).append_right _
  refine { mode := c.mode, keys := ?_, ids := ?_, fresh := ?_, ptrs := ?_, pinN := ?_,
           pinD := c.pinD,
           pins := ?_, heldz := ?_, units := ?_, pinned := ?_, link := ?_, cnt := ?_, cur := ?_,
           key := ?_, uo := ?_, ring := hring, time := ?_ }
  · exact (hmapN (·.key) hkey).nodup_iff.mpr c.keys
  · exact (hmapAll (·.id) hid).nodup_iff.mpr c.ids
  · intro x hx
    simp only [Cache.all, List.mem_append, hmemN] at hx
    rcases hx with (hx | rfl | hx) | hx
    · exact c.fresh x (by simp [Cache.all, hn, hx])
    · rw [hid]; exact c.fresh e heall
    · exact c.fresh x (by simp [Cache.all, hn, hx])
    · exact c.fresh x (by simp [Cache.all, hx])
  · exact (hmapAll (·.ptr) hptr).nodup_iff.mpr c.ptrs
  · intro x hx
    rcases (hmemN x).mp hx with hx | rfl | hx
    · exact c.pinN x (hAB x (Or.inl hx)).1
    · exact hpin
    · exact c.pinN x (hAB x (Or.inr hx)).1
  · have hold : ∀ x ∈ w.cache.all, x ≠ e → x.pin = held x.key x.ptr h' := by
      intro x hx hxe
      rw [hheld, if_neg (fun hc => hne x hx hxe hc.2), c.pins x hx]; omega
    intro x hx
    simp only [Cache.all, List.mem_append, hmemN] at hx
    rcases hx with (hx | rfl | hx) | hx
    · have := hAB x (Or.inl hx)
      exact hold x (by simp [Cache.all, this.1]) this.2
    · rw [hheld, if_pos ⟨hkey, hptr⟩, hkey, hptr, ← c.pins e heall]; omega
    · have := hAB x (Or.inr hx)
      exact hold x (by simp [Cache.all, this.1]) this.2
    · exact hold x (by simp [Cache.all, hx]) (hDne x hx)
  · intro k p hk
    have hnot : ¬ (k = e.key ∧ p = e.ptr) := by
      rintro ⟨rfl, rfl⟩
      exact hk e' (by simp [Cache.all, hmemN]) ⟨hkey, hptr⟩
    rw [hheld, if_neg hnot, c.heldz k p]
    · rfl
    · intro x hx hxk
      by_cases hxe : x = e
      · subst hxe; exact hnot ⟨hxk.1.symm, hxk.2.symm⟩
      · refine hk x ?_ hxk
        simp only [Cache.all, List.mem_append, hn, List.mem_cons] at hx
        simp only [Cache.all, List.mem_append, hmemN]
        rcases hx with (hx | hx | hx) | hx
        · simp [hx]
        · exact absurd hx hxe
        · simp [hx]
        · simp [hx]
  · show un = sumUnits N + sumUnits w.cache.defer
    rw [sumUnits_perm hN, hun, c.units, hn]
    simp only [sumUnits_append, sumUnits_cons]
    omega
  · show pu = sumUnits (pinnedOf N)
    rw [sumUnits_perm (pinnedOf_perm hN), hpu, c.pinned, hn]
    rw [← List.singleton_append, ← List.singleton_append (x := e')]
    simp only [pinnedOf_append, sumUnits_append, pinnedOf_single]
    omega
  · intro x hx
    rcases (hmemN x).mp hx with hx | rfl | hx
    · exact c.link x (hAB x (Or.inl hx)).1
    · exact hlink
    · exact c.link x (hAB x (Or.inr hx)).1
  · intro p
    rw [hins, c.cnt p]
    congr 1
    exact ((hmapAll (·.ptr) hptr).count_eq p).symm
  · intro x hx
    rw [hcur]
    rcases (hmemN x).mp hx with hx | rfl | hx
    · exact c.cur x (hAB x (Or.inl hx)).1
    · rw [hkey, hptr]; exact c.cur e (by simp [hn])
    · exact c.cur x (hAB x (Or.inr hx)).1
  · intro x hx
    rw [hko]
    simp only [Cache.all, List.mem_append, hmemN] at hx
    rcases hx with (hx | rfl | hx) | hx
    · exact c.key x (by simp [Cache.all, hn, hx])
    · rw [hkey, hptr]; exact c.key e heall
    · exact c.key x (by simp [Cache.all, hn, hx])
    · exact c.key x (by simp [Cache.all, hx])
  · have hold : ∀ x ∈ w.cache.all, x ≠ e → unitsOf x.ptr h' = x.units := by
      intro x hx hxe
      rw [hu _ (hne x hx hxe)]; exact c.uo x hx
    intro x hx
    simp only [Cache.all, List.mem_append, hmemN] at hx
    rcases hx with (hx | rfl | hx) | hx
    · have := hAB x (Or.inl hx)
      exact hold x (by simp [Cache.all, this.1]) this.2
    · rw [hptr]; exact hu'
    · have := hAB x (Or.inr hx)
      exact hold x (by simp [Cache.all, this.1]) this.2
    · exact hold x (by simp [Cache.all, hx]) (hDne x hx)
  · have hold : ∀ x ∈ w.cache.nodes, x ≠ e → x.lastUse = touchTime lru x.ptr h' := by
      intro x hx hxe
      rw [ht _ (hne x (by simp [Cache.all, hx]) hxe)]; exact c.time x hx
    intro x hx
    rcases (hmemN x).mp hx with hx | rfl | hx
    · have := hAB x (Or.inl hx); exact hold x this.1 this.2
    · rw [hptr]; exact ht'
    · have := hAB x (Or.inr hx); exact hold x this.1 this.2

/-- Changing one deferred element. -/
theorem Core.replaceD {lru : Bool} {h h' : Hist β} {w : World (List Nat) β} (c : Core lru h w)
    {A B : List (Elem β)} {e e' : Elem β} {un : Int}
    (hn : w.cache.defer = A ++ e :: B)
    (hid : e'.id = e.id) (hkey : e'.key = e.key) (hptr : e'.ptr = e.ptr)
    (hpin : 0 < e'.pin)
    (hheld : ∀ k p, held k p h' = held k p h + if k = e.key ∧ p = e.ptr then e'.pin - e.pin else 0)
    (hins : insertedPtrs h' = insertedPtrs h) (hcur : ∀ k, current k h' = current k h)
    (hko : ∀ p, keyOf p h' = keyOf p h)
    (hu : ∀ p, p ≠ e.ptr → unitsOf p h' = unitsOf p h) (hu' : unitsOf e.ptr h' = e'.units)
    (hs : ∀ p, p ≠ e.ptr → stamp lru p h' = stamp lru p h)
    (ht : ∀ p, p ≠ e.ptr → touchTime lru p h' = touchTime lru p h)
    (hun : un = w.cache.units - e.units + e'.units) :
    Core lru h' { w with cache := { w.cache with defer := A ++ e' :: B, units := un } } := by
  have heall : e ∈ w.cache.all := by simp [Cache.all, hn]
  have hne : ∀ x ∈ w.cache.all, x ≠ e → x.ptr ≠ e.ptr := by
    intro x hx hxe hp
    exact hxe (c.ptr_inj hx heall hp)
  have hnodup : ((A ++ e :: B).map (·.id)).Nodup := by
    have := c.ids
    rw [Cache.all, List.map_append, List.nodup_append] at this
    rw [← hn]; exact this.2.1
  have hmid := mid_ids hnodup
  have hAB : ∀ x, x ∈ A ∨ x ∈ B → x ∈ w.cache.all ∧ x ≠ e := by
    intro x hx
    constructor
    · simp only [Cache.all, hn]; rcases hx with hx | hx <;> simp [hx]
    · rintro rfl
      rcases hx with hx | hx
      · exact hmid.1 x hx rfl
      · exact hmid.2 x hx rfl
  have hNne : ∀ x ∈ w.cache.nodes, x ≠ e := by
    rintro x hx rfl
    have := c.ids
    rw [Cache.all, List.map_append, List.nodup_append] at this
    exact this.2.2 x.id (List.mem_map_of_mem hx) x.id (List.mem_map_of_mem (by simp [hn])) rfl
  have hmapAll : ∀ {α : Type} (g : Elem β → α), g e' = g e →
      (w.cache.nodes ++ (A ++ e' :: B)).map g = w.cache.all.map g := by
    intro α g hg
    rw [Cache.all, hn]; simp [hg]
  have hmem : ∀ x, x ∈ w.cache.nodes ++ (A ++ e' :: B) → x = e' ∨ (x ∈ w.cache.all ∧ x ≠ e) := by
    intro x hx
    simp only [List.mem_append, List.mem_cons] at hx
    rcases hx with hx | hx | hx | hx
    · exact Or.inr ⟨by simp [Cache.all, hx], hNne x hx⟩
    · exact Or.inr (hAB x (Or.inl hx))
    · exact Or.inl hx
    · exact Or.inr (hAB x (Or.inr hx))
  refine { mode := c.mode, keys := c.keys, ids := ?_, fresh := ?_, ptrs := ?_, pinN := c.pinN,
           pinD := ?_, pins := ?_, heldz := ?_, units := ?_, pinned := c.pinned, link := c.link,
           cnt := ?_, cur := ?_, key := ?_, uo := ?_, ring := ?_, time := ?_ }
  · show ((w.cache.nodes ++ (A ++ e' :: B)).map (·.id)).Nodup
    rw [hmapAll (·.id) hid]; exact c.ids
  · intro x hx
    rcases hmem x hx with rfl | hx
    · rw [hid]; exact c.fresh e heall
    · exact c.fresh x hx.1
  · show ((w.cache.nodes ++ (A ++ e' :: B)).map (·.ptr)).Nodup
    rw [hmapAll (·.ptr) hptr]; exact c.ptrs
  · intro x hx
    rcases List.mem_append.mp hx with hx | hx
    · exact c.pinD x (by simp [hn, hx])
    · rcases List.mem_cons.mp hx with rfl | hx
      · exact hpin
      · exact c.pinD x (by simp [hn, hx])
  · intro x hx
    rcases hmem x hx with rfl | ⟨hx, hxe⟩
    · rw [hheld, if_pos ⟨hkey, hptr⟩, hkey, hptr, ← c.pins e heall]; omega
    · rw [hheld, if_neg (fun hc => hne x hx hxe hc.2), c.pins x hx]; omega
  · intro k p hk
    have hnot : ¬ (k = e.key ∧ p = e.ptr) := by
      rintro ⟨rfl, rfl⟩
      exact hk e' (by simp [Cache.all]) ⟨hkey, hptr⟩
    rw [hheld, if_neg hnot, c.heldz k p]
    · rfl
    · intro x hx hxk
      by_cases hxe : x = e
      · subst hxe; exact hnot ⟨hxk.1.symm, hxk.2.symm⟩
      · refine hk x ?_ hxk
        simp only [Cache.all, List.mem_append, hn, List.mem_cons] at hx
        simp only [Cache.all, List.mem_append, List.mem_cons]
        rcases hx with hx | hx | hx | hx
        · simp [hx]
        · simp [hx]
        · exact absurd hx hxe
        · simp [hx]
  · show un = sumUnits w.cache.nodes + sumUnits (A ++ e' :: B)
    rw [hun, c.units, hn]
    simp only [sumUnits_append, sumUnits_cons]
    omega
  · intro p
    rw [hins, c.cnt p]
    congr 1
    show _ = ((w.cache.nodes ++ (A ++ e' :: B)).map (·.ptr)).count p
    rw [hmapAll (·.ptr) hptr]
  · intro x hx; rw [hcur]; exact c.cur x hx
  · intro x hx
    rw [hko]
    rcases hmem x hx with rfl | hx
    · rw [hkey, hptr]; exact c.key e heall
    · exact c.key x hx.1
  · intro x hx
    rcases hmem x hx with rfl | ⟨hx, hxe⟩
    · rw [hptr]; exact hu'
    · rw [hu _ (hne x hx hxe)]; exact c.uo x hx
  · refine c.ring.imp_of_mem ?_
    intro a b ha hb hab la lb
    rw [hs _ (hne a (by simp [Cache.all, ha]) (hNne a ha)),
      hs _ (hne b (by simp [Cache.all, hb]) (hNne b hb))]
    exact hab la lb
  · intro x hx
    rw [ht _ (hne x (by simp [Cache.all, hx]) (hNne x hx))]
    exact c.time x hx

/-- Releasing the last pin of a deferred element: it is handed to the deleter. -/
theorem Core.dropD {lru : Bool} {h h' : Hist β} {w : World (List Nat) β} (c : Core lru h w)
    {A B : List (Elem β)} {e : Elem β}
    (hn : w.cache.defer = A ++ e :: B)
    (hheld : ∀ k p, held k p h' = held k p h + if k = e.key ∧ p = e.ptr then - e.pin else 0)
    (hins : insertedPtrs h' = insertedPtrs h) (hcur : ∀ k, current k h' = current k h)
    (hko : ∀ p, keyOf p h' = keyOf p h)
    (hu : ∀ p, unitsOf p h' = unitsOf p h)
    (hs : ∀ p, p ≠ e.ptr → stamp lru p h' = stamp lru p h)
    (ht : ∀ p, p ≠ e.ptr → touchTime lru p h' = touchTime lru p h) :
    Core lru h' { w with ext := w.ext ++ [e.ptr], cache := { w.cache with
      defer := A ++ B, units := w.cache.units - e.units } } := by
  have heall : e ∈ w.cache.all := by simp [Cache.all, hn]
  have hne : ∀ x ∈ w.cache.all, x ≠ e → x.ptr ≠ e.ptr := by
    intro x hx hxe hp
    exact hxe (c.ptr_inj hx heall hp)
  have hnodup : ((A ++ e :: B).map (·.id)).Nodup := by
    have := c.ids
    rw [Cache.all, List.map_append, List.nodup_append] at this
    rw [← hn]; exact this.2.1
  have hmid := mid_ids hnodup
  have hNne : ∀ x ∈ w.cache.nodes, x ≠ e := by
    rintro x hx rfl
    have := c.ids
    rw [Cache.all, List.map_append, List.nodup_append] at this
    exact this.2.2 x.id (List.mem_map_of_mem hx) x.id (List.mem_map_of_mem (by simp [hn])) rfl
  have hsub : (w.cache.nodes ++ (A ++ B)).Sublist w.cache.all := by
    rw [Cache.all, hn]; simp
  have hmem : ∀ x, x ∈ w.cache.nodes ++ (A ++ B) → x ∈ w.cache.all ∧ x ≠ e := by
    intro x hx
    refine ⟨hsub.subset hx, ?_⟩
    simp only [List.mem_append] at hx
    rcases hx with hx | hx | hx
    · exact hNne x hx
    · rintro rfl; exact hmid.1 x hx rfl
    · rintro rfl; exact hmid.2 x hx rfl
  refine { mode := c.mode, keys := c.keys, ids := c.ids.sublist (hsub.map _),
           fresh := fun x hx => c.fresh x (hmem x hx).1,
           ptrs := c.ptrs.sublist (hsub.map _), pinN := c.pinN,
           pinD := ?_, pins := ?_, heldz := ?_, units := ?_, pinned := c.pinned, link := c.link,
           cnt := ?_, cur := ?_, key := ?_, uo := ?_, ring := ?_, time := ?_ }
  · intro x hx
    exact c.pinD x (by rw [hn]; rcases List.mem_append.mp hx with hx | hx <;> simp [hx])
  · intro x hx
    obtain ⟨hx, hxe⟩ := hmem x hx
    rw [hheld, if_neg (fun hc => hne x hx hxe hc.2), c.pins x hx]; omega
  · intro k p hk
    rw [hheld]
    by_cases hkp : k = e.key ∧ p = e.ptr
    · rw [if_pos hkp, hkp.1, hkp.2, ← c.pins e heall]; omega
    · rw [if_neg hkp, c.heldz k p]
      · rfl
      · intro x hx hxk
        by_cases hxe : x = e
        · subst hxe; exact hkp ⟨hxk.1.symm, hxk.2.symm⟩
        · refine hk x ?_ hxk
          simp only [Cache.all, List.mem_append, hn, List.mem_cons] at hx
          simp only [Cache.all, List.mem_append]
          rcases hx with hx | hx | hx | hx
          · simp [hx]
          · simp [hx]
          · exact absurd hx hxe
          · simp [hx]
  · show w.cache.units - e.units = sumUnits w.cache.nodes + sumUnits (A ++ B)
    rw [c.units, hn]
    simp only [sumUnits_append, sumUnits_cons]
    omega
  · intro p
    rw [hins, c.cnt p]
    show _ = (w.ext ++ [e.ptr]).count p + ((w.cache.nodes ++ (A ++ B)).map (·.ptr)).count p
    rw [Cache.all, hn]
    simp only [List.map_append, List.map_cons, List.count_append, List.count_cons, List.count_nil]
    omega
  · intro x hx; rw [hcur]; exact c.cur x hx
  · intro x hx
    rw [hko]
    exact c.key x (hmem x hx).1
  · intro x hx
    rw [hu]
    exact c.uo x (hmem x hx).1
  · refine c.ring.imp_of_mem ?_
    intro a b ha hb hab la lb
    rw [hs _ (hne a (by simp [Cache.all, ha]) (hNne a ha)),
      hs _ (hne b (by simp [Cache.all, hb]) (hNne b hb))]
    exact hab la lb
  · intro x hx
    rw [ht _ (hne x (by simp [Cache.all, hx]) (hNne x hx))]
    exact c.time x hx

/-- Positions of uses are bounded by the length of the history. -/
theorem stamp_le (lru : Bool) (p : Nat) (h : Hist β) : stamp lru p h ≤ h.length := by
  induction h with
  | nil => simp [stamp]
  | cons ev h ih => unfold stamp; split <;> simp; omega

/-- Adding a new pinned element. -/
theorem Core.add {lru : Bool} {h : Hist β} {w : World (List Nat) β} (c : Core lru h w)
    (E : Env) (k : Bytes) (p : Nat) (v : β) (u : Nat) (out : Option Nat)
    (hk : ∀ e ∈ w.cache.nodes, e.key ≠ k)
    (hp : (insertedPtrs h).count p = w.ext.count p) :
    Core lru ({ call := .insertPinned k p v u, out := out, time := w.now E } :: h)
      (addPinned E k p v u w) := by
  have hpn : p ∉ w.cache.all.map (·.ptr) := by
    have := c.cnt p
    rw [← List.count_eq_zero]; omega
  have hpa : ∀ e ∈ w.cache.all, e.ptr ≠ p := by
    intro e he hh; exact hpn (hh ▸ List.mem_map_of_mem he)
  have hN : ∀ e ∈ w.cache.nodes, e ∈ w.cache.all := by intro e he; simp [Cache.all, he]
  have hmem : ∀ x ∈ (addPinned E k p v u w).cache.all,
      x = { id := w.cache.nextId, key := k, ptr := p, val := v, pin := 1, units := u,
            lastUse := w.now E, linked := !w.cache.lru } ∨ x ∈ w.cache.all := by
    intro x hx
    simpa [addPinned, Cache.all, or_assoc] using hx
  refine { mode := c.mode, keys := ?_, ids := ?_,
           fresh := ?_, ptrs := ?_, pinN := ?_,
           pinD := c.pinD, pins := ?_, heldz := ?_, units := ?_, pinned := ?_, link := ?_,
           cnt := ?_, cur := ?_, key := ?_, uo := ?_, ring := ?_, time := ?_ }
  · simp only [addPinned, List.map_cons, List.nodup_cons]
    refine ⟨?_, c.keys⟩
    intro hm
    obtain ⟨e, he, hek⟩ := List.mem_map.mp hm
    exact hk e he hek
  · simp only [addPinned, Cache.all, List.cons_append, List.map_cons, List.nodup_cons]
    refine ⟨?_, c.ids⟩
    intro hm
    obtain ⟨e, he, hek⟩ := List.mem_map.mp hm
    have := c.fresh e he
    omega
  · intro x hx
    show x.id < w.cache.nextId + 1
    rcases hmem x hx with rfl | hx
    · simp
    · have := c.fresh x hx; omega
  · simp only [addPinned, Cache.all, List.cons_append, List.map_cons, List.nodup_cons]
    exact ⟨hpn, c.ptrs⟩
  · intro x hx
    simp only [addPinned, List.mem_cons] at hx
    rcases hx with rfl | hx
    · simp
    · exact c.pinN x hx
  · intro x hx
    rcases hmem x hx with rfl | hx
    · simp only [held]
      rw [c.heldz k p]
      · simp
      · intro e he hh; exact hpa e he hh.2
    · have := hpa x hx
      simp only [held]
      rw [if_neg (fun hh => this hh.2.symm), c.pins x hx]; omega
  · intro k' p' hk'
    have h1 := hk' ⟨w.cache.nextId, k, p, v, 1, u, w.now E, !w.cache.lru⟩
      (by simp [addPinned, Cache.all])
    simp only [held]
    rw [if_neg h1, c.heldz k' p']
    · rfl
    · intro e he
      exact hk' e (by simpa [addPinned, Cache.all] using Or.inr (by simpa [Cache.all] using he))
  · simp only [addPinned, sumUnits_cons]
    rw [c.units]; omega
  · simp only [addPinned]
    rw [c.pinned, ← List.singleton_append, pinnedOf_append, sumUnits_append, pinnedOf_single]
    simp; omega
  · intro x hx
    simp only [addPinned, List.mem_cons] at hx
    rcases hx with rfl | hx
    · have := c.mode; cases hb : lru <;> simp [this, hb]
    · exact c.link x hx
  · intro q
    simp only [insertedPtrs, addPinned, Cache.all, List.cons_append, List.map_cons,
      List.count_cons]
    have := c.cnt q
    rw [Cache.all] at this
    omega
  · intro x hx
    simp only [addPinned, List.mem_cons] at hx
    simp only [current]
    rcases hx with rfl | hx
    · simp
    · rw [if_neg (fun hh => hk x hx hh.symm)]; exact c.cur x hx
  · intro x hx
    simp only [keyOf]
    rcases hmem x hx with rfl | hx
    · simp
    · rw [if_neg (fun hh => hpa x hx hh.symm)]; exact c.key x hx
  · intro x hx
    simp only [unitsOf]
    rcases hmem x hx with rfl | hx
    · simp
    · rw [if_neg (fun hh => hpa x hx hh.symm)]; exact c.uo x hx
  · simp only [addPinned, List.pairwise_cons]
    have hst : ∀ x ∈ w.cache.nodes, touches lru x.ptr
        ({ call := .insertPinned k p v u, out := out, time := w.now E } : Event β) = false := by
      intro x hx
      have := hpa x (hN x hx)
      simpa [touches] using fun hh => this hh.symm
    constructor
    · intro b hb _ _
      have h1 := stamp_le lru b.ptr h
      rw [stamp, hst b hb, stamp]
      simp [touches]; omega
    · refine c.ring.imp_of_mem ?_
      intro a b ha hb hab la lb
      rw [stamp, stamp, hst a ha, hst b hb]
      exact hab la lb
  · intro x hx
    simp only [addPinned, List.mem_cons] at hx
    rcases hx with rfl | hx
    · simp [touchTime, touches]
    · have := hpa x (hN x hx)
      have h2 : (p == x.ptr) = false := by simpa using fun hh => this hh.symm
      rw [touchTime, if_neg (by simp [touches, h2])]; exact c.time x hx

/-- Writing through a value pointer. -/
theorem Core.setVal {lru : Bool} {h : Hist β} {w : World (List Nat) β} (c : Core lru h w)
    (p : Nat) (v : β) : Core lru h (setVal p v w) := by
  let g : Elem β → Elem β := fun e => if e.ptr == p then { e with val := v } else e
  have hid : ∀ e, (g e).id = e.id := by intro e; simp only [g]; split <;> rfl
  have hkey : ∀ e, (g e).key = e.key := by intro e; simp only [g]; split <;> rfl
  have hptr : ∀ e, (g e).ptr = e.ptr := by intro e; simp only [g]; split <;> rfl
  have hpin : ∀ e, (g e).pin = e.pin := by intro e; simp only [g]; split <;> rfl
  have hun : ∀ e, (g e).units = e.units := by intro e; simp only [g]; split <;> rfl
  have hlk : ∀ e, (g e).linked = e.linked := by intro e; simp only [g]; split <;> rfl
  have hlu : ∀ e, (g e).lastUse = e.lastUse := by intro e; simp only [g]; split <;> rfl
  have hN : (Lru.setVal p v w).cache.nodes = w.cache.nodes.map g := rfl
  have hD : (Lru.setVal p v w).cache.defer = w.cache.defer.map g := rfl
  have hall : (Lru.setVal p v w).cache.all = w.cache.all.map g := by
    rw [Cache.all, hN, hD, Cache.all, List.map_append]
  have hmap : ∀ {α : Type} (f : Elem β → α), (∀ e, f (g e) = f e) → ∀ l : List (Elem β),
      (l.map g).map f = l.map f := by
    intro α f hf l; rw [List.map_map]; congr 1; funext e; exact hf e
  have hsum : ∀ l : List (Elem β), sumUnits (l.map g) = sumUnits l := by
    intro l; unfold sumUnits; rw [hmap (fun e => (e.units : Int)) (fun e => by rw [hun])]
  have hpo : ∀ l : List (Elem β), pinnedOf (l.map g) = (pinnedOf l).map g := by
    intro l; unfold pinnedOf; rw [List.filter_map]; congr 2; funext e; simp [hpin]
  refine { mode := c.mode, keys := ?_, ids := ?_, fresh := ?_, ptrs := ?_, pinN := ?_,
           pinD := ?_, pins := ?_, heldz := ?_, units := ?_, pinned := ?_, link := ?_,
           cnt := ?_, cur := ?_, key := ?_, uo := ?_, ring := ?_, time := ?_ }
  · rw [hN, hmap _ hkey]; exact c.keys
  · rw [hall, hmap _ hid]; exact c.ids
  · rw [hall]; intro x hx; obtain ⟨e, he, rfl⟩ := List.mem_map.mp hx; rw [hid]; exact c.fresh e he
  · rw [hall, hmap _ hptr]; exact c.ptrs
  · rw [hN]; intro x hx; obtain ⟨e, he, rfl⟩ := List.mem_map.mp hx; rw [hpin]; exact c.pinN e he
  · rw [hD]; intro x hx; obtain ⟨e, he, rfl⟩ := List.mem_map.mp hx; rw [hpin]; exact c.pinD e he
  · rw [hall]; intro x hx; obtain ⟨e, he, rfl⟩ := List.mem_map.mp hx
    rw [hpin, hkey, hptr]; exact c.pins e he
  · rw [hall]; intro k q hk
    exact c.heldz k q (fun e he hh => hk (g e) (List.mem_map_of_mem he) (by rw [hkey, hptr]; exact hh))
  · rw [hN, hD, hsum, hsum]; exact c.units
  · rw [hN, hpo, hsum]; exact c.pinned
  · rw [hN]; intro x hx; obtain ⟨e, he, rfl⟩ := List.mem_map.mp hx
    rw [hlk, hpin]; exact c.link e he
  · intro q; rw [hall, hmap _ hptr]; exact c.cnt q
  · rw [hN]; intro x hx; obtain ⟨e, he, rfl⟩ := List.mem_map.mp hx
    rw [hkey, hptr]; exact c.cur e he
  · rw [hall]; intro x hx; obtain ⟨e, he, rfl⟩ := List.mem_map.mp hx
    rw [hkey, hptr]; exact c.key e he
  · rw [hall]; intro x hx; obtain ⟨e, he, rfl⟩ := List.mem_map.mp hx
    rw [hun, hptr]; exact c.uo e he
  · rw [hN, List.pairwise_map]
    refine c.ring.imp ?_
    intro a b hab
    rw [hlk, hlk, hptr, hptr]; exact hab
  · rw [hN]; intro x hx; obtain ⟨e, he, rfl⟩ := List.mem_map.mp hx
    rw [hlu, hptr]; exact c.time e he

end Verif.Lru
