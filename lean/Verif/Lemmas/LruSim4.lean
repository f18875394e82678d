import Verif.Lemmas.LruSim3
/-
Size changes, `RemoveAll`, `Clear`, writes through value pointers.
-/
namespace Verif.Lru.Ptr

variable {τ σ β γ : Type} {vw : β → γ} {E : Env} {I : Joint τ σ β γ} {ad : Deleter σ β} {pd : PDeleter τ γ} {f : Elem β → σ → σ} {G : Cell γ → τ → Res τ}
  {Z : List Nat} {Q : List (Item β)} {pw : PWorld τ γ} {w w' : World σ β}

/-! ### UpdateSize -/

/-- The deferred elements with an address in `S` and the given value get a new size. -/
def resized (v : Option Nat) (u : Nat) (S : List Nat) (c : Cache β) : Cache β :=
  { c with
    units := c.units + ((c.defer.filter (fun e => decide (e.id ∈ S) && (v == none || v == some e.ptr))).map
      (fun e => (u : Int) - e.units)).sum,
    defer := c.defer.map (fun e => if decide (e.id ∈ S) && (v == none || v == some e.ptr) then { e with units := u } else e) }

theorem resized_nil (v : Option Nat) (u : Nat) (c : Cache β) : resized v u [] c = c := by
  simp [resized]

theorem resized_cons (v : Option Nat) (u : Nat) {c : Cache β} {A B : List (Elem β)} {e : Elem β} {xs : List Nat}
    (hn : c.defer = A ++ e :: B) (hA : ∀ a ∈ A, a.id ≠ e.id) (hB : ∀ a ∈ B, a.id ≠ e.id) (hx : e.id ∉ xs) :
    resized v u (e.id :: xs) c = resized v u xs (if (v == none || v == some e.ptr) then
      { c with units := c.units - e.units + u, defer := A ++ { e with units := u } :: B } else c) := by
  have f1 : ∀ L : List (Elem β), (∀ a ∈ L, a.id ≠ e.id) →
      L.filter (fun y => decide (y.id ∈ e.id :: xs) && (v == none || v == some y.ptr)) =
      L.filter (fun y => decide (y.id ∈ xs) && (v == none || v == some y.ptr)) := by
    intro L hL
    apply List.filter_congr
    intro a ha; simp [hL a ha]
  have f2 : ∀ L : List (Elem β), (∀ a ∈ L, a.id ≠ e.id) →
      L.map (fun y => if decide (y.id ∈ e.id :: xs) && (v == none || v == some y.ptr) then { y with units := u } else y) =
      L.map (fun y => if decide (y.id ∈ xs) && (v == none || v == some y.ptr) then { y with units := u } else y) := by
    intro L hL
    apply List.map_congr_left
    intro a ha; simp [hL a ha]
  cases hm : (v == none || v == some e.ptr) with
  | true =>
    simp only [resized, hn, List.filter_append, List.filter_cons, List.map_append, List.map_cons, List.sum_append, if_true]
    rw [f1 A hA, f1 B hB, f2 A hA, f2 B hB]
    have h1 : decide (e.id ∈ e.id :: xs) = true := by simp
    have h2 : decide (e.id ∈ xs) = false := by simpa using hx
    simp only [h1, h2, hm, Bool.true_and, Bool.false_and, if_true, Bool.false_eq_true, if_false, List.map_cons, List.sum_cons]
    congr 1
    omega
  | false =>
    simp only [resized, hn, List.filter_append, List.filter_cons, List.map_append, List.map_cons, List.sum_append,
      Bool.false_eq_true, if_false]
    rw [f1 A hA, f1 B hB, f2 A hA, f2 B hB]
    simp only [hm, Bool.and_false, Bool.false_eq_true, if_false]

theorem resizeDeferred_chain {h u : Nat} {v : Option Nat} : ∀ (xs : List Nat) (x n : Nat) (p : PCache γ) (c : Cache β),
    xs.length < n → Rep vw Z p c →
    List.IsChain (fun x y => p.prev x = some y) (locs (x :: (xs ++ [h]))) →
    (x :: xs).Nodup → (∀ i ∈ xs, i ≠ h) → (∀ i ∈ x :: xs, ∃ e ∈ c.defer, e.id = i) →
    ∃ cell un, resizeDeferred h v u n (some (.elem x)) p = .ok { p with cell := cell, units := un } ∧
      Rep vw Z { p with cell := cell, units := un } (resized v u (x :: xs) c)
  | xs, x, 0, p, c, hn, _, _, _, _, _ => by omega
  | xs, x, n + 1, p, c, hn, r, hc, hd, hh, hx => by
    obtain ⟨e, he, rfl⟩ := hx x (by simp)
    obtain ⟨A, B, hs, _, hA, hB⟩ := nodes_split he r.idsD
    have hxs := (List.nodup_cons.mp hd).1
    rw [resized_cons v u hs hA hB hxs]
    unfold resizeDeferred
    simp only [bind, Except.bind, load_ok (r.cellD e he)]
    have hptr : (cellOf vw e).ptr = e.ptr := rfl
    have hun : (cellOf vw e).units = e.units := rfl
    simp only [hptr, hun]
    -- the element is processed
    obtain ⟨cell, un, hp, r1⟩ : ∃ cell un,
        (if v = none ∨ v = some e.ptr then
          store e.id { cellOf vw e with units := u } { p with units := p.units - e.units + u } else p) =
          { p with cell := cell, units := un } ∧
        Rep vw Z { p with cell := cell, units := un } (if (v == none || v == some e.ptr) then
          { c with units := c.units - e.units + u, defer := A ++ { e with units := u } :: B } else c) := by
      by_cases hm : v = none ∨ v = some e.ptr
      · have hm' : (v == none || v == some e.ptr) = true := by simpa using hm
        rw [if_pos hm, if_pos hm']
        refine ⟨_, _, rfl, ?_⟩
        obtain ⟨a1, a2, a3, a4, a5⟩ := r.sel
        have r0 : Rep vw Z { p with units := p.units - e.units + u } { c with units := c.units - e.units + u } :=
          r.like (by simp only; rw [a1]) a2 a3 a4 a5
        exact r0.storeD hs (e' := { e with units := u }) rfl rfl
      · have hm' : ¬ (v == none || v == some e.ptr) = true := by simpa using hm
        rw [if_neg hm, if_neg hm']
        exact ⟨p.cell, p.units, rfl, r⟩
    simp only [hptr] at hp
    rw [hp]
    have hmem : ∀ i, (∃ y ∈ c.defer, y.id = i) → ∃ y ∈ (if (v == none || v == some e.ptr) = true then
          { c with units := c.units - e.units + u, defer := A ++ { e with units := u } :: B } else c).defer, y.id = i := by
      rintro i ⟨y, hy, rfl⟩
      split
      · rw [hs] at hy
        simp only [List.mem_append, List.mem_cons] at hy
        rcases hy with hy | rfl | hy
        · exact ⟨y, by simp [hy], rfl⟩
        · exact ⟨{ y with units := u }, by simp, rfl⟩
        · exact ⟨y, by simp [hy], rfl⟩
      · exact ⟨y, hy, rfl⟩
    generalize (if (v == none || v == some e.ptr) = true then
          { c with units := c.units - e.units + u, defer := A ++ { e with units := u } :: B } else c) = c1 at *
    have hal : Alive ({ p with cell := cell, units := un } : PCache γ) (.elem e.id) := by
      obtain ⟨y, hy, hyi⟩ := hmem e.id ⟨e, he, rfl⟩
      show (cell e.id).isSome
      have hce : cell y.id = some (cellOf vw y) := r1.cellD y hy
      rw [hyi] at hce
      rw [hce]; rfl
    simp only [getPrev, deref_alive hal, bind, Except.bind]
    cases xs with
    | nil =>
      have : p.prev (.elem e.id) = some (.elem h) := by simpa [locs] using hc
      rw [this, if_neg (by simp)]
      refine ⟨_, _, rfl, ?_⟩
      rw [resized_nil]; exact r1
    | cons y ys =>
      have hc2 : List.IsChain (fun x y => p.prev x = some y) (.elem e.id :: .elem y :: locs (ys ++ [h])) := hc
      rw [List.isChain_cons_cons] at hc2
      rw [hc2.1, if_pos (by have := hh y (by simp); simpa using this)]
      obtain ⟨cell2, un2, b1, b2⟩ := resizeDeferred_chain (h := h) (u := u) (v := v) ys y n
        { p with cell := cell, units := un } c1 (by simp at hn; omega) r1 hc2.2 (List.nodup_cons.mp hd).2
        (fun i hi => hh i (by simp [hi])) (fun i hi => hmem i (hx i (by simp at hi ⊢; tauto)))
      exact ⟨cell2, un2, b1, b2⟩

theorem resizeOther_sim {k : Bytes} {v : Option Nat} {u : Nat} {p : PCache γ} {c : Cache β} (r : Rep vw Z p c) :
    ∃ p', resizeOther k v u p = .ok p' ∧ p'.table = p.table ∧
      Rep vw Z p' { c with
        units := c.units - ((c.defer.filter (fun e => e.key == k && (v == none || v == some e.ptr))).map
            (fun e => (e.units : Int))).sum
          + ((c.defer.filter (fun e => e.key == k && (v == none || v == some e.ptr))).map (fun _ => (u : Int))).sum,
        defer := c.defer.map (fun e => if e.key == k && (v == none || v == some e.ptr) then { e with units := u } else e) } := by
  obtain ⟨G, hG⟩ := r.groups
  unfold resizeOther
  cases ha : assoc k p.defer with
  | none =>
    have hno : ∀ e ∈ c.defer, (e.key == k) = false := by
      intro e he
      obtain ⟨G1, G2, l, hGe, _⟩ := hG.of r.idsD he
      have := hG.none ha (e.key, l) (by rw [hGe]; simp)
      simpa using this
    have f1 : c.defer.filter (fun e => e.key == k && (v == none || v == some e.ptr)) = [] := by
      rw [List.filter_eq_nil_iff]; intro e he; simp [hno e he]
    have f2 : c.defer.map (fun e => if e.key == k && (v == none || v == some e.ptr) then { e with units := u } else e) =
        c.defer := by
      conv_rhs => rw [← List.map_id c.defer]
      apply List.map_congr_left
      intro e he; simp [hno e he]
    refine ⟨p, rfl, rfl, ?_⟩
    rw [f1, f2]
    simpa using r
  | some h =>
    obtain ⟨G1, G2, t, hGe⟩ := hG.at ha
    have hgm : (k, h :: t) ∈ G := by rw [hGe]; simp
    have hgd := hG.nodup r.idsD hgm
    have hring := ring_back (hG.ring _ hgm)
    have hring' : List.IsChain (fun x y => p.prev x = some y) (locs (h :: (t.reverse ++ [h]))) := by
      simpa [locs] using hring
    have hel : ∀ i ∈ h :: t, ∃ e ∈ c.defer, e.id = i := by
      intro i hi
      obtain ⟨e, he, h1, _⟩ := hG.key _ hgm i hi
      exact ⟨e, he, h1⟩
    have hlen : (h :: t).length ≤ p.nextId := by
      refine length_le_of_nodup hgd ?_
      intro i hi
      obtain ⟨e, he, h1⟩ := hel i hi
      rw [r.nextId, ← h1]
      exact r.fresh e.id (by unfold idsOf; simp; exact .inr (.inl ⟨e, he, rfl⟩))
    obtain ⟨cell, un, b1, b2⟩ := resizeDeferred_chain (h := h) (u := u) (v := v) t.reverse h (p.nextId + 1) p c
      (by simp at hlen ⊢; omega) r hring' (by simpa using hgd)
      (fun i hi => by
        rintro rfl
        exact (List.nodup_cons.mp hgd).1 (by simpa using hi))
      (fun i hi => hel i (by simpa using hi))
    refine ⟨_, b1, rfl, ?_⟩
    have hmem : ∀ e ∈ c.defer, decide (e.id ∈ h :: t.reverse) = (e.key == k) := by
      intro e he
      have := hG.mem_iff r.idsD hGe he
      rw [Bool.eq_iff_iff]
      simpa using this
    have f1 : c.defer.filter (fun e => decide (e.id ∈ h :: t.reverse) && (v == none || v == some e.ptr)) =
        c.defer.filter (fun e => e.key == k && (v == none || v == some e.ptr)) := by
      apply List.filter_congr
      intro e he; rw [hmem e he]
    have f2 : c.defer.map (fun e => if decide (e.id ∈ h :: t.reverse) && (v == none || v == some e.ptr) then { e with units := u } else e) =
        c.defer.map (fun e => if e.key == k && (v == none || v == some e.ptr) then { e with units := u } else e) := by
      apply List.map_congr_left
      intro e he; rw [hmem e he]
    have f3 : ∀ L : List (Elem β), (L.map (fun e => (u : Int) - e.units)).sum =
        (L.map (fun _ => (u : Int))).sum - (L.map (fun e => (e.units : Int))).sum := by
      intro L
      induction L with
      | nil => rfl
      | cons a L ih => simp only [List.map_cons, List.sum_cons, ih]; omega
    unfold resized at b2
    rw [f1, f2, f3] at b2
    convert b2 using 2
    omega

theorem items_resize {k : Bytes} {v : Option Nat} {u : Nat} {c : Cache β} (hd : (c.nodes.map (·.id)).Nodup) :
    items (Lru.resize k v u c) = items c := by
  unfold Lru.resize
  split
  · rename_i e he
    obtain ⟨h1, _⟩ := Option.filter_eq_some_iff.mp he
    have hm : e ∈ c.nodes := List.mem_of_find?_eq_some h1
    obtain ⟨A, B, hn, _, hA, hB⟩ := nodes_split hm hd
    refine items_set (e' := { e with units := u }) hn ?_ rfl rfl
    show setElem _ _ = _
    rw [hn]; exact setElem_mid _ rfl hA hB
  · unfold items
    simp only [List.map_append, List.map_map]
    congr 1
    apply List.map_congr_left
    intro e _
    simp only [Function.comp]
    split <;> rfl

theorem resize_sim {k : Bytes} {v : Option Nat} {u : Nat} (s : Sim I Z Q pw w) :
    ∃ p', resize k v u pw.cache = .ok p' ∧ Sim I Z Q { pw with cache := p' } { w with cache := Lru.resize k v u w.cache } := by
  have other : (findKey k w.cache.nodes).filter (fun e => v == none || v == some e.ptr) = none →
      ∃ p', resizeOther k v u pw.cache = .ok p' ∧
        Sim I Z Q { pw with cache := p' } { w with cache := Lru.resize k v u w.cache } := by
    intro hf
    obtain ⟨p', b1, b2, b3⟩ := resizeOther_sim (k := k) (v := v) (u := u) s.rep
    refine ⟨p', b1, ?_⟩
    have hI := s.inv
    rw [← items_resize (k := k) (v := v) (u := u) s.rep.idsN] at hI
    unfold Lru.resize at hI ⊢
    rw [hf] at hI ⊢
    refine ⟨⟨b3, s.tick, hI⟩, ?_⟩
    show Tab p'.table _
    rw [b2]
    exact s.tab.congr (List.Perm.refl _)
  unfold resize
  rw [s.tab.find]
  cases hf : findKey k w.cache.nodes with
  | none => exact other (by rw [hf]; rfl)
  | some e =>
    obtain ⟨he, rfl⟩ := (findKey_iff s.tab.keys).mp hf
    simp only [Option.map_some, bind, Except.bind, load_ok (s.rep.cellN e he)]
    have hptr : (cellOf I.view e).ptr = e.ptr := rfl
    rw [hptr]
    by_cases hm : v = none ∨ v = some e.ptr
    · rw [if_pos hm]
      have hm' : (v == none || v == some e.ptr) = true := by simpa using hm
      refine ⟨_, rfl, ?_⟩
      have hfil : (findKey e.key w.cache.nodes).filter (fun e => v == none || v == some e.ptr) = some e := by
        rw [hf]; simp only [Option.filter, hm', if_true]
      have hI := s.inv
      rw [← items_resize (k := e.key) (v := v) (u := u) s.rep.idsN] at hI
      unfold Lru.resize at hI ⊢
      rw [hfil] at hI ⊢
      obtain ⟨A, B, hn, hd, hA, hB⟩ := nodes_split he s.rep.idsN
      obtain ⟨a1, a2, a3, a4, a5⟩ := s.rep.sel
      have hset : setElem { e with units := u } w.cache.nodes = A ++ { e with units := u } :: B := by
        rw [hn]; exact setElem_mid _ rfl hA hB
      have r0 : Rep I.view Z { pw.cache with
            units := pw.cache.units - e.units + u,
            pinnedUnits := if e.pin > 0 then pw.cache.pinnedUnits - e.units + u else pw.cache.pinnedUnits }
          { w.cache with
            units := w.cache.units - e.units + u,
            pinnedUnits := if e.pin > 0 then w.cache.pinnedUnits - e.units + u else w.cache.pinnedUnits } :=
        s.rep.like (by simp only; rw [a1]) (by simp only; rw [a2]) a3 a4 a5
      have r1 := r0.storeN hn (e' := { e with units := u }) rfl rfl
      refine ⟨⟨?_, s.tick, hI⟩, ?_⟩
      · simp only [hset]
        exact r1
      · refine s.tab.congr ?_
        simp only [hset]
        rw [hn]
        exact perm_set rfl rfl
    · rw [if_neg hm]
      have hm' : (v == none || v == some e.ptr) = false := by
        rw [Bool.eq_false_iff]; simpa using hm
      refine other ?_
      rw [hf]; simp only [Option.filter, hm', Bool.false_eq_true, if_false]

theorem updateSize_sim {k : Bytes} {v : Option Nat} {u : Nat} (D : Follows I ad pd) (s : Sim I Z Q pw w)
    (h : Lru.updateSize E ad k v u w = .ok w') :
    ∃ pw', updateSize E pd k v u pw = .ok pw' ∧ Sim I Z Q pw' w' := by
  unfold updateSize
  obtain ⟨p', b1, b2⟩ := resize_sim (k := k) (v := v) (u := u) s
  simp only [b1, bind, Except.bind]
  exact drop_keeps (gc_sim D b2 h)

/-! ### Whole-table operations -/

theorem tableOrder_sim {t : List (Bytes × Nat)} {c : Cache β} (h : Tab t c) (hid : (c.nodes.map (·.id)).Nodup) :
    tableOrder E t = (Lru.tableOrder E c.nodes).map (·.id) := by
  have ht : t = (c.nodes.insertionSort (fun a b => a.id ≤ b.id)).map (fun e => (e.key, e.id)) := by
    have hp : t.Perm ((c.nodes.insertionSort (fun a b => a.id ≤ b.id)).map (fun e => (e.key, e.id))) :=
      h.perm.trans ((List.perm_insertionSort (fun a b : Elem β => a.id ≤ b.id) c.nodes).symm.map _)
    have hs : ((c.nodes.insertionSort (fun a b => a.id ≤ b.id)).map (fun e => (e.key, e.id))).Pairwise
        (fun a b => a.2 ≤ b.2) := by
      rw [List.pairwise_map]
      exact List.pairwise_insertionSort (fun a b : Elem β => a.id ≤ b.id) c.nodes
    have hs' : t.Pairwise (fun a b => a.2 ≤ b.2) := h.sorted.imp (fun h => Nat.le_of_lt h)
    refine hp.eq_of_pairwise ?_ hs' hs
    intro a b ha hb h1 h2
    obtain ⟨x, hx, rfl⟩ := List.mem_map.mp (h.perm.mem_iff.mp ha)
    obtain ⟨y, hy, rfl⟩ := List.mem_map.mp (h.perm.mem_iff.mp (hp.mem_iff.mpr hb))
    have := List.inj_on_of_nodup_map hid hx hy (Nat.le_antisymm h1 h2)
    rw [this]
  unfold tableOrder Lru.tableOrder
  rw [ht]
  have hn := E.order.natural (Elem β) Nat (fun e => e.id)
    ((c.nodes.insertionSort (fun a b => a.id ≤ b.id)).map (fun e => (e.key, e)))
  rw [List.map_map] at hn
  have e1 : (Prod.map id (fun e : Elem β => e.id)) ∘ (fun e : Elem β => (e.key, e)) = fun e => (e.key, e.id) := rfl
  rw [e1] at hn
  rw [hn, List.map_map, List.map_map]
  rfl

theorem removeElem_nodes {e : Elem β} {m : List (Elem β)} (h : Lru.removeElem E (pureDel f) e w = .ok w') :
    Lru.removeElem E (pureDel f) e { w with cache := { w.cache with nodes := m } } =
      .ok { w' with cache := { w'.cache with nodes := m } } := by
  unfold Lru.removeElem at h ⊢
  split at h
  · rename_i hp
    rw [if_pos hp]
    simp only [Except.ok.injEq] at h
    subst h; rfl
  · rename_i hp
    rw [if_neg hp]
    unfold Lru.discard at h ⊢
    simp only [bind, Except.bind] at h ⊢
    cases ha : assertThat E (e.pin = 0) with
    | error x => rw [ha] at h; cases h
    | ok u =>
      rw [ha] at h
      simp only [pureDel, Except.ok.injEq] at h ⊢
      subst h; rfl

theorem removeAll_loop (q : Quiet I f G) : ∀ (l m : List (Elem β)) (pw : PWorld τ γ) (w w' : World σ β), m.Perm l →
    RSim I Z Q pw { w with cache := { w.cache with nodes := m } } →
    l.foldlM (fun w e => Lru.removeElem E (pureDel f) e w) w = .ok w' →
    ∃ pw', (l.map (·.id)).foldlM (fun w i => removeElem E (extDel G) i w) pw = .ok pw' ∧
      RSim I Z Q pw' { w' with cache := { w'.cache with nodes := [] } }
  | [], m, pw, w, w', hp, s, h => by
    have : m = [] := List.Perm.eq_nil hp
    subst this
    simp only [List.foldlM_nil, pure, Except.pure, Except.ok.injEq] at h
    subst h
    exact ⟨pw, rfl, s⟩
  | e :: l, m, pw, w, w', hp, s, h => by
    rw [List.foldlM_cons] at h
    simp only [bind, Except.bind] at h
    cases hr : Lru.removeElem E (pureDel f) e w with
    | error x => rw [hr] at h; cases h
    | ok w1 =>
      rw [hr] at h
      have hem : e ∈ m := hp.mem_iff.mpr (by simp)
      obtain ⟨A, B, rfl⟩ := List.append_of_mem hem
      have h2 := removeElem_nodes (m := A ++ B) hr
      obtain ⟨pw1, b1, b2, b3, b4⟩ := removeElem_quiet q (Z := Z) (pw := pw) s.rep (A := A) (B := B) (e := e) rfl
        (w := { w with cache := { w.cache with nodes := A ++ B } }) s.tick (I.perm (items_mid (c := { w.cache with nodes := A ++ e :: B }) rfl Q) s.inv) rfl h2
      have hp' : (A ++ B).Perm l := List.Perm.cons_inv (List.perm_middle.symm.trans hp)
      obtain ⟨pw', c1, c2⟩ := removeAll_loop q l (A ++ B) pw1 w1 w' hp' b2 h
      refine ⟨pw', ?_, c2⟩
      rw [List.map_cons, List.foldlM_cons]
      simp only [b1, bind, Except.bind]
      exact c1

theorem removeAll_sim (q : Quiet I f G) (s : Sim I Z Q pw w) (h : Lru.removeAll E (pureDel f) w = .ok w') :
    ∃ pw', removeAll E (extDel G) pw = .ok pw' ∧ Sim I Z Q pw' w' := by
  unfold Lru.removeAll at h
  unfold removeAll
  rw [tableOrder_sim s.tab s.rep.idsN]
  simp only [bind, Except.bind] at h ⊢
  cases hl : (Lru.tableOrder E w.cache.nodes).foldlM (fun w e => Lru.removeElem E (pureDel f) e w) w with
  | error x => rw [hl] at h; cases h
  | ok w1 =>
    rw [hl] at h
    simp only [Except.ok.injEq] at h
    subst h
    obtain ⟨pw1, b1, b2⟩ := removeAll_loop q (Z := Z) (Lru.tableOrder E w.cache.nodes) w.cache.nodes pw w w1
      (tableOrder_perm E _).symm ⟨s.rep, s.tick, s.inv⟩ hl
    rw [b1]
    refine ⟨_, rfl, ⟨⟨?_, b2.tick, b2.inv⟩, ⟨?_, ?_, ?_⟩⟩⟩
    · exact b2.rep.like b2.rep.units b2.rep.pinnedUnits b2.rep.maxUnits b2.rep.maxIdle b2.rep.lru
    · simp
    · simp
    · simp

/-- What a series of `Discard` does. -/
theorem discardAll_loop {g : Cell β → σ → σ} : ∀ (l : List (Elem β)) (pw : PWorld σ β) (w w' : World σ β),
    (l.map (·.id)).Nodup → (∀ e ∈ l, pw.cache.cell e.id = some (cellOf id e)) → pw.ext = w.ext →
    l.foldlM (fun w e => Lru.discard E (aDel g) e w) w = .ok w' →
    ∃ u x, (l.map (·.id)).foldlM (fun w i => discard E (pDel g) i w) pw =
        .ok { pw with ext := x, cache := { pw.cache with
          units := u, cell := fun i => if i ∈ l.map (·.id) then none else pw.cache.cell i } } ∧
      x = w'.ext ∧ ∃ u', w' = { w with ext := x, cache := { w.cache with units := u' } }
  | [], pw, w, w', _, _, hx, h => by
    simp only [List.foldlM_nil, pure, Except.pure, Except.ok.injEq] at h
    subst h
    exact ⟨pw.cache.units, pw.ext, by simp [pure, Except.pure], hx, w.cache.units, by rw [hx]⟩
  | e :: l, pw, w, w', hd, hc, hx, h => by
    rw [List.foldlM_cons] at h
    simp only [bind, Except.bind] at h
    rw [List.map_cons, List.nodup_cons] at hd
    unfold Lru.discard at h
    simp only [bind, Except.bind] at h
    cases ha : assertThat E (e.pin = 0) with
    | error x => rw [ha] at h; cases h
    | ok u0 =>
      rw [ha] at h
      simp only [aDel, pureDel] at h
      have ha' : assertThat E ((cellOf id e).pin = 0) = .ok () := assert_ok ha _ id
      have hce := hc e (by simp)
      obtain ⟨u, x, b1, b2, u', b3⟩ := discardAll_loop l
        { pw with ext := g (cellOf id e) pw.ext, cache := { pw.cache with
            units := pw.cache.units - e.units, cell := Function.update pw.cache.cell e.id none } }
        { w with ext := g (cellOf id e) w.ext, cache := { w.cache with units := w.cache.units - e.units } } w'
        hd.2 (by
          intro y hy
          have : y.id ≠ e.id := fun h => hd.1 (List.mem_map.mpr ⟨y, hy, h⟩)
          show Function.update pw.cache.cell e.id none y.id = _
          rw [Function.update_of_ne this]
          exact hc y (by simp [hy])) (by simp only [hx]) h
      refine ⟨u, x, ?_, b2, u', b3⟩
      rw [List.map_cons, List.foldlM_cons]
      have hdisc : discard E (pDel g) e.id pw = .ok { pw with ext := g (cellOf id e) pw.ext, cache := { pw.cache with
            units := pw.cache.units - e.units, cell := Function.update pw.cache.cell e.id none } } := by
        unfold discard
        simp only [bind, Except.bind, load_ok hce, ha', pDel, free, hce]
        rfl
      rw [hdisc]
      simp only [bind, Except.bind]
      rw [b1]
      have hfun : (fun i => if i ∈ l.map (·.id) then none else Function.update pw.cache.cell e.id none i) =
          fun i => if i ∈ (e :: l).map (·.id) then none else pw.cache.cell i := by
        funext i
        by_cases hi : i = e.id
        · subst hi; simp
        · rw [Function.update_of_ne hi]
          simp [hi]
      simp only [hfun, List.map_cons]

theorem Rep.cleared {p : PCache γ} {c : Cache β} (r : Rep vw Z p c) {t : List (Bytes × Nat)} {l : List Nat}
    (hl : ∀ i, i ∈ l ↔ i ∈ c.nodes.map (·.id)) :
    Rep vw Z { p with
        cell := fun i => if i ∈ l then none else p.cell i,
        next := Function.update p.next .head (some .head), prev := Function.update p.prev .head (some .head),
        table := t, units := 0, pinnedUnits := 0 }
      { c with nodes := [], units := 0, pinnedUnits := 0 } := by
  have hids : idsOf Z { c with nodes := [], units := 0, pinnedUnits := 0 } = c.defer.map (·.id) ++ Z := by
    simp [idsOf]
  have hnd := List.nodup_append.mp r.ids
  have hnot : ∀ i ∈ c.defer.map (·.id) ++ Z, i ∉ l := by
    intro i hi hil
    exact hnd.2.2 i ((hl i).mp hil) i hi rfl
  obtain ⟨G, hG⟩ := r.groups
  exact
    { units := rfl, pinnedUnits := rfl, maxUnits := r.maxUnits, maxIdle := r.maxIdle, lru := r.lru,
      nextId := r.nextId,
      ids := by rw [hids]; exact hnd.2.1,
      fresh := fun i hi => r.fresh i (by rw [hids] at hi; unfold idsOf; exact List.mem_append_right _ hi),
      live := fun i => by
        rw [hids]
        show (if i ∈ l then none else p.cell i).isSome ↔ _
        by_cases hil : i ∈ l
        · simp only [if_pos hil]
          constructor
          · intro h; simp at h
          · intro h; exact absurd hil (hnot i h)
        · simp only [if_neg hil]
          rw [r.live i]
          unfold idsOf
          rw [List.mem_append]
          constructor
          · rintro (h | h)
            · exact absurd ((hl i).mpr h) hil
            · exact h
          · exact .inr,
      cellN := by intro e he; simp at he,
      cellD := fun e he => by
        show (if e.id ∈ l then none else p.cell e.id) = _
        rw [if_neg (hnot e.id (List.mem_append_left _ (List.mem_map_of_mem he)))]
        exact r.cellD e he,
      ring := by
        show Ring _ _ [Loc.head]
        rw [ring_cons]
        exact List.isChain_pair.mpr ⟨by simp, by simp⟩,
      off := by intro e he; simp at he,
      groups := ⟨G, hG.congr (fun e _ => ⟨by simp [Function.update], by simp [Function.update]⟩)⟩ }

theorem clear_sim {g : Cell β → σ → σ} {pw : PWorld σ β} (s : Sim (sameExt σ β) Z Q pw w) (h : Lru.clear E (aDel g) w = .ok w') :
    ∃ pw', clear E (pDel g) pw = .ok pw' ∧ Sim (sameExt σ β) Z Q pw' w' := by
  unfold Lru.clear at h
  unfold clear
  rw [tableOrder_sim s.tab s.rep.idsN]
  simp only [bind, Except.bind] at h ⊢
  cases hl : (Lru.tableOrder E w.cache.nodes).foldlM (fun w e => Lru.discard E (aDel g) e w) w with
  | error x => rw [hl] at h; cases h
  | ok w1 =>
    rw [hl] at h
    simp only at h
    have hperm := tableOrder_perm E w.cache.nodes
    obtain ⟨u, x, b1, b2, u', b3⟩ := discardAll_loop (Lru.tableOrder E w.cache.nodes) pw w w1
      ((hperm.map _).nodup_iff.mpr s.rep.idsN) (fun e he => s.rep.cellN e (hperm.mem_iff.mp he)) s.inv hl
    rw [b1]
    cases ha : assertThat E (w1.cache.defer = []) with
    | error y => rw [ha] at h; cases h
    | ok u0 =>
      rw [ha] at h
      simp only [Except.ok.injEq] at h ⊢
      have hdef : w1.cache.defer = [] → pw.cache.defer = [] := by
        intro h0
        rw [b3] at h0
        simp only at h0
        obtain ⟨G, hG⟩ := s.rep.groups
        have : G = [] := by
          cases G with
          | nil => rfl
          | cons x G =>
            have h1 := hG.ne x (by simp)
            have h2 := hG.ids
            rw [h0] at h2
            have := List.Perm.eq_nil h2
            simp [h1] at this
        rw [hG.defer, this]; rfl
      have ha' := assert_ok ha (pw.cache.defer = []) hdef
      rw [ha']
      simp only
      refine ⟨_, rfl, ⟨⟨?_, ?_, ?_⟩, ⟨?_, ?_, ?_⟩⟩⟩
      · rw [← h, b3]
        exact s.rep.cleared (fun i => (hperm.map _).mem_iff)
      · rw [← h, b3]; exact s.tick
      · rw [← h, b3]; rfl
      · rw [← h]; simp
      · rw [← h]; simp
      · simp

theorem setVal_sim {v : Nat} {x : β} (s : Sim I Z Q pw w)
    (hI : I.holds pw.ext w.ext w.cache.nextId (items (Lru.setVal v x w).cache ++ Q)) :
    Sim I Z Q (setVal v (I.view x) pw) (Lru.setVal v x w) := by
  have f : ∀ L : List (Elem β), (L.map (fun e => if e.ptr == v then { e with val := x } else e)).map (·.id) = L.map (·.id) := by
    intro L; rw [List.map_map]; apply List.map_congr_left; intro e _; simp only [Function.comp]; split <;> rfl
  have hids : idsOf Z (Lru.setVal v x w).cache = idsOf Z w.cache := by
    unfold idsOf Lru.setVal
    simp only [f]
  have hlk : linkedIds (Lru.setVal v x w).cache.nodes = linkedIds w.cache.nodes := by
    unfold Lru.setVal
    simp only
    induction w.cache.nodes with
    | nil => rfl
    | cons e l ih =>
      rw [List.map_cons, linkedIds_cons, linkedIds_cons, ih]
      split <;> rfl
  have hcell : ∀ e : Elem β, pw.cache.cell e.id = some (cellOf I.view e) →
      (pw.cache.cell (if e.ptr == v then { e with val := x } else e).id).map
        (fun c => if c.ptr == v then { c with val := I.view x } else c) =
        some (cellOf I.view (if e.ptr == v then { e with val := x } else e)) := by
    intro e he
    have : (if e.ptr == v then { e with val := x } else e).id = e.id := by split <;> rfl
    rw [this, he, Option.map_some]
    have hp : (cellOf I.view e).ptr = e.ptr := rfl
    rw [hp]
    split <;> rfl
  obtain ⟨G, hG⟩ := s.rep.groups
  refine ⟨⟨?_, s.tick, hI⟩, ?_⟩
  · exact
      { units := s.rep.units, pinnedUnits := s.rep.pinnedUnits, maxUnits := s.rep.maxUnits,
        maxIdle := s.rep.maxIdle, lru := s.rep.lru, nextId := s.rep.nextId,
        ids := by rw [hids]; exact s.rep.ids,
        fresh := fun i hi => s.rep.fresh i (by rw [hids] at hi; exact hi),
        live := fun i => by
          rw [hids, ← s.rep.live i]
          show ((pw.cache.cell i).map _).isSome ↔ _
          rw [Option.isSome_map],
        cellN := fun e he => by
          obtain ⟨e0, h0, rfl⟩ := List.mem_map.mp he
          exact hcell e0 (s.rep.cellN e0 h0),
        cellD := fun e he => by
          obtain ⟨e0, h0, rfl⟩ := List.mem_map.mp he
          exact hcell e0 (s.rep.cellD e0 h0),
        ring := by rw [hlk]; exact s.rep.ring,
        off := fun e he hl => by
          obtain ⟨e0, h0, rfl⟩ := List.mem_map.mp he
          have h1 : (if e0.ptr == v then { e0 with val := x } else e0).id = e0.id := by split <;> rfl
          have h2 : (if e0.ptr == v then { e0 with val := x } else e0).linked = e0.linked := by split <;> rfl
          rw [h1]; rw [h2] at hl
          exact s.rep.off e0 h0 hl,
        groups := by
          refine ⟨G, hG.defer, hG.keys, hG.ne, ?_, ?_, hG.ring⟩
          · unfold Lru.setVal
            simp only [f]
            exact hG.ids
          · intro y hy i hi
            obtain ⟨e0, h0, h1, h2⟩ := hG.key y hy i hi
            refine ⟨_, List.mem_map.mpr ⟨e0, h0, rfl⟩, ?_, ?_⟩
            · rw [← h1]; split <;> rfl
            · rw [← h2]; split <;> rfl }
  · refine s.tab.congr ?_
    unfold Lru.setVal
    simp only [List.map_map]
    refine List.Perm.of_eq ?_
    apply List.map_congr_left
    intro e _
    simp only [Function.comp]
    split <;> rfl

end Verif.Lru.Ptr
