import Verif.Lemmas.AggregatorPointers2
/-
The quota aggregator, whose deleter puts objects back into the cache.
-/
set_option linter.unusedSectionVars false

namespace Verif.Quota
open Lru Lru.Ptr
variable {D : Type} {E : Env} {cfg : AggConfig}

abbrev goodQ (k : Bytes) (v : Elem D) : Prop := v.sig = k

abbrev J (D : Type) : Joint (Mem (AllocateQuotaRequest D) (Elem D)) (Slot (AllocateQuotaRequest D)) (Elem D) Unit :=
  owns (AllocateQuotaRequest D) goodQ

theorem returnRequest_keeps_sig (cfg : AggConfig) (v : Elem D) : (v.returnRequest cfg).2.sig = v.sig := by
  unfold Elem.returnRequest; split <;> rfl

theorem deref_item {w : World (Slot (AllocateQuotaRequest D)) (Elem D)} {p : Nat} {v : Elem D} (h : deref p w = .ok v) :
    ∃ i ∈ items w.cache, i.ptr = p ∧ i.val = v := by
  unfold deref at h
  split at h
  · rename_i e he
    cases h
    refine ⟨itemOf e, List.mem_map.mpr ⟨e, List.mem_of_find?_eq_some he, rfl⟩, ?_, rfl⟩
    have := List.find?_some he
    simp only [beq_iff_eq] at this
    exact this
  · cases h

theorem setVal_defer {σ β : Type} {w : World σ β} {p : Nat} {v : β} (h : ∀ e ∈ w.cache.defer, e.ptr ≠ p) :
    (Lru.setVal p v w).cache.defer = w.cache.defer := by
  show w.cache.defer.map _ = _
  rw [List.map_congr_left (g := id) (fun e he => ?_), List.map_id]
  simp [h e he]

theorem del_follows (E : Env) (cfg : AggConfig) (inAll : Bool) : ∀ d : Nat,
    Follows (J D) (onDelete E cfg inAll d) (pOnDelete E cfg inAll d)
  | 0 => ⟨fun _ _ h => by simp [onDelete] at h⟩
  | d + 1 => by
    refine ⟨?_⟩
    intro Z Q e pw w w' s hk h
    unfold onDelete at h
    unfold pOnDelete
    by_cases hA : inAll = true
    · rw [if_pos hA] at h ⊢
      cases h
      obtain ⟨pw', a1, a2⟩ := sim_delete s
      exact ⟨pw', a1, a2, List.Subset.refl _⟩
    rw [if_neg hA] at h ⊢
    have hg : PAgg.get e.ptr pw = .ok e.val := sim_get s (i := itemOf e) (by simp)
    rw [show (cellOf (J D).view e).ptr = e.ptr from rfl]
    simp only [bind, Except.bind] at h ⊢
    rw [hg]
    simp only
    rw [s.tick]
    by_cases hD : shouldDrop E cfg e.val w.tick = true
    · rw [if_pos hD] at h ⊢
      cases h
      obtain ⟨pw', a1, a2⟩ := sim_delete (sim_ticked s)
      exact ⟨pw', a1, a2, List.Subset.refl _⟩
    rw [if_neg hD] at h ⊢
    have hI : Owns goodQ pw.ext w.ext w.cache.nextId (items w.cache ++ itemOf e :: Q) := s.inv
    have hsig : e.val.sig = e.key := hI.good (itemOf e) (by simp)
    rw [hsig] at h ⊢
    split at h
    · cases h
    rename_i w1 hins
    obtain ⟨pw1, a1, a2, a3⟩ := insert_old (del_follows E cfg inAll d) (sim_ticked s) hk hins
    rw [a1]
    simp only
    split at h
    · cases h
    rename_i v hv
    obtain ⟨i, hi, hip, hiv⟩ := deref_item hv
    have hg1 : PAgg.get e.ptr pw1 = .ok v := by
      rw [← hip, ← hiv]; exact sim_get a2 (List.mem_append_left _ hi)
    rw [hg1]
    simp only
    have hnd : ∀ x ∈ w1.cache.defer, x.ptr ≠ e.ptr := by
      intro x hx hxp
      have := notDeferred s (i := itemOf e) (.inr (by simp)) x.key
      rw [List.find?_eq_none] at this
      exact this x (a3 hx) (by simp [hxp, itemOf])
    split at h
    · rename_i hc
      rw [if_pos hc]
      cases h
      have hIg : Owns goodQ pw1.ext w1.ext w1.cache.nextId (items w1.cache ++ Q) := a2.inv
      have hvs : v.sig = i.key := by rw [← hiv]; exact hIg.good i (List.mem_append_left _ hi)
      obtain ⟨pw2, b1, _, b2⟩ := sim_put (sim_ticked a2) (i := i) hi
        ({ v with inFlight := true, lastRefresh := E.clk w1.tick }.returnRequest cfg).2
        (by show _ = _; rw [returnRequest_keeps_sig]; exact hvs)
      rw [hip] at b1 b2
      rw [a2.tick, b1]
      refine ⟨_, rfl, sim_add b2 noMerge _, ?_⟩
      show (Lru.setVal e.ptr _ w1.ticked).cache.defer ⊆ _
      rw [setVal_defer (w := w1.ticked) hnd]
      exact a3
    · rename_i hc
      rw [if_neg hc]
      cases h
      exact ⟨pw1, rfl, a2, a3⟩

theorem onDelete_all (d : Nat) : onDelete (D := D) E cfg true (d + 1) = pureDel (fun _ x => x) := by
  funext e w
  unfold onDelete pureDel
  simp

theorem pOnDelete_all (d : Nat) : pOnDelete (D := D) E cfg true (d + 1) = extDel (fun c m => m.delete c.ptr) := by
  funext c w
  unfold pOnDelete extDel PAgg.delete
  simp

theorem all_quiet : Quiet (J D) (fun _ x => x) (fun c m => m.delete c.ptr) := by
  refine ⟨?_⟩
  intro x y n l e h
  have h : Owns goodQ x y n (itemOf e :: l) := h
  exact h.delete

structure St (ps : PState D) (s : State D) : Prop where
  base : Stands (R := AllocateQuotaRequest D) goodQ ps.base s.base
  all : ps.inFlushAll = s.inFlushAll

theorem pNew_sim {d : Nat} {s : State D} (h : new E cfg d = .ok s) : ∃ ps, pNew (D := D) E cfg d = .ok ps ∧ St ps s := by
  have h0 : ∃ b, newA E cfg (onDelete (D := D) E cfg false d) cfg.flushMs false = .ok b ∧ s = ⟨b, false⟩ := by
    unfold new at h
    unfold newA
    split at h
    · rename_i hn
      rw [if_pos hn]
      simp only [bind, Except.bind] at h ⊢
      split at h
      · cases h
      · cases h; exact ⟨_, rfl, rfl⟩
    · rename_i hn
      rw [if_neg hn]
      cases h; exact ⟨_, rfl, rfl⟩
  obtain ⟨b, h1, rfl⟩ := h0
  obtain ⟨pb, a1, a2⟩ := newP_sim (del_follows E cfg false d) h1
  refine ⟨⟨pb, false⟩, ?_, a2, rfl⟩
  unfold pNew
  simp only [a1, bind, Except.bind]

variable {ps : PState D} {s s' : State D} {out : Out} {fl : List (AllocateQuotaRequest D)} {d : Nat}

theorem refresh_keeps_sig (v : Elem D) (t : Nat) : (refresh E cfg v t).1.sig = v.sig := by
  unfold refresh
  split
  · split
    · simp only; rw [returnRequest_keeps_sig]
    · rfl
  · rfl

theorem aggregate_keeps_sig {v v' : Elem D} {r : AllocateQuotaRequest D} (h : v.aggregate E r = .ok v') : v'.sig = v.sig := by
  unfold Elem.aggregate at h
  simp only [bind, Except.bind] at h
  split at h <;> split at h <;> cases h <;> rfl

theorem wrap_sim {dflt : Out} {i : Bool}
    {body : World (Slot (AllocateQuotaRequest D)) (Elem D) → Res (World (Slot (AllocateQuotaRequest D)) (Elem D) × Out)}
    {pbody : PW D → Res (PW D × Out)} (hS : Stands (R := AllocateQuotaRequest D) goodQ ps.base s.base)
    (hb : ∀ {pw : PW D} {w w' : World (Slot (AllocateQuotaRequest D)) (Elem D)} {a : Out},
      Sim (J D) [] [] pw w → body w = .ok (w', a) → ∃ pw', pbody pw = .ok (pw', a) ∧ Sim (J D) [] [] pw' w')
    (h : (do let (b, out, fl) ← withBuffer s.base dflt body; .ok (⟨b, i⟩, out, fl) :
      Res (State D × Out × List (AllocateQuotaRequest D))) = .ok (s', out, fl)) :
    ∃ ps', (do let (b, out, fl) ← withBufferP ps.base dflt pbody; .ok (⟨b, i⟩, out, fl) :
      Res (PState D × Out × List (AllocateQuotaRequest D))) = .ok (ps', out, fl) ∧ St ps' s' := by
  simp only [bind, Except.bind] at h ⊢
  split at h
  · cases h
  rename_i z hw
  obtain ⟨b, o1, f1⟩ := z
  cases h
  obtain ⟨pb, a1, a2⟩ := buffer_sim hS hb hw
  rw [a1]
  exact ⟨_, rfl, a2, rfl⟩

theorem sim_adds {pw : PW D} {w : World (Slot (AllocateQuotaRequest D)) (Elem D)} (qs : List (AllocateQuotaRequest D)) :
    ∀ {m : Mem (AllocateQuotaRequest D) (Elem D)} {x : Slot (AllocateQuotaRequest D)},
      Sim (J D) [] [] { pw with ext := m } { w with ext := x } →
      Sim (J D) [] [] { pw with ext := qs.foldl (fun m q => m.add noMerge q) m }
        { w with ext := qs.foldl (fun x q => addRemovedItem noMerge q x) x } := by
  induction qs with
  | nil => intro m x h; exact h
  | cons q qs ih => intro m x h; exact ih (sim_add h noMerge q)

theorem pQuota_sim {r : AllocateQuotaRequest D} (hS : St ps s) (h : quota E cfg d r s = .ok (s', out, fl)) :
    ∃ ps', pQuota E cfg d r ps = .ok (ps', out, fl) ∧ St ps' s' := by
  unfold quota at h
  unfold pQuota
  split at h
  · rename_i h1
    rw [if_pos h1]
    cases h
    exact ⟨_, rfl, hS⟩
  rename_i h1
  rw [if_neg h1]
  split at h
  · rename_i h2
    rw [if_pos h2]
    cases h
    exact ⟨_, rfl, hS⟩
  rename_i h2
  rw [if_neg h2]
  rw [hS.all]
  refine wrap_sim hS.base ?_ h
  intro pw w w' a sm hb
  have DF := del_follows (D := D) E cfg s.inFlushAll d
  simp only [bind, Except.bind] at hb ⊢
  cases hl : Lru.lookup E (onDelete E cfg s.inFlushAll d) true (allocateQuotaSig cfg.H r) w with
  | error e => rw [hl] at hb; cases hb
  | ok y =>
    obtain ⟨w1, found⟩ := y
    rw [hl] at hb
    obtain ⟨pw1, b1, b2⟩ := lookup_sim DF sm hl
    rw [b1]
    have hlc := lookup_cases hl
    cases found with
    | none =>
      simp only [Option.map_none] at hb ⊢
      split at hb
      · cases hb
      · rename_i w2 hi
        obtain ⟨pw2, pw3, c1, c2, c3⟩ := insert_new DF (sim_ticked b2) hlc rfl hi
        rw [b2.tick, c1]
        simp only
        rw [c2]
        simp only
        split at hb
        · cases hb
        · rename_i v hv
          cases hb
          have c4 := sim_add c3 noMerge r
          obtain ⟨i, hi, hip, hiv⟩ := deref_item hv
          have hg1 : PAgg.get w1.ticked.cache.nextId (PAgg.add noMerge r pw3) = .ok v := by
            rw [show w1.ticked.cache.nextId = i.ptr from hip.symm, ← hiv]
            exact sim_get c4 (List.mem_append_left _ hi)
          rw [hg1]
          exact ⟨_, rfl, c4⟩
    | some e =>
      obtain ⟨he, hk⟩ := hlc
      simp only [Option.map_some] at hb ⊢
      have hIg : Owns goodQ pw1.ext w1.ext w1.cache.nextId (items w1.cache ++ []) := b2.inv
      have hei : itemOf e ∈ items w1.cache := List.mem_map.mpr ⟨e, List.mem_append_left _ he, rfl⟩
      have hes : e.val.sig = e.key := hIg.good (itemOf e) (List.mem_append_left _ hei)
      have hg : PAgg.get e.ptr pw1 = .ok e.val := sim_get b2 (i := itemOf e) (List.mem_append_left _ hei)
      rw [hg]
      simp only
      rw [b2.tick]
      have hrs := refresh_keeps_sig (E := E) (cfg := cfg) e.val w1.tick
      generalize refresh E cfg e.val w1.tick = rf at hb hrs ⊢
      obtain ⟨v, t, qs⟩ := rf
      simp only at hb hrs ⊢
      have b3 := sim_adds (pw := pw1) (w := w1) qs b2
      have tail : ∀ {v1 : Elem D} {w2 : World (Slot (AllocateQuotaRequest D)) (Elem D)}, v1.sig = e.key →
          Lru.release E (onDelete E cfg s.inFlushAll d) true (allocateQuotaSig cfg.H r) e.ptr
            { Lru.setVal e.ptr v1 { w1 with ext := qs.foldl (fun x q => addRemovedItem noMerge q x) w1.ext } with tick := t }
            = .ok w2 → ∃ pw2 pw3, PAgg.put e.ptr v1 { pw1 with ext := qs.foldl (fun m q => m.add noMerge q) pw1.ext } = .ok pw2 ∧
              Ptr.release E (pOnDelete E cfg s.inFlushAll d) true (allocateQuotaSig cfg.H r) e.ptr { pw2 with tick := t }
                = .ok pw3 ∧ Sim (J D) [] [] pw3 w2 := by
        intro v1 w2 hv1 hr
        obtain ⟨pw2, pw3, _, c2, c3, _, c4, c5⟩ := write_release DF b3 he hv1 hr
        exact ⟨pw2, pw3, c2, c4, c5⟩
      by_cases hpos : v.positive
      · rw [if_pos hpos] at hb ⊢
        split at hb
        · cases hb
        rename_i v1 hag
        split at hb
        · cases hb
        rename_i w2 hr
        cases hb
        obtain ⟨pw2, pw3, c2, c4, c5⟩ := tail ((aggregate_keeps_sig hag).trans (hrs.trans hes)) hr
        rw [b2.tick] at c2
        rw [c2]
        simp only
        rw [c4]
        exact ⟨_, rfl, c5⟩
      · rw [if_neg hpos] at hb ⊢
        split at hb
        · cases hb
        rename_i w2 hr
        cases hb
        obtain ⟨pw2, pw3, c2, c4, c5⟩ := tail (hrs.trans hes) hr
        rw [b2.tick] at c2
        rw [c2]
        simp only
        rw [c4]
        exact ⟨_, rfl, c5⟩

theorem pCacheResponse_sim {r : AllocateQuotaRequest D} {resp : AllocateQuotaResponse} (hS : St ps s)
    (h : cacheResponse E cfg d r resp s = .ok (s', out, fl)) :
    ∃ ps', pCacheResponse E cfg d r resp ps = .ok (ps', out, fl) ∧ St ps' s' := by
  unfold cacheResponse at h
  unfold pCacheResponse
  rw [hS.all]
  refine wrap_sim hS.base ?_ h
  intro pw w w' a sm hb
  have DF := del_follows (D := D) E cfg s.inFlushAll d
  simp only [bind, Except.bind] at hb ⊢
  cases hl : Lru.lookup E (onDelete E cfg s.inFlushAll d) true (allocateQuotaSig cfg.H r) w with
  | error e => rw [hl] at hb; cases hb
  | ok y =>
    obtain ⟨w1, found⟩ := y
    rw [hl] at hb
    obtain ⟨pw1, b1, b2⟩ := lookup_sim DF sm hl
    rw [b1]
    have hlc := lookup_cases hl
    cases found with
    | none => cases hb; exact ⟨_, rfl, b2⟩
    | some e =>
      obtain ⟨he, hk⟩ := hlc
      simp only [Option.map_some] at hb ⊢
      split at hb
      · cases hb
      · rename_i w2 hr
        cases hb
        have hIg : Owns goodQ pw1.ext w1.ext w1.cache.nextId (items w1.cache ++ []) := b2.inv
        have hei : itemOf e ∈ items w1.cache := List.mem_map.mpr ⟨e, List.mem_append_left _ he, rfl⟩
        have hes : e.val.sig = e.key := hIg.good (itemOf e) (List.mem_append_left _ hei)
        obtain ⟨pw2, pw3, c1, c2, c3, _, c4, c5⟩ := write_release (t := w1.tick) DF b2 he
          (show ({ e.val with inFlight := false }.setResponse resp).sig = e.key from hes) hr
        rw [c1]
        simp only
        rw [c2]
        simp only
        rw [show w1.tick = pw2.tick by rw [c3, b2.tick]] at c4
        rw [c4]
        exact ⟨_, rfl, c5⟩

theorem pFlush_sim (hS : St ps s) (h : flush E cfg d s = .ok (s', out, fl)) :
    ∃ ps', pFlush E cfg d ps = .ok (ps', out, fl) ∧ St ps' s' := by
  unfold flush at h
  unfold pFlush
  rw [hS.all]
  refine wrap_sim hS.base ?_ h
  intro pw w w' a sm hb
  simp only [bind, Except.bind] at hb ⊢
  split at hb
  · cases hb
  · rename_i w1 hr
    cases hb
    obtain ⟨pw1, b1, b2⟩ := removeExpired_sim (del_follows E cfg s.inFlushAll d) sm hr
    rw [b1]
    exact ⟨_, rfl, b2⟩

theorem pFlushAll_sim (hS : St ps s) (h : flushAll E cfg (d + 1) s = .ok (s', out, fl)) :
    ∃ ps', pFlushAll E cfg (d + 1) ps = .ok (ps', out, fl) ∧ St ps' s' := by
  unfold flushAll at h
  unfold pFlushAll
  refine wrap_sim hS.base ?_ h
  intro pw w w' a sm hb
  simp only [bind, Except.bind] at hb ⊢
  split at hb
  · cases hb
  · rename_i w1 hr
    cases hb
    rw [onDelete_all] at hr
    obtain ⟨pw1, b1, b2⟩ := removeAll_sim all_quiet sm hr
    rw [pOnDelete_all, b1]
    exact ⟨_, rfl, b2⟩

end Verif.Quota
