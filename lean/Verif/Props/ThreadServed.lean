import Verif.Props.ThreadExpiry
/-
Checks answered from the cache while other threads use the client.
-/
set_option linter.unusedSectionVars false
namespace Verif.Check
open Lru
variable {D : Type} [DoubleOps D] {E : Env} {cfg : AggConfig} {h h0 : Hist D} {s s0 s' : AggState (Elem D)} {k : Bytes}

/-- What is cached was stored. -/
theorem stored_before (r : Reach E cfg h s) (hk : k ∈ cachedSigs s) : ∃ ev ∈ h, ∃ q p, ev.call = .cacheResponse q p ∧ checkRequestSig cfg.H q = k := by
  cases hc : s.cache with
  | none => simp [cachedSigs, hc] at hk
  | some c =>
    obtain ⟨_, L, q, ha, _⟩ := r.inv.some c hc
    rw [cachedSigs_eq hc q] at hk
    obtain ⟨x, hx, rfl⟩ := List.mem_map.mp hk
    obtain ⟨ev, h1, q, h2, h3⟩ := Threads.lastCached_mem (ha.ent x hx).cached
    exact ⟨ev, h1, q, _, h2, h3⟩


theorem find_new {P : Event D → Bool} {new : Hist D} (hn : ∃ ev ∈ new, P ev = true) {ev : Event D} (h : (new ++ h0).find? P = some ev) : ev ∈ new := by
  obtain ⟨e, he, hp⟩ := hn
  rw [List.find?_append] at h
  cases hf : new.find? P with
  | none =>
    have := List.find?_eq_none.mp hf e he
    rw [hp] at this
    exact absurd rfl this
  | some e' =>
    rw [hf] at h
    cases h
    exact List.mem_of_find?_eq_some hf

/-- A response stored since `h0` is still cached if since then the expiration time has not passed, there was no `FlushAll`, and no more signatures were
ever stored than the cache has room for. -/
theorem stays_cached (m : Mono E.clk) (hpos : 0 < cfg.numEntries) {sigs : List Bytes} (hlen : (sigs.length : Int) ≤ cfg.numEntries) {t0 : Nat} :
    ∀ {new : Hist D} {s}, Reach E cfg (new ++ h0) s → (∀ ev ∈ new, ev.call ≠ .flushAll) → (∀ ev ∈ new, t0 ≤ ev.first) →
    (∃ ev ∈ new, ∃ q p, ev.call = .cacheResponse q p ∧ checkRequestSig cfg.H q = k) →
    (∀ ev ∈ new ++ h0, ∀ q p, ev.call = .cacheResponse q p → checkRequestSig cfg.H q ∈ sigs) →
    (cfg.expirationMs < 0 ∨ E.clk s.tick - E.clk t0 ≤ cfg.cyc cfg.expirationMs.toNat) → k ∈ cachedSigs s := by
  intro new
  induction new with
  | nil => intro s _ _ _ h; obtain ⟨_, h, _⟩ := h; cases h
  | cons ev t ih =>
    intro s r hno hfirst hst hsigs hexp
    have r' := r
    rw [List.cons_append] at r
    generalize he : (ev :: (t ++ h0) : Hist D) = hh at r
    cases r with
    | init h0 => cases he
    | call r2 hs =>
      rename_i h2 s2 c2 out2 fl2
      simp only [List.cons.injEq] at he
      obtain ⟨rfl, rfl⟩ := he
      have htick := step_tick r2 hs
      by_cases hthis : ∃ q p, c2 = .cacheResponse q p ∧ checkRequestSig cfg.H q = k
      · obtain ⟨q, p, rfl, hk⟩ := hthis
        rw [← hk]
        exact (C66_stored r2 hpos q p hs).1
      · have hst' : ∃ ev ∈ t, ∃ q p, ev.call = .cacheResponse q p ∧ checkRequestSig cfg.H q = k := by
          obtain ⟨ev, hev, hq⟩ := hst
          rcases List.mem_cons.mp hev with rfl | hev
          · exact absurd hq hthis
          · exact ⟨ev, hev, hq⟩
        have hexp' : cfg.expirationMs < 0 ∨ E.clk s2.tick - E.clk t0 ≤ cfg.cyc cfg.expirationMs.toNat := by
          rcases hexp with hx | hx
          · exact .inl hx
          · have := m.le htick
            right; omega
        have hin := ih r2 (fun e he => hno e (List.mem_cons_of_mem _ he)) (fun e he => hfirst e (List.mem_cons_of_mem _ he)) hst'
          (fun e he => hsigs e (List.mem_cons_of_mem _ he)) hexp'
        have hlive : Live E cfg k (t ++ h0) s2.tick := by
          rcases hexp' with hx | hx
          · exact .inl hx
          · right
            intro ev i hu hr
            have hmem : ev ∈ t := find_new (P := fun ev => decide (Uses cfg k ev.call)) (by
              obtain ⟨ev, hev, q, p, h1, h2⟩ := hst'
              exact ⟨ev, hev, by rw [h1]; exact decide_eq_true h2⟩) hu
            have h1 := hfirst ev (List.mem_cons_of_mem _ hmem)
            have h2 := m.le (Nat.le_trans h1 hr.1)
            omega
        by_cases hout : k ∈ cachedSigs s
        · exact hout
        · exfalso
          rcases C66_evicted_only r2 c2 hs k hin hlive hout with h1 | ⟨q, p, h1, h2, h3, _⟩
          · exact hno _ List.mem_cons_self h1
          · have hsub : ∀ k' ∈ k :: cachedSigs s, k' ∈ sigs := by
              intro k' hk'
              rcases List.mem_cons.mp hk' with rfl | hk'
              · obtain ⟨ev, hev, q, p, g1, rfl⟩ := hst'
                exact hsigs ev (List.mem_cons_of_mem _ (List.mem_append_left _ hev)) q p g1
              · obtain ⟨ev, hev, q, p, g1, rfl⟩ := stored_before r' hk'
                exact hsigs ev hev q p g1
            have hnd : (k :: cachedSigs s).Nodup := List.nodup_cons.mpr ⟨hout, (C37_bounded r').1⟩
            have := (hnd.subperm hsub).length_le
            simp only [List.length_cons] at this
            omega

/-- A check of such a signature is answered from the cache within the flush interval. -/
theorem served_from (m : Mono E.clk) {t0 : Nat} {new : Hist D} {q : CheckRequest D} {out : Out} {fl : List (CheckRequest D)} (r : Reach E cfg (new ++ h0) s)
    (hca : Cacheable cfg q) (hin : checkRequestSig cfg.H q ∈ cachedSigs s) (hfirst : ∀ ev ∈ new, t0 ≤ ev.first)
    (hst : ∃ ev ∈ new, ∃ q' p, ev.call = .cacheResponse q' p ∧ checkRequestSig cfg.H q' = checkRequestSig cfg.H q)
    (hs : step E cfg (.check q) s = .ok (s', out, fl))
    (hexp : cfg.expirationMs < 0 ∨ E.clk s.tick - E.clk t0 ≤ cfg.cyc cfg.expirationMs.toNat) (hfl : E.clk s'.tick - E.clk t0 < 1000 * cfg.flushMs) :
    out.status = .ok ∧ out.response = lastCached cfg.H (checkRequestSig cfg.H q) (new ++ h0) := by
  refine C66_served r q hca hin ?_ hs ?_
  · rcases hexp with hx | hx
    · exact .inl hx
    · right
      intro ev i hu hr
      have hmem : ev ∈ new := find_new (P := fun ev => decide (Uses cfg (checkRequestSig cfg.H q) ev.call)) (by
        obtain ⟨ev, hev, q, p, h1, h2⟩ := hst
        exact ⟨ev, hev, by rw [h1]; exact decide_eq_true h2⟩) hu
      have h2 := m.le (Nat.le_trans (hfirst ev hmem) hr.1)
      omega
  · intro ev i j hu hr hj hj'
    have hmem : ev ∈ new := find_new (P := fun ev => decide (Refreshes cfg (checkRequestSig cfg.H q) ev)) (by
      obtain ⟨ev, hev, q, p, h1, h2⟩ := hst
      refine ⟨ev, hev, decide_eq_true ⟨by rw [h1]; exact h2, ?_⟩⟩
      rintro ⟨_, h3⟩
      rw [h1] at h3; cases h3) hu
    have h2 := m.le (Nat.le_trans (hfirst ev hmem) hr.1)
    have h3 := m.le (Nat.le_of_lt hj')
    omega

end Verif.Check

namespace Verif.Threads
open Client Lru
variable {D : Type} [DoubleOps D] {K : Setup} {stops : Bool} {s s0 s1 s2 s' : Sys D} {k : Bytes}

/-- The completion of a check stores the response. -/
theorem exec_fin {p : Pend D} {b : Answer} {q : CheckRequest D} {i : Nat} {new : List (Act D)} (h : exec K stops (.fin p b) s = some (.ok (s', new)))
    (h1 : p.req = .check q) (h2 : p.by_ = some i) (h3 : b.status = .ok) :
    ∃ out fl, Check.step K.envC K.cfgC (.cacheResponse q b.check) s.c.check = .ok (s'.c.check, out, fl) := by
  simp only [exec, Option.some.injEq] at h
  unfold runFin at h
  rw [h1, h2] at h
  simp only [h3, if_true, bind, Except.bind] at h
  split at h
  · cases h
  · split at h
    · cases h
    · rename_i hg
      cases h
      obtain ⟨a, rs, e, _, g⟩ := aggC_ok hg
      rw [e]
      exact ⟨_, rs, g⟩

/-- What a piece of code asks the check aggregator. -/
theorem exec_asks {a : Act D} {new R : List (Act D)} {h : Check.Hist D} (i : Inv (a :: R) s) (hex : exec K stops a s = some (.ok (s', new)))
    (rc : Check.Reach K.envC K.cfgC h s.c.check) :
    s'.dying = s.dying ∧ s.c.check.tick ≤ s'.c.check.tick ∧ ∃ evl : Check.Hist D, Check.Reach K.envC K.cfgC (evl ++ h) s'.c.check ∧
      (∀ ev ∈ evl, Asks D a ev.call ∧ ev.first = s.c.check.tick) ∧
      ∀ p b q i, a = .fin p b → p.req = .check q → p.by_ = some i → b.status = .ok → ∃ ev ∈ evl, ev.call = .cacheResponse q b.check := by
  obtain ⟨hd, hc⟩ := exec_check i hex
  refine ⟨hd, ?_⟩
  by_cases hfin : ∃ p b q i, a = .fin p b ∧ p.req = .check q ∧ p.by_ = some i ∧ b.status = .ok
  · obtain ⟨p, b, q, i, rfl, h1, h2, h3⟩ := hfin
    obtain ⟨out, fl, hs⟩ := exec_fin hex h1 h2 h3
    refine ⟨Check.step_tick rc hs, [_], rc.call hs, ?_, ?_⟩
    · intro ev hev
      rw [List.mem_singleton] at hev; subst hev
      exact ⟨.fin h1 h2 h3, rfl⟩
    · intro p' b' q' i' e g1 _ _
      cases e
      rw [h1] at g1
      cases g1
      exact ⟨_, List.mem_singleton_self _, rfl⟩
  · have hno : ∀ evl : Check.Hist D, ∀ p b q i, a = .fin p b → p.req = .check q → p.by_ = some i → b.status = .ok → ∃ ev ∈ evl, ev.call = .cacheResponse q b.check :=
      fun _ p b q i h1 h2 h3 h4 => absurd ⟨p, b, q, i, h1, h2, h3, h4⟩ hfin
    rcases hc with hc | ⟨x, out, fl, h1, h2⟩
    · refine ⟨by rw [hc], [], by rw [hc]; exact rc, by simp, hno _⟩
    · refine ⟨Check.step_tick rc h2, [_], rc.call h2, ?_, hno _⟩
      intro ev hev
      rw [List.mem_singleton] at hev; subst hev
      exact ⟨h1, rfl⟩

theorem destroy_dying {A : List (Act D)} {n : Nat} (i : Inv A s) (h : .destroy n ∈ A) : s.dying = true := by
  have h1 := i.life.destr
  have h2 : 0 < A.countP Act.isDestroy := List.countP_pos_iff.mpr ⟨_, h, rfl⟩
  rw [h1] at h2
  split at h2
  · rename_i h3
    rw [Bool.and_eq_true] at h3
    exact h3.1
  · omega

/-- What the check aggregator was asked since `s0`: no `FlushAll` before the destruction, and to store the responses that transports have delivered, each once
its completion callback has got so far. -/
theorem later_stored {h0 : Check.Hist D} (i0 : Reach K stops s0) (r0 : Check.Reach K.envC K.cfgC h0 s0.c.check) (l : Later K stops s0 s) :
    ∃ new post, s.c.trace = s0.c.trace ++ post ∧ Check.Reach K.envC K.cfgC (new ++ h0) s.c.check ∧ s0.c.check.tick ≤ s.c.check.tick ∧
      (∀ ev ∈ new, s0.c.check.tick ≤ ev.first) ∧ (∀ ev ∈ new, ev.call = .flushAll → s.dying = true) ∧
      (∀ ev ∈ new, ∀ r p, ev.call = .cacheResponse r p → ∃ id i a, Ev.completed id (some i) (.check r) a ∈ s.c.trace ∧ a.status = .ok) ∧
      ∀ id i q a, Ev.completed id (some i) (.check q) a ∈ post → a.status = .ok →
        (∃ p, p.id = id ∧ p.by_ = some i ∧ p.req = .check q ∧ .fin p a ∈ s.acts) ∨ ∃ ev ∈ new, ev.call = .cacheResponse q a.check := by
  induction l with
  | refl => exact ⟨[], [], by simp, r0, Nat.le_refl _, by simp, by simp, by simp, by simp⟩
  | step l hs ih =>
    rename_i sa sb
    obtain ⟨new, post, ht, rc, htick, hfirst, hall, hstore, hk⟩ := ih
    have ra := Later.reach i0 l
    have out : ∀ {l1 l2 : List (List (Act D))} {t : List (Act D)} (nw : List (Act D)) (evs : List (Ev D)), sa.threads = l1 ++ t :: l2 → sb.threads = l1 ++ (nw ++ t) :: l2 →
        sb.c.check = sa.c.check → sb.c.trace = sa.c.trace ++ evs → (sa.dying = true → sb.dying = true) →
        (∀ id i q a, Ev.completed id (some i) (.check q) a ∈ evs → ∃ p, p.id = id ∧ p.by_ = some i ∧ p.req = .check q ∧ .fin p a ∈ nw) →
        ∃ new post, sb.c.trace = s0.c.trace ++ post ∧ Check.Reach K.envC K.cfgC (new ++ h0) sb.c.check ∧ s0.c.check.tick ≤ sb.c.check.tick ∧
          (∀ ev ∈ new, s0.c.check.tick ≤ ev.first) ∧ (∀ ev ∈ new, ev.call = .flushAll → sb.dying = true) ∧
          (∀ ev ∈ new, ∀ r p, ev.call = .cacheResponse r p → ∃ id i a, Ev.completed id (some i) (.check r) a ∈ sb.c.trace ∧ a.status = .ok) ∧
          ∀ id i q a, Ev.completed id (some i) (.check q) a ∈ post → a.status = .ok →
            (∃ p, p.id = id ∧ p.by_ = some i ∧ p.req = .check q ∧ .fin p a ∈ sb.acts) ∨ ∃ ev ∈ new, ev.call = .cacheResponse q a.check := by
      intro l1 l2 t nw evs h1 h2 h3 h4 h5 h6
      have hm : ∀ x, x ∈ sb.acts ↔ x ∈ nw ∨ x ∈ sa.acts := by
        intro x
        unfold Sys.acts
        rw [h1, h2, ← List.mem_append]
        exact acts_push.mem_iff
      refine ⟨new, post ++ evs, by rw [h4, ht, List.append_assoc], by rw [h3]; exact rc, by rw [h3]; exact htick, hfirst,
        fun ev hev hc => h5 (hall ev hev hc), fun ev hev r p hc => ?_, fun id i q a hcm hok => ?_⟩
      · obtain ⟨id, i, a, g1, g2⟩ := hstore ev hev r p hc
        exact ⟨id, i, a, by rw [h4]; exact List.mem_append_left _ g1, g2⟩
      · rcases List.mem_append.mp hcm with hcm | hcm
        · rcases hk id i q a hcm hok with ⟨p, g1, g2, g3, g4⟩ | g
          · exact .inl ⟨p, g1, g2, g3, (hm _).mpr (.inr g4)⟩
          · exact .inr g
        · obtain ⟨p, g1, g2, g3, g4⟩ := h6 id i q a hcm
          exact .inl ⟨p, g1, g2, g3, (hm _).mpr (.inl g4)⟩
    cases hs with
    | work hth hex =>
      rename_i l1 a t l2 s' nw
      have hperm : (a :: (t ++ (l1 ++ l2).flatten)).Perm sa.acts := by
        unfold Sys.acts; rw [hth]
        exact (acts_at (t := a :: t)).symm
      have hperm' : (nw ++ (t ++ (l1 ++ l2).flatten)).Perm (l1 ++ (nw ++ t) :: l2).flatten := by
        refine List.Perm.symm (acts_at.trans ?_)
        rw [List.append_assoc]
      have hinv : Inv (a :: (t ++ (l1 ++ l2).flatten)) sa := ra.inv.perm hperm
      obtain ⟨evs, hevs, hlog⟩ := exec_trace hex
      obtain ⟨hd, htk, evl, rc', hasks, hfin⟩ := exec_asks hinv hex rc
      have hamem : a ∈ sa.acts := hperm.mem_iff.mp List.mem_cons_self
      rw [← List.append_assoc] at rc'
      refine ⟨evl ++ new, post ++ evs, by show s'.c.trace = _; rw [hevs, ht, List.append_assoc], rc', Nat.le_trans htick htk, ?_, ?_, ?_, ?_⟩
      · intro ev hev
        rcases List.mem_append.mp hev with hev | hev
        · rw [(hasks ev hev).2]; exact htick
        · exact hfirst ev hev
      · intro ev hev hc
        show s'.dying = true
        rw [hd]
        rcases List.mem_append.mp hev with hev | hev
        · have := (hasks ev hev).1
          rw [hc] at this
          cases this
          exact destroy_dying ra.inv hamem
        · exact hall ev hev hc
      · intro ev hev r p hc
        show ∃ id i a, _ ∈ s'.c.trace ∧ _
        rw [hevs]
        rcases List.mem_append.mp hev with hev | hev
        · have := (hasks ev hev).1
          rw [hc] at this
          cases this with
          | fin g1 g2 g3 =>
            rename_i p b i
            have g4 := ra.inv.acts _ hamem
            simp only [Act.Ok, g1, g2] at g4
            exact ⟨p.id, i, b, List.mem_append_left _ g4, g3⟩
        · obtain ⟨id, i, a, g1, g2⟩ := hstore ev hev r p hc
          exact ⟨id, i, a, List.mem_append_left _ g1, g2⟩
      · intro id i q b hcm hok
        rcases List.mem_append.mp hcm with hcm | hcm
        · rcases hk id i q b hcm hok with ⟨p, g1, g2, g3, g4⟩ | ⟨ev, g1, g2⟩
          · rcases List.mem_cons.mp (hperm.mem_iff.mpr g4) with g5 | g5
            · obtain ⟨ev, g6, g7⟩ := hfin p b q i g5.symm g3 g2 hok
              exact .inr ⟨ev, List.mem_append_left _ g6, g7⟩
            · exact .inl ⟨p, g1, g2, g3, hperm'.mem_iff.mp (List.mem_append_right _ g5)⟩
          · exact .inr ⟨ev, List.mem_append_right _ g1, g2⟩
        · exact (hlog _ hcm).elim
    | @call l1 t l2 c tr hth hfree hdy => exact out [.start sa.c.calls c (present K c tr)] [_] hth rfl rfl rfl id (by simp)
    | @sync l1 t l2 c hth hfree hdy =>
      exact out [.start sa.c.calls c (present K c .default), .wait sa.c.calls] [_] hth rfl rfl rfl id (by simp)
    | @complete l1 t l2 id a p c' hth hfree htake =>
      unfold Client.take at htake
      split at htake
      · cases htake
      · rename_i q hq
        cases htake
        refine out [.fin p a] [_] hth rfl rfl rfl _root_.id ?_
        intro id' i q b hm
        rw [List.mem_singleton] at hm
        simp only [Ev.completed.injEq] at hm
        obtain ⟨rfl, g2, g3, rfl⟩ := hm
        have g1 := List.find?_some hq
        exact ⟨p, by simpa using g1, g2.symm, g3.symm, List.mem_singleton_self _⟩
    | @fire l1 t l2 hth hfree htm => exact out [.timer 0] [_] hth rfl rfl rfl id (by simp)
    | @destroy l1 t l2 hth hfree hdy hapi => exact out [.destroy 0] [] hth rfl rfl (by simp) (fun _ => rfl) (by simp)
    | spawn =>
      have hm : ({ sa with threads := sa.threads ++ [[]] } : Sys D).acts = sa.acts := by simp [Sys.acts]
      refine ⟨new, post, ht, rc, htick, hfirst, hall, hstore, ?_⟩
      rw [hm]; exact hk

/-- What is done about a call is what the cache has answered. -/
theorem exec_result {a : Act D} {new : List (Act D)} {j : Nat} {c : Client.Call D} {st : Status} {reply : Reply} (h : exec K stops a s = some (.ok (s', new)))
    (hm : .result j c st reply ∈ new) :
    a = .agg j c ∧ ∀ q, c = .check q → ∃ out fl, Check.step K.envC K.cfgC (.check q) s.c.check = .ok (s'.c.check, out, fl) ∧ out.status = st := by
  have fC : ∀ {x s s' out fl}, aggC K x s = .ok (s', out, fl) → .result j c st reply ∉ fl := by
    intro x s s' out fl h hm
    obtain ⟨_, rs, _, rfl, _⟩ := aggC_ok h
    obtain ⟨_, _, g⟩ := List.mem_map.mp hm; cases g
  have fQ : ∀ {x s s' out fl}, aggQ K x s = .ok (s', out, fl) → .result j c st reply ∉ fl := by
    intro x s s' out fl h hm
    obtain ⟨_, rs, _, rfl, _⟩ := aggQ_ok h
    obtain ⟨_, _, g⟩ := List.mem_map.mp hm; cases g
  have fR : ∀ {x s s' out fl}, aggR K x s = .ok (s', out, fl) → .result j c st reply ∉ fl := by
    intro x s s' out fl h hm
    obtain ⟨_, rs, _, rfl, _⟩ := aggR_ok h
    obtain ⟨_, _, g⟩ := List.mem_map.mp hm; cases g
  cases a with
  | agg i x =>
    simp only [exec, this, Option.some.injEq] at h
    split at h
    · cases h
    · cases x with
      | check r =>
        simp only [runCall, bind, Except.bind] at h
        split at h
        · cases h
        · rename_i hg
          cases h
          rcases List.mem_append.mp hm with hm | hm
          · exact absurd hm (fC hg)
          · rw [List.mem_singleton] at hm
            simp only [Act.result.injEq] at hm
            obtain ⟨rfl, rfl, hst, _⟩ := hm
            refine ⟨rfl, fun q hq => ?_⟩
            cases hq
            obtain ⟨b, rs, e, _, g⟩ := aggC_ok hg
            rw [e]
            exact ⟨_, rs, g, hst.symm⟩
      | quota r =>
        simp only [runCall, bind, Except.bind] at h
        split at h
        · cases h
        · rename_i hg
          cases h
          rcases List.mem_append.mp hm with hm | hm
          · exact absurd hm (fQ hg)
          · rw [List.mem_singleton] at hm
            simp only [Act.result.injEq] at hm
            obtain ⟨rfl, rfl, hst, _⟩ := hm
            exact ⟨rfl, fun q hq => by cases hq⟩
      | report r =>
        simp only [runCall, bind, Except.bind] at h
        split at h
        · cases h
        · rename_i hg
          cases h
          rcases List.mem_append.mp hm with hm | hm
          · exact absurd hm (fR hg)
          · rw [List.mem_singleton] at hm
            simp only [Act.result.injEq] at hm
            obtain ⟨rfl, rfl, hst, _⟩ := hm
            exact ⟨rfl, fun q hq => by cases hq⟩
  | fin p a =>
    simp only [exec, Option.some.injEq] at h
    unfold runFin at h
    simp only [bind, Except.bind] at h
    repeat' split at h
    all_goals first | (cases h; done) | (cases h; simp at hm; done) | skip
    all_goals
      rename_i hv
      cases h
      rcases List.mem_append.mp hm with hm | hm
      · first | exact absurd hm (fC hv) | exact absurd hm (fQ hv)
      · simp at hm
  | timer n =>
    simp only [exec, Option.some.injEq] at h
    unfold runTimer at h
    simp only [bind, Except.bind] at h
    repeat' split at h
    all_goals first | (cases h; done) | (cases h; simp at hm; done) | skip
    all_goals
      rename_i hv
      cases h
      rcases List.mem_append.mp hm with hm | hm
      · first | exact absurd hm (fC hv) | exact absurd hm (fQ hv) | exact absurd hm (fR hv)
      · simp at hm
  | destroy n =>
    simp only [exec] at h
    unfold runDestroy at h
    simp only [bind, Except.bind, unset] at h
    repeat' split at h
    all_goals first | (cases h; done) | (cases h; simp at hm; done) | skip
    all_goals
      rename_i hv
      simp only [Option.some.injEq] at h
      cases h
      rcases List.mem_append.mp hm with hm | hm
      · first | exact absurd hm (fC hv) | exact absurd hm (fQ hv) | exact absurd hm (fR hv)
      · simp at hm
  | free own th =>
    simp only [exec, bind, Except.bind, Option.some.injEq] at h
    split at h
    · cases h
    · split at h <;> cases h
      simp at hm
  | calling c =>
    simp only [exec, this] at h
    repeat' split at h
    all_goals first | (cases h; done) | skip
    all_goals
      simp only [Option.some.injEq, Except.ok.injEq, Prod.mk.injEq] at h
      obtain ⟨_, rfl⟩ := h
      simp at hm
  | result i c st' reply =>
    simp only [exec, this, Option.some.injEq] at h
    repeat' split at h
    all_goals first | (cases h; done) | skip
    all_goals
      simp only [Except.ok.injEq, Prod.mk.injEq] at h
      obtain ⟨_, rfl⟩ := h
      simp at hm
  | start i c t =>
    simp only [exec, this, Option.some.injEq] at h
    split at h
    · cases h
    · simp only [Except.ok.injEq, Prod.mk.injEq] at h
      obtain ⟨_, rfl⟩ := h
      split at hm <;> simp at hm
  | count i' c' xs =>
    cases xs <;> simp only [exec, this, Option.some.injEq] at h
    · cases h; simp at hm
    · split at h <;> cases h
      simp at hm
  | after k xs =>
    cases xs <;> simp only [exec, this, Option.some.injEq] at h
    · cases h; simp at hm
    · split at h <;> cases h
      simp at hm
  | finish i c st reply via =>
    simp only [exec] at h
    repeat' split at h
    all_goals first | (cases h; done) | (cases h; simp at hm)
  | wait i =>
    simp only [exec] at h
    split at h <;> cases h
    simp at hm
  | user => simp only [exec] at h; cases h; simp at hm
  | setValue i st => simp only [exec] at h; cases h; simp at hm
  | flush c =>
    simp only [exec] at h
    split at h <;> cases h
    simp at hm

theorem Later.trans {sa sb sc : Sys D} (l1 : Later K stops sa sb) (l2 : Later K stops sb sc) : Later K stops sa sc := by
  induction l2 with
  | refl => exact l1
  | step _ hs ih => exact ih.step hs

theorem Later.trace (l : Later K stops s s') : ∃ post, s'.c.trace = s.c.trace ++ post := by
  induction l with
  | refl => exact ⟨[], by simp⟩
  | step _ hs ih =>
    obtain ⟨p, hp⟩ := ih
    suffices h : ∃ evs, (_ : Sys D).c.trace = (_ : Sys D).c.trace ++ evs from by
      obtain ⟨evs, h⟩ := h
      exact ⟨p ++ evs, by rw [h, hp, List.append_assoc]⟩
    cases hs with
    | work hth hex => obtain ⟨evs, h, _⟩ := exec_trace hex; exact ⟨evs, h⟩
    | call => exact ⟨_, rfl⟩
    | sync => exact ⟨_, rfl⟩
    | complete hth hfree htake =>
      unfold Client.take at htake
      split at htake
      · cases htake
      · cases htake; exact ⟨_, rfl⟩
    | fire => exact ⟨_, rfl⟩
    | destroy => exact ⟨[], by simp⟩
    | spawn => exact ⟨[], by simp⟩

theorem Later.alive (r : Reach K stops s) (l : Later K stops s s') (h : s'.dying = false) : s.dying = false := by
  induction l with
  | refl => exact h
  | step l hs ih =>
    refine ih ?_
    have ra := Later.reach r l
    cases hs with
    | work hth hex =>
      rename_i l1 a t l2 s' nw
      have hinv : Inv (a :: (t ++ (l1 ++ l2).flatten)) _ := ra.inv.perm (by
        unfold Sys.acts; rw [hth]
        exact (acts_at (t := a :: t)).symm)
      rw [← (exec_check hinv hex).1]; exact h
    | call => exact h
    | sync => exact h
    | complete hth hfree htake => exact h
    | fire => exact h
    | destroy => cases h
    | spawn => exact h

/-- A call that the cache could answer whenever it was asked is not sent. -/
theorem never_sent {j : Nat} {q : CheckRequest D} {b : Bool} {post : List (Ev D)} (r1 : Reach K stops s1) (l : Later K stops s1 s2)
    (hpost : s2.c.trace = s1.c.trace ++ post) (hcall : Ev.called j (.check q) b ∈ post)
    (H : ∀ sa x out fl, Later K stops s1 sa → Later K stops sa s2 → x.tick ≤ s2.c.check.tick → Check.step K.envC K.cfgC (.check q) sa.c.check = .ok (x, out, fl) →
      out.status ≠ .notFound) : sends j s2.c.trace = 0 := by
  have r2 := Later.reach r1 l
  have hfresh : ∀ c b, Ev.called j c b ∉ s1.c.trace := by
    intro c b h
    have h1 := (C87_exactly_once r2 j).1
    have h2 := calls_pos h
    have h3 := calls_pos hcall
    rw [hpost] at h1
    unfold calls at h1 h2 h3
    rw [List.countP_append] at h1
    omega
  suffices key : ∀ sb, Later K stops s1 sb → Later K stops sb s2 → sends j sb.c.trace = 0 ∧ ∀ c reply, .result j c .notFound reply ∉ sb.acts from
    (key s2 l .refl).1
  have hopen : ∀ {sb : Sys D}, Reach K stops sb → ∀ c, (∃ a ∈ sb.acts, (j, c, true) ∈ a.opens) → ∃ b, Ev.called j c b ∈ sb.c.trace := by
    intro sb rb c ⟨a, ha, ho⟩
    exact rb.inv.books.openOk j c true (List.mem_flatMap.mpr ⟨a, ha, ho⟩)
  intro sb l1
  induction l1 with
  | refl =>
    intro _
    refine ⟨?_, fun c reply hm => ?_⟩
    · rcases Nat.eq_zero_or_pos (sends j s1.c.trace) with h | h
      · exact h
      · exfalso
        obtain ⟨id, c, h1⟩ := sends_pos h
        obtain ⟨t, h2⟩ := r1.inv.books.byOk _ _ _ h1
        exact hfresh _ _ h2
    · obtain ⟨t, h2⟩ := hopen r1 c ⟨_, hm, List.mem_singleton_self _⟩
      exact hfresh _ _ h2
  | step la hs ih =>
    rename_i sa sb
    intro lb
    obtain ⟨ih1, ih2⟩ := ih (Later.trans (Later.refl.step hs) lb)
    have ra := Later.reach r1 la
    have out : ∀ {l1 l2 : List (List (Act D))} {t : List (Act D)} (nw : List (Act D)) (evs : List (Ev D)), sa.threads = l1 ++ t :: l2 → sb.threads = l1 ++ (nw ++ t) :: l2 →
        sb.c.trace = sa.c.trace ++ evs → sends j evs = 0 → (∀ c reply, .result j c .notFound reply ∉ nw) →
        sends j sb.c.trace = 0 ∧ ∀ c reply, .result j c .notFound reply ∉ sb.acts := by
      intro l1 l2 t nw evs h1 h2 h3 h4 h5
      have hm : ∀ x, x ∈ sb.acts ↔ x ∈ nw ∨ x ∈ sa.acts := by
        intro x
        unfold Sys.acts
        rw [h1, h2, ← List.mem_append]
        exact acts_push.mem_iff
      refine ⟨?_, fun c reply hc => ?_⟩
      · unfold sends at *
        rw [h3, List.countP_append]; omega
      · rcases (hm _).mp hc with hc | hc
        · exact h5 _ _ hc
        · exact ih2 _ _ hc
    cases hs with
    | work hth hex =>
      rename_i l1 a t l2 s' nw
      have hperm : (a :: (t ++ (l1 ++ l2).flatten)).Perm sa.acts := by
        unfold Sys.acts; rw [hth]
        exact (acts_at (t := a :: t)).symm
      have hperm' : (nw ++ (t ++ (l1 ++ l2).flatten)).Perm (l1 ++ (nw ++ t) :: l2).flatten := by
        refine List.Perm.symm (acts_at.trans ?_)
        rw [List.append_assoc]
      have hamem : a ∈ sa.acts := hperm.mem_iff.mp List.mem_cons_self
      obtain ⟨evs, hevs, hlog⟩ := exec_trace hex
      refine ⟨?_, fun c reply hc => ?_⟩
      · show sends j s'.c.trace = 0
        rcases Nat.eq_zero_or_pos (sends j s'.c.trace) with h | h
        · exact h
        · exfalso
          rw [hevs] at h
          have h1 : 0 < sends j evs := by
            unfold sends at *
            rw [List.countP_append] at h; omega
          obtain ⟨id, c, h2⟩ := sends_pos h1
          obtain ⟨reply, rfl⟩ := hlog _ h2
          exact ih2 _ _ hamem
      · rcases List.mem_append.mp (hperm'.mem_iff.mpr hc) with hc | hc
        · obtain ⟨rfl, hq⟩ := exec_result hex hc
          obtain ⟨t', ht'⟩ := hopen ra c ⟨_, hamem, List.mem_singleton_self _⟩
          have hin : ∀ e ∈ sa.c.trace, e ∈ s2.c.trace := by
            obtain ⟨p, hp⟩ := Later.trace (Later.trans (Later.refl.step (.work hth hex)) lb)
            intro e he; rw [hp]; exact List.mem_append_left _ he
          obtain ⟨rfl, _⟩ := called_unique r2 (hin _ ht') (by rw [hpost]; exact List.mem_append_right _ hcall)
          obtain ⟨o, fl, g1, g2⟩ := hq q rfl
          have rb := ra.step (.work hth hex)
          obtain ⟨_, _, _, lk⟩ := rb.links
          obtain ⟨_, _, _, _, htick, _⟩ := later_check rb (links_check lk) lb
          exact H sa _ o fl la (Later.trans (Later.refl.step (.work hth hex)) lb) htick g1 g2
        · exact ih2 _ _ (hperm.mem_iff.mp (List.mem_cons_of_mem _ hc))
    | @call l1 t l2 c tr hth hfree hdy => exact out [.start sa.c.calls c (present K c tr)] [_] hth rfl rfl rfl (by simp)
    | @sync l1 t l2 c hth hfree hdy =>
      exact out [.start sa.c.calls c (present K c .default), .wait sa.c.calls] [_] hth rfl rfl rfl (by simp)
    | @complete l1 t l2 id a p c' hth hfree htake =>
      unfold Client.take at htake
      split at htake
      · cases htake
      · cases htake
        exact out [.fin p a] [_] hth rfl rfl rfl (by simp)
    | @fire l1 t l2 hth hfree htm => exact out [.timer 0] [_] hth rfl rfl rfl (by simp)
    | @destroy l1 t l2 hth hfree hdy hapi => exact out [.destroy 0] [] hth rfl (by simp) rfl (by simp)
    | spawn =>
      have hm : ({ sa with threads := sa.threads ++ [[]] } : Sys D).acts = sa.acts := by simp [Sys.acts]
      rw [hm]
      exact ⟨ih1, ih2⟩

/-- C109: a check that a transport has answered OK is answered from the cache from then on, whatever other threads do, if the cache is large enough for all
checks answered OK, neither the expiration time nor the flush interval has passed since before the response arrived, and the destruction has
not begun: a check of the same signature and of low importance begun after the done callback of the first is not sent, and is answered OK without a transport. -/
theorem C109_served (r0 : Reach K stops s0) (l01 : Later K stops s0 s1) (l12 : Later K stops s1 s2) (hpos : 0 < K.cfgC.numEntries) (m : Mono K.envC.clk)
    {post01 post12 : List (Ev D)} (h01 : s1.c.trace = s0.c.trace ++ post01) (h12 : s2.c.trace = s1.c.trace ++ post12)
    {id i j : Nat} {q q' : CheckRequest D} {a : Answer} {st : Status} {reply : Reply} {via : Option Nat}
    (hcompl : Ev.completed id (some i) (.check q) a ∈ post01) (hok : a.status = .ok) (hdone : Ev.done i (.check q) st reply via ∈ s1.c.trace)
    (hdy : s2.dying = false) {sigs : List Bytes} (hlen : (sigs.length : Int) ≤ K.cfgC.numEntries)
    (hsigs : ∀ id i r a, Ev.completed id (some i) (.check r) a ∈ s2.c.trace → a.status = .ok → checkRequestSig K.cfgC.H r ∈ sigs)
    (hexp : K.cfgC.expirationMs < 0 ∨ K.envC.clk s2.c.check.tick - K.envC.clk s0.c.check.tick ≤ K.cfgC.cyc K.cfgC.expirationMs.toNat)
    (hfl : K.envC.clk s2.c.check.tick - K.envC.clk s0.c.check.tick < 1000 * K.cfgC.flushMs)
    (hcall : Ev.called j (.check q') true ∈ post12) (hsig : checkRequestSig K.cfgC.H q' = checkRequestSig K.cfgC.H q) (hca : Check.Cacheable K.cfgC q') :
    sends j s2.c.trace = 0 ∧ (∀ c st reply via, Ev.done j c st reply via ∈ s2.c.trace → c = .check q' ∧ st = .ok ∧ via = none) ∧
      (Rest j s2 → ∃ reply, Ev.done j (.check q') .ok reply none ∈ s2.c.trace) := by
  have r1 := Later.reach r0 l01
  have r2 := Later.reach r1 l12
  obtain ⟨hc, hq, hr, k0⟩ := r0.links
  have hns : sends j s2.c.trace = 0 := by
    refine never_sent r1 l12 h12 hcall ?_
    intro sa x out fl la lb hx hstep
    have l0a := Later.trans l01 la
    have ra := Later.reach r1 la
    obtain ⟨pb, hpb⟩ := Later.trace lb
    -- what is stored at `s1`
    obtain ⟨n1, p1, t1, c1, tk1, f1, a1, st1, w1⟩ := later_stored r0 (links_check k0) l01
    have hp1 : post01 = p1 := by
      rw [h01] at t1; exact List.append_cancel_left t1
    subst hp1
    obtain ⟨ev, hev, hevc⟩ : ∃ ev ∈ n1, ev.call = .cacheResponse q a.check := by
      rcases w1 id i q a hcompl hok with ⟨p, g1, g2, g3, g4⟩ | g
      · exfalso
        have b := r1.inv.books.account i
        have h1 : 0 < dones i s1.c.trace := List.countP_pos_iff.mpr ⟨_, hdone, by simp [Ev.doneNo]⟩
        have h2 : 0 < openN i (opensOf s1.acts) :=
          List.countP_pos_iff.mpr ⟨(i, p.req, false), List.mem_flatMap.mpr ⟨_, g4, by simp [Act.opens, openOf, g2]⟩, by simp⟩
        have h3 : issued i s1.c.calls ≤ 1 := by unfold issued; split <;> omega
        omega
      · exact g
    -- and since
    obtain ⟨n2, p2, t2, c2, tk2, f2, a2, st2, w2⟩ := later_stored r1 c1 la
    rw [← List.append_assoc] at c2
    have hda : sa.dying = false := Later.alive ra lb hdy
    have hd1 : s1.dying = false := Later.alive r1 la hda
    have hin : ∀ e, e ∈ sa.c.trace → e ∈ s2.c.trace := fun e he => by rw [hpb]; exact List.mem_append_left _ he
    have hin1 : ∀ e, e ∈ s1.c.trace → e ∈ s2.c.trace := fun e he => by rw [h12]; exact List.mem_append_left _ he
    have hin0 : ∀ e, e ∈ s0.c.trace → e ∈ s2.c.trace := fun e he => hin1 e (by rw [h01]; exact List.mem_append_left _ he)
    have hfirst : ∀ ev ∈ n2 ++ n1, s0.c.check.tick ≤ ev.first := by
      intro ev hev
      rcases List.mem_append.mp hev with hev | hev
      · exact Nat.le_trans tk1 (f2 ev hev)
      · exact f1 ev hev
    have hst : ∃ ev ∈ n2 ++ n1, ∃ r p, ev.call = .cacheResponse r p ∧ checkRequestSig K.cfgC.H r = checkRequestSig K.cfgC.H q' :=
      ⟨ev, List.mem_append_right _ hev, q, _, hevc, hsig.symm⟩
    have htick := Check.step_tick c2 hstep
    have hle := m.le (Nat.le_trans htick hx)
    have hle' := m.le hx
    have hexp' : K.cfgC.expirationMs < 0 ∨ K.envC.clk sa.c.check.tick - K.envC.clk s0.c.check.tick ≤ K.cfgC.cyc K.cfgC.expirationMs.toNat := by
      rcases hexp with h | h
      · exact .inl h
      · right; omega
    have hcached := Check.stays_cached (k := checkRequestSig K.cfgC.H q') m hpos hlen c2 (fun ev hev hc => by
        rcases List.mem_append.mp hev with hev | hev
        · have := a2 ev hev hc; rw [hda] at this; cases this
        · have := a1 ev hev hc; rw [hd1] at this; cases this) hfirst hst (fun ev hev r p hc => by
        rcases List.mem_append.mp hev with hev | hev
        · rcases List.mem_append.mp hev with hev | hev
          · obtain ⟨id, i, a, g1, g2⟩ := st2 ev hev r p hc
            exact hsigs id i r a (hin _ g1) g2
          · obtain ⟨id, i, a, g1, g2⟩ := st1 ev hev r p hc
            exact hsigs id i r a (hin1 _ g1) g2
        · obtain ⟨id, i, a, g1, g2, _⟩ := k0.cachedC ev hev r p hc
          exact hsigs id i r a (hin0 _ g1) g2) hexp'
    have := (Check.served_from m c2 hca hcached hfirst hst hstep hexp' (by omega)).1
    rw [this]
    exact Status.noConfusion
  have hcall2 : Ev.called j (.check q') true ∈ s2.c.trace := by rw [h12]; exact List.mem_append_right _ hcall
  have hnot : ¬ Refused K (.check q' : Client.Call D) := by
    rintro (h | h)
    · exact h hca.1
    · obtain ⟨o, ho, _⟩ := hca.2
      rw [h] at ho; cases ho
  have hdones : ∀ c st reply via, Ev.done j c st reply via ∈ s2.c.trace → c = .check q' ∧ st = .ok ∧ via = none := by
    intro c st reply via h
    obtain ⟨⟨t, h1⟩, h2⟩ := C87_done_reports r2 h
    obtain ⟨rfl, rfl⟩ := called_unique r2 hcall2 h1
    have hv : via = none := by
      cases via with
      | none => rfl
      | some id' =>
        exfalso
        have h3 := (h2 id' rfl).1
        have : 0 < sends j s2.c.trace := List.countP_pos_iff.mpr ⟨_, h3, by simp [Ev.sentFor]⟩
        omega
    subst hv
    refine ⟨rfl, ?_, rfl⟩
    rcases C95_local r2 h with h | ⟨_, h | h⟩
    · exact h.1
    · exact absurd h hnot
    · exact absurd (called_unique r2 hcall2 h).2 (by simp)
  refine ⟨hns, hdones, fun hrest => ?_⟩
  obtain ⟨_, _, _, h4⟩ := C87_exactly_once r2 j
  have h5 := (h4 hrest).2
  have h6 := calls_pos hcall2
  obtain ⟨c, st, reply, h7⟩ := locals_pos (i := j) (tr := s2.c.trace) (by omega)
  obtain ⟨rfl, rfl, _⟩ := hdones _ _ _ _ h7
  exact ⟨reply, h7⟩

/-! ### Example -/

/-- A clock slower than the flush interval. -/
def exKSlow : Setup := { exK with envC := Quota.exEnv }

/-- All responses that transports have delivered for calls of the user are of these signatures. -/
def OnlySigs (H : Bytes → Bytes) (sigs : List Bytes) : Ev D → Prop
  | .completed _ (some _) (.check r) a => a.status = .ok → checkRequestSig H r ∈ sigs
  | _ => True

instance (H : Bytes → Bytes) (sigs : List Bytes) (e : Ev D) : Decidable (OnlySigs H sigs e) := by
  unfold OnlySigs
  split <;> infer_instance

/-- C109: all its hypotheses hold: a check is answered by a transport; later two threads make checks at the same time, and the timer fires: the one of the
same signature is answered from the cache, the other is sent. -/
example : ∃ (s0 s1 s2 : Sys Int) (post01 post12 : List (Ev Int)) (sigs : List Bytes) (reply : Reply), Reach exKSlow true s0 ∧ Later exKSlow true s0 s1 ∧
    Later exKSlow true s1 s2 ∧ 0 < exKSlow.cfgC.numEntries ∧ Mono exKSlow.envC.clk ∧ s1.c.trace = s0.c.trace ++ post01 ∧ s2.c.trace = s1.c.trace ++ post12 ∧
    Ev.completed 0 (some 0) (exCheck 1 5) exOk ∈ post01 ∧ Ev.done 0 (exCheck 1 5) .ok reply (some 0) ∈ s1.c.trace ∧ s2.dying = false ∧
    (sigs.length : Int) ≤ exKSlow.cfgC.numEntries ∧
    (∀ id i r a, Ev.completed id (some i) (.check r) a ∈ s2.c.trace → a.status = .ok → checkRequestSig exKSlow.cfgC.H r ∈ sigs) ∧
    exKSlow.envC.clk s2.c.check.tick - exKSlow.envC.clk s0.c.check.tick ≤ exKSlow.cfgC.cyc exKSlow.cfgC.expirationMs.toNat ∧
    exKSlow.envC.clk s2.c.check.tick - exKSlow.envC.clk s0.c.check.tick < 1000 * exKSlow.cfgC.flushMs ∧
    Ev.called 2 (exCheck 1 6) true ∈ post12 ∧ checkRequestSig exKSlow.cfgC.H (Check.exReq 1 6) = checkRequestSig exKSlow.cfgC.H (Check.exReq 1 5) ∧
    Check.Cacheable exKSlow.cfgC (Check.exReq 1 6) ∧ sends 1 s2.c.trace = 1 ∧ dones 2 s2.c.trace = 1 := by
  obtain ⟨s, r, h⟩ := schedule_case (K := exKSlow) (stops := true) ([.spawn, .spawn, .call 0 (exCheck 1 5) .default] ++ steps 0 6)
    (fun s => (match ([.complete 1 0 exOk] ++ steps 1 4 : List (Move Int)).foldlM (fun s m => m.run exKSlow true s) s with
      | some s1 =>
        (match ([.call 1 (exCheck 2 6) .default, .work 1, .call 0 (exCheck 1 6) .default, .work 0, .work 1, .work 0, .work 1, .fire 1] ++ steps 0 3 :
            List (Move Int)).foldlM (fun s m => m.run exKSlow true s) s1 with
        | some s2 => decide (s1.c.trace = s.c.trace ++ s1.c.trace.drop s.c.trace.length ∧ s2.c.trace = s1.c.trace ++ s2.c.trace.drop s1.c.trace.length ∧
            Ev.completed 0 (some 0) (exCheck 1 5) exOk ∈ s1.c.trace.drop s.c.trace.length ∧
            Ev.done 0 (exCheck 1 5) .ok (.check exOk.check) (some 0) ∈ s1.c.trace ∧ s2.dying = false ∧
            (∀ e ∈ s2.c.trace, OnlySigs exKSlow.cfgC.H [checkRequestSig exKSlow.cfgC.H (Check.exReq 1 5)] e) ∧
            exKSlow.envC.clk s2.c.check.tick - exKSlow.envC.clk s.c.check.tick ≤ exKSlow.cfgC.cyc exKSlow.cfgC.expirationMs.toNat ∧
            exKSlow.envC.clk s2.c.check.tick - exKSlow.envC.clk s.c.check.tick < 1000 * exKSlow.cfgC.flushMs ∧
            Ev.called 2 (exCheck 1 6) true ∈ s2.c.trace.drop s1.c.trace.length ∧ sends 1 s2.c.trace = 1 ∧ dones 2 s2.c.trace = 1)
        | none => false)
      | none => false) = true) (by decide +kernel)
  split at h
  · rename_i s1 hs1
    split at h
    · rename_i s2 hs2
      obtain ⟨g1, g2, g3, g4, g5, g6, g7, g8, g9, g10, g11⟩ := of_decide_eq_true h
      exact ⟨s, s1, s2, _, _, [checkRequestSig exKSlow.cfgC.H (Check.exReq 1 5)], _, r, moves_later hs1, moves_later hs2, by decide, Quota.exEnv_mono, g1, g2, g3, g4, g5,
        by decide, fun id i r a hm hok => g6 _ hm hok, g7, g8, g9, by decide +kernel, by decide +kernel, g10, g11⟩
    · cases h
  · cases h

end Verif.Threads
