import Verif.Props.ThreadQuotas
import Verif.Props.ThreadTimer
import Verif.Props.QuotaTimer
/-
What the timer does to quota operations waiting in the cache of a client used by many threads.
-/
set_option linter.unusedSectionVars false
namespace Verif.Quota
open Lru
variable {D : Type} {E : Env} {cfg : AggConfig} {h h1 : Hist D} {s : State D} {k : Bytes}

/-- The call stored a response for `k`. -/
def stores (H : Bytes → Bytes) (k : Bytes) (ev : Event D) : Bool :=
  match ev.call with
  | .cacheResponse r _ => decide (allocateQuotaSig H r = k)
  | _ => false

/-- The number of responses stored for `k`. -/
def stored (H : Bytes → Bytes) (k : Bytes) (h : Hist D) : Nat := h.countP (stores H k)

/-- When no response comes before its request, requests that wait for a response have no response stored. -/
theorem waiting_le (hm : Mono E.clk) (hf : 0 < E.extraFuel) (hpos : 0 < cfg.numEntries) (r : Reach E cfg h s) (hnc : NoCollision cfg.H h)
    (hcause : ∀ h', h' <:+ h → stored cfg.H k h' ≤ (sentAll cfg.H k h').length) :
    waiting cfg.H k h + stored cfg.H k h ≤ (sentAll cfg.H k h).length := by
  induction r with
  | init h0 => exact Nat.le_refl _
  | @call h s d c s' out fl r hs ih =>
    have ih := ih hnc.tail (fun h' hh => hcause h' (hh.trans (List.suffix_cons _ _)))
    have hall := hcause _ (List.suffix_refl _)
    have hprev := hcause h (List.suffix_cons _ _)
    have hsent : (sentAll cfg.H k (evOf c s (s', out, fl) :: h)).length =
        (sentAll cfg.H k h).length + (sent cfg.H k (evOf c s (s', out, fl))).length := List.length_append
    have hst : stored cfg.H k (evOf c s (s', out, fl) :: h) = stored cfg.H k h + if stores cfg.H k (evOf c s (s', out, fl)) = true then 1 else 0 :=
      List.countP_cons
    change waiting cfg.H k (evOf c s (s', out, fl) :: h) + stored cfg.H k (evOf c s (s', out, fl) :: h) ≤ (sentAll cfg.H k (evOf c s (s', out, fl) :: h)).length
    change stored cfg.H k (evOf c s (s', out, fl) :: h) ≤ (sentAll cfg.H k (evOf c s (s', out, fl) :: h)).length at hall
    unfold waiting
    split
    · omega
    · split
      · rename_i hc
        obtain ⟨q, rfl, _⟩ := created_by hm hf hpos r hs hnc k hc
        have : stores cfg.H k (evOf (.quota q) s (s', out, fl)) = false := rfl
        rw [this] at hst
        simp only [Bool.false_eq_true, if_false] at hst
        omega
      · split
        · rename_i r' p' hcall
          split
          · omega
          · rename_i hk
            have : stores cfg.H k (evOf c s (s', out, fl)) = false := by
              unfold stores; rw [hcall]; simpa using hk
            rw [this] at hst
            simp only [Bool.false_eq_true, if_false] at hst
            omega
        · rename_i hcall
          have : stores cfg.H k (evOf c s (s', out, fl)) = false := by
            unfold stores
            split
            · rename_i r' p' hx; exact absurd hx (hcall r' p')
            · rfl
          rw [this] at hst
          simp only [Bool.false_eq_true, if_false] at hst
          omega

/-- What is pending later was pending before, or was added since. -/
theorem pending_later (t : Hist D) (hp : pending cfg k h1 = []) :
    ∃ mid, absorbed cfg k (t ++ h1) = absorbed cfg k h1 ++ mid ++ pending cfg k (t ++ h1) := by
  induction t with
  | nil => exact ⟨[], by simp [hp]⟩
  | cons e t ih =>
    obtain ⟨mid, hmid⟩ := ih
    have hab : absorbed cfg k (e :: (t ++ h1)) = absorbed cfg k (t ++ h1) ++ absorbedBy cfg k e (t ++ h1) := rfl
    rw [List.cons_append, hab, hmid]
    conv in Quota.pending cfg k (e :: _) => unfold Quota.pending
    split
    · exact ⟨mid ++ Quota.pending cfg k (t ++ h1) ++ absorbedBy cfg k e (t ++ h1), by simp⟩
    · split
      · exact ⟨mid ++ Quota.pending cfg k (t ++ h1), by simp⟩
      · exact ⟨mid, by simp⟩

/-- What was added to entries later was granted later. -/
theorem absorbed_granted (t : Hist D) {mid pend : List (QuotaOperation D)} (hr : ∀ ev ∈ t, ∀ q p, ev.call = .quota q → ev.out.response = some p → ev.out.status = .ok)
    (ha : absorbed cfg k (t ++ h1) = absorbed cfg k h1 ++ mid ++ pend) : pend.Subperm (grantedOps cfg.H k t) := by
  have key : ∀ t : Hist D, (∀ ev ∈ t, ∀ q p, ev.call = .quota q → ev.out.response = some p → ev.out.status = .ok) →
      ∃ new, absorbed cfg k (t ++ h1) = absorbed cfg k h1 ++ new ∧ new.Subperm (grantedOps cfg.H k t) := by
    intro t
    induction t with
    | nil => intro _; exact ⟨[], by simp, List.nil_subperm⟩
    | cons e t ih =>
      intro hr
      obtain ⟨new, h2, h3⟩ := ih (fun ev he => hr ev (List.mem_cons_of_mem _ he))
      have hab : absorbed cfg k (e :: (t ++ h1)) = absorbed cfg k (t ++ h1) ++ absorbedBy cfg k e (t ++ h1) := rfl
      refine ⟨new ++ absorbedBy cfg k e (t ++ h1), by rw [List.cons_append, hab, h2, List.append_assoc], ?_⟩
      unfold grantedOps
      rw [List.flatMap_cons]
      refine List.perm_append_comm.subperm.trans (List.Subperm.append (List.Sublist.subperm ?_) h3)
      unfold absorbedBy grantedBy
      cases hc : e.call with
      | quota r =>
        simp only
        cases hp : e.out.response with
        | none => exact List.Sublist.refl _
        | some p =>
          simp only
          split
          · rename_i hh
            rw [if_pos ⟨hr e List.mem_cons_self r p hc hp, hh.1, hh.2.2⟩]
          · exact List.nil_sublist _
      | _ => exact List.nil_sublist _
  obtain ⟨new, h2, h3⟩ := key t hr
  rw [h2, List.append_assoc, List.append_cancel_left_eq] at ha
  rw [ha] at h3
  exact (List.sublist_append_right _ _).subperm.trans h3

/-- A response comes with the status OK. -/
theorem responses_ok (hm : Mono E.clk) (hf : 0 < E.extraFuel) (hpos : 0 < cfg.numEntries) (r : Reach E cfg h s) :
    ∀ ev ∈ h, ∀ q p, ev.call = .quota q → ev.out.response = some p → ev.out.status = .ok := by
  induction r with
  | init h0 => intro ev he; cases he
  | @call h s d c s' out fl r hs ih =>
    intro ev he q p hc hp
    rcases List.mem_cons.mp he with rfl | he
    · simp only at hc hp
      subst hc
      exact response_ok hm hf hpos r q hs (by rw [hp]; simp)
    · exact ih ev he q p hc hp

theorem Reach.tick_eq (hpos : 0 < cfg.numEntries) (r : Reach E cfg h s) {s' : State D} (r' : Reach E cfg h s') : s.base.tick = s'.base.tick := by
  cases h with
  | cons ev h => rw [r.tick, r'.tick]
  | nil =>
    obtain ⟨t, ht⟩ := new_eq (D := D) E cfg hpos
    cases r with
    | @init s d h0 =>
      cases r' with
      | @init s' d' h0' =>
        have e1 := ht (d + 1)
        have e2 := ht (d' + 1)
        rw [h0] at e1
        rw [h0'] at e2
        simp only [Except.map, Except.ok.injEq] at e1 e2
        rw [e1, e2]

theorem tick_mono (hm : Mono E.clk) (hf : 0 < E.extraFuel) (hpos : 0 < cfg.numEntries) {a : Hist D} (r : Reach E cfg h s) {s' : State D}
    (r' : Reach E cfg (a ++ h) s') : s.base.tick ≤ s'.base.tick := by
  obtain ⟨s1, r1, l⟩ := r'.split (List.suffix_append a h)
  rw [r.tick_eq hpos r1]
  clear r'
  generalize a ++ h = hh at l
  induction l with
  | refl => exact Nat.le_refl _
  | call l hs ih =>
    have := ticks hm hf hpos ((Later.reach r1 l).call hs) _ List.mem_cons_self
    simp only at this
    omega

/-- The operation held is the sum of those pending. -/
theorem held_pending (hm : Mono E.clk) (hf : 0 < E.extraFuel) (hpos : 0 < cfg.numEntries) (r : Reach E cfg h s) (hnc : NoCollision cfg.H h) (k : Bytes) :
    match heldOf cfg k s with
    | none => pending cfg k h = []
    | some o => Sum E cfg (pending cfg k h) o := by
  obtain ⟨s0, b, rfl, _, ht⟩ := r.tok hm hf hpos
  have hh := (ht hnc k).holds
  rw [held_eq]
  cases hx : aggAt (view s0.N k) with
  | none => rw [hx] at hh; exact hh
  | some a => rw [hx] at hh; exact sum_of_aggOf hh

end Verif.Quota

namespace Verif.Threads
open Client
variable {D : Type}

/-- The event is the completion of a quota request of signature `k`. -/
def isCompleted (H : Bytes → Bytes) (k : Bytes) (e : Ev D) : Bool :=
  match e with
  | .completed _ _ (.quota r) _ => decide (allocateQuotaSig H r = k)
  | _ => false

/-- The event is the call of a transport with a quota request of signature `k`. -/
def isSent (H : Bytes → Bytes) (k : Bytes) (e : Ev D) : Bool :=
  match e with
  | .sent _ _ (.quota r) => decide (allocateQuotaSig H r = k)
  | _ => false

theorem isCompleted_cases {H : Bytes → Bytes} {k : Bytes} {e : Ev D} (h : isCompleted H k e = true) :
    ∃ id b r a, e = .completed id b (.quota r) a ∧ allocateQuotaSig H r = k := by
  unfold isCompleted at h
  split at h
  · exact ⟨_, _, _, _, rfl, by simpa using h⟩
  · cases h

theorem isSent_cases {H : Bytes → Bytes} {k : Bytes} {e : Ev D} (h : isSent H k e = true) :
    ∃ id b r, e = .sent id b (.quota r) ∧ allocateQuotaSig H r = k := by
  unfold isSent at h
  split at h
  · exact ⟨_, _, _, rfl, by simpa using h⟩
  · cases h

theorem length_ids {f : Ev D → Option Nat} {p : Ev D → Bool} : ∀ tr : List (Ev D), (∀ e, p e = true → (f e).isSome) →
    ((tr.filter p).filterMap f).length = tr.countP p
  | [], _ => rfl
  | e :: tr, h => by
    rw [List.filter_cons, List.countP_cons]
    by_cases hp : p e = true
    · obtain ⟨x, hx⟩ := Option.isSome_iff_exists.mp (h e hp)
      rw [if_pos hp, if_pos hp, List.filterMap_cons, hx, List.length_cons, length_ids tr h]
    · rw [if_neg hp, if_neg hp, length_ids tr h, Nat.add_zero]

theorem countP_completed (H : Bytes → Bytes) (k : Bytes) (tr : List (Ev D)) :
    (compsOf tr).countP (fun x => decide (allocateQuotaSig H x.1 = k)) = tr.countP (isCompleted H k) := by
  unfold compsOf
  induction tr with
  | nil => rfl
  | cons e tr ih =>
    rw [List.flatMap_cons, List.countP_append, ih, List.countP_cons]
    cases e with
    | completed id b c a =>
      cases c with
      | quota r => simp [List.countP_cons, isCompleted, Nat.add_comm]
      | _ => simp [isCompleted]
    | _ => simp [isCompleted]

theorem countP_stored (H : Bytes → Bytes) (k : Bytes) (h : Quota.Hist D) :
    (storesQ h).countP (fun x => decide (allocateQuotaSig H x.1 = k)) = Quota.stored H k h := by
  unfold Quota.stored storesQ
  induction h with
  | nil => rfl
  | cons ev h ih =>
    rw [List.flatMap_cons, List.countP_append, ih, List.countP_cons]
    unfold Quota.stores
    cases ev.call with
    | cacheResponse r p => simp only [storeQ, List.countP_cons, List.countP_nil]; omega
    | _ => simp [storeQ]

theorem countP_sent (H : Bytes → Bytes) (k : Bytes) : ∀ tr : List (Ev D), (∀ id i r, Ev.sent id (some i) (.quota r) ∉ tr) →
    tr.countP (isSent H k) = (flushedQuotas H k tr).length
  | [], _ => rfl
  | e :: tr, h => by
    have ih := countP_sent H k tr (fun id i r hm => h id i r (List.mem_cons_of_mem _ hm))
    have hcons : flushedQuotas H k (e :: tr) = flushedQuotas H k [e] ++ flushedQuotas H k tr := by
      unfold flushedQuotas
      rw [← quotasIn_append, ← List.filterMap_append]
      rfl
    rw [List.countP_cons, ih, hcons, List.length_append, Nat.add_comm]
    congr 1
    cases e with
    | sent id b c =>
      cases c with
      | quota r =>
        cases b with
        | some i => exact absurd List.mem_cons_self (h id i r)
        | none => by_cases hk : allocateQuotaSig H r = k <;> simp [isSent, flushedQuotas, quotasIn, hk]
      | _ => cases b <;> simp [isSent, flushedQuotas, quotasIn]
    | _ => simp [isSent, flushedQuotas, quotasIn]

section
variable [DoubleOps D] {K : Setup} {stops : Bool} {s s1 s2 s3 : Sys D} {hc : Check.Hist D} {hq : Quota.Hist D} {hr : Report.Hist D} {k : Bytes}

theorem quotas_flushed (r : Reach K stops s) (hpos : 0 < K.cfgQ.numEntries) : ∀ id i q, Ev.sent id (some i) (.quota q) ∉ s.c.trace := by
  intro id i q hm
  obtain ⟨_, _, h⟩ := C95_sent r hm
  obtain ⟨_, h⟩ := h hpos
  cases h

theorem completed_le (H : Bytes → Bytes) (r : Reach K stops s) : s.c.trace.countP (isCompleted H k) ≤ s.c.trace.countP (isSent H k) := by
  have b := r.inv.books
  rw [← length_ids (f := Ev.completedId) s.c.trace (by intro e he; obtain ⟨_, _, _, _, rfl, _⟩ := isCompleted_cases he; rfl),
    ← length_ids (f := Ev.sentId) s.c.trace (by intro e he; obtain ⟨_, _, _, rfl, _⟩ := isSent_cases he; rfl)]
  refine (List.Nodup.subperm (b.compl.sublist (List.filter_sublist.filterMap _)) ?_).length_le
  intro id hid
  obtain ⟨e, he, hx⟩ := List.mem_filterMap.mp hid
  obtain ⟨he, hp⟩ := List.mem_filter.mp he
  obtain ⟨id', bb, q, a, rfl, hk⟩ := isCompleted_cases hp
  simp only [Ev.completedId, Option.some.injEq] at hx
  subst hx
  exact List.mem_filterMap.mpr ⟨_, List.mem_filter.mpr ⟨b.complOk _ _ _ _ he, by simpa [isSent] using hk⟩, rfl⟩

theorem sent_le (H : Bytes → Bytes) (r : Reach K stops s) (ha : QuotasCompleted H k s.c.trace) :
    s.c.trace.countP (isSent H k) ≤ s.c.trace.countP (isCompleted H k) := by
  have b := r.inv.books
  rw [← length_ids (f := Ev.sentId) s.c.trace (by intro e he; obtain ⟨_, _, _, rfl, _⟩ := isSent_cases he; rfl),
    ← length_ids (f := Ev.completedId) s.c.trace (by intro e he; obtain ⟨_, _, _, _, rfl, _⟩ := isCompleted_cases he; rfl)]
  have hnd : (s.c.trace.filterMap Ev.sentId).Nodup := by rw [b.sentIds]; exact List.nodup_range
  refine (List.Nodup.subperm (hnd.sublist (List.filter_sublist.filterMap _)) ?_).length_le
  intro id hid
  obtain ⟨e, he, hx⟩ := List.mem_filterMap.mp hid
  obtain ⟨he, hp⟩ := List.mem_filter.mp he
  obtain ⟨id', bb, q, rfl, hk⟩ := isSent_cases hp
  simp only [Ev.sentId, Option.some.injEq] at hx
  subst hx
  obtain ⟨a, hcm⟩ := ha _ _ _ he hk
  exact List.mem_filterMap.mpr ⟨_, List.mem_filter.mpr ⟨hcm, by simpa [isCompleted] using hk⟩, rfl⟩

theorem stored_comps (k : Bytes) (l : Links K hc hq hr s.acts s) : Quota.stored K.cfgQ.H k hq +
    (s.acts.flatMap Act.comps).countP (fun x => decide (allocateQuotaSig K.cfgQ.H x.1 = k)) = s.c.trace.countP (isCompleted K.cfgQ.H k) := by
  rw [← countP_stored, ← countP_completed, ← l.comps.countP_eq, List.countP_append]

theorem stored_le (k : Bytes) (r : Reach K stops s) (hpos : 0 < K.cfgQ.numEntries) (l : Links K hc hq hr s.acts s) :
    Quota.stored K.cfgQ.H k hq ≤ (Quota.sentAll K.cfgQ.H k hq).length := by
  have h1 := stored_comps k l
  have h2 := completed_le (k := k) K.cfgQ.H r
  have h3 := countP_sent K.cfgQ.H k s.c.trace (quotas_flushed r hpos)
  have h4 := (quotas_perm k l).length_eq
  simp only [List.length_append] at h4
  omega

/-- No response is stored before its request was passed on. -/
theorem Reach.caused (r : Reach K stops s) (hpos : 0 < K.cfgQ.numEntries) :
    ∃ hc hq hr, Links K hc hq hr s.acts s ∧ ∀ k h', h' <:+ hq → Quota.stored K.cfgQ.H k h' ≤ (Quota.sentAll K.cfgQ.H k h').length := by
  induction r with
  | new h =>
    refine ⟨[], [], [], .new h, fun k h' hh => ?_⟩
    rw [List.suffix_nil.mp hh]
    exact Nat.le_refl _
  | step r h ih =>
    obtain ⟨hc, hq, hr, l, hcs⟩ := ih
    obtain ⟨hc', hq', hr', g, l'⟩ := step_links r.inv l h
    refine ⟨hc', hq', hr', l', fun k h' hh => ?_⟩
    rcases g.q with rfl | ⟨ev, rfl⟩
    · exact hcs k h' hh
    · rcases List.suffix_cons_iff.mp hh with rfl | hh
      · exact stored_le k (r.step h) hpos l'
      · exact hcs k h' hh

/-- When all requests of the signature were completed and the completions were told the aggregator, it waits for no response. -/
theorem not_waiting (r : Reach K stops s) (sane : SaneQ K) (hpos : 0 < K.cfgQ.numEntries) (hnc : Quota.NoCollision K.cfgQ.H hq)
    (l : Links K hc hq hr s.acts s) (hcs : ∀ h', h' <:+ hq → Quota.stored K.cfgQ.H k h' ≤ (Quota.sentAll K.cfgQ.H k h').length)
    (hco : QuotasCompleted K.cfgQ.H k s.c.trace) (hca : carriedQuotas K.cfgQ.H k s = []) (hlo : lostQuotas K.cfgQ.H k s = [])
    (hfin : ∀ p a q, Act.fin p a ∈ s.acts → p.req = .quota q → allocateQuotaSig K.cfgQ.H q ≠ k) : Quota.waiting K.cfgQ.H k hq = 0 := by
  have h0 := Quota.waiting_le sane.1 sane.2 hpos l.q.reach hnc hcs
  have h1 := stored_comps k l
  have h2 := sent_le K.cfgQ.H r hco
  have h3 := countP_sent K.cfgQ.H k s.c.trace (quotas_flushed r hpos)
  have h4 := (quotas_perm k l).length_eq
  have h5 : (s.acts.flatMap Act.comps).countP (fun x => decide (allocateQuotaSig K.cfgQ.H x.1 = k)) = 0 := by
    rw [List.countP_eq_zero]
    intro x hx
    obtain ⟨a, ha, hx⟩ := List.mem_flatMap.mp hx
    cases a with
    | fin p a =>
      cases hp : p.req with
      | quota q =>
        simp only [Act.comps, hp, List.mem_singleton] at hx
        subst hx
        simpa using hfin p a q ha hp
      | _ => simp [Act.comps, hp] at hx
    | _ => cases hx
  rw [hca, hlo, List.append_nil, List.append_nil] at h4
  omega

/-- What has happened since `s2`: a function called by the timer since then has yet to flush the quota aggregator, or has done so. -/
theorem later_flushedQ {hc2 : Check.Hist D} {hq2 : Quota.Hist D} {hr2 : Report.Hist D} (r2 : Reach K stops s2) (k2 : Links K hc2 hq2 hr2 s2.acts s2)
    (l : Later K stops s2 s3) (sane : SaneQ K) (hpos : 0 < K.cfgQ.numEntries) :
    ∃ hc, ∃ new : Quota.Hist D, ∃ hr, Links K hc (new ++ hq2) hr s3.acts s3 ∧
      (fires s2.c.trace < fires s3.c.trace → (∃ n, n ≤ 1 ∧ Act.timer n ∈ s3.acts) ∨ ∃ ev ∈ new, ev.call = .flush ∧ s2.c.quota.base.tick ≤ ev.first) := by
  induction l with
  | refl => exact ⟨hc2, [], hr2, k2, fun h => absurd h (Nat.lt_irrefl _)⟩
  | step l hs ih =>
    rename_i sa sb
    obtain ⟨hc, new, hr, k, hP⟩ := ih
    have ra := Later.reach r2 l
    have keep : ∀ {hc' hq' hr'}, Grow hc (new ++ hq2) hr hc' hq' hr' → Links K hc' hq' hr' sb.acts sb → fires sb.c.trace = fires sa.c.trace →
        (∀ n, n ≤ 1 → Act.timer n ∈ sa.acts → Act.timer n ∈ sb.acts) →
        ∃ hc, ∃ new : Quota.Hist D, ∃ hr, Links K hc (new ++ hq2) hr sb.acts sb ∧
          (fires s2.c.trace < fires sb.c.trace → (∃ n, n ≤ 1 ∧ Act.timer n ∈ sb.acts) ∨ ∃ ev ∈ new, ev.call = .flush ∧ s2.c.quota.base.tick ≤ ev.first) := by
      intro hc' hq' hr' g k' hf ht
      have hgo : ∀ new' : Quota.Hist D, (∀ ev ∈ new, ev ∈ new') →
          (fires s2.c.trace < fires sb.c.trace → (∃ n, n ≤ 1 ∧ Act.timer n ∈ sb.acts) ∨ ∃ ev ∈ new', ev.call = .flush ∧ s2.c.quota.base.tick ≤ ev.first) := by
        intro new' hsub h
        rw [hf] at h
        rcases hP h with ⟨n, hn, hm⟩ | ⟨ev, hev, h2⟩
        · exact .inl ⟨n, hn, ht n hn hm⟩
        · exact .inr ⟨ev, hsub ev hev, h2⟩
      rcases g.q with rfl | ⟨ev, rfl⟩
      · exact ⟨hc', new, hr', k', hgo new (fun _ h => h)⟩
      · exact ⟨hc', ev :: new, hr', k', hgo _ (fun _ h => List.mem_cons_of_mem _ h)⟩
    have hpush : ∀ {l1 l2 : List (List (Act D))} {t : List (Act D)} (new : List (Act D)), sa.threads = l1 ++ t :: l2 → sb.threads = l1 ++ (new ++ t) :: l2 →
        ∀ x, x ∈ sa.acts → x ∈ sb.acts := by
      intro l1 l2 t new h1 h2 x hx
      unfold Sys.acts at hx ⊢
      rw [h1] at hx
      rw [h2]
      exact acts_push.mem_iff.mpr (List.mem_append_right _ hx)
    obtain ⟨hc', hq', hr', g, k'⟩ := step_links ra.inv k hs
    cases hs with
    | work hth hex =>
      rename_i l1 a t l2 s' newA
      have hperm : (a :: (t ++ (l1 ++ l2).flatten)).Perm sa.acts := by
        unfold Sys.acts; rw [hth]
        exact (acts_at (t := a :: t)).symm
      have hperm' : (newA ++ (t ++ (l1 ++ l2).flatten)).Perm (l1 ++ (newA ++ t) :: l2).flatten := by
        refine List.Perm.symm (acts_at.trans ?_)
        rw [List.append_assoc]
      have hf : fires s'.c.trace = fires sa.c.trace := exec_fires hex
      have hoth : ∀ x, x ≠ a → x ∈ sa.acts → x ∈ (l1 ++ (newA ++ t) :: l2).flatten := by
        intro x hx hm
        rcases List.mem_cons.mp (hperm.mem_iff.mpr hm) with h | h
        · exact absurd h hx
        · exact hperm'.mem_iff.mp (List.mem_append_right _ h)
      by_cases hat : ∃ n, a = .timer n
      · obtain ⟨n, rfl⟩ := hat
        have hrun : runTimer K n sa = .ok (s', newA) := by simpa only [exec, Option.some.injEq] using hex
        obtain ⟨hc4, hq4, hr4, ⟨g4, _, hfl⟩, k4⟩ := (k.perm hperm).tmr hrun
        have k5 := (k4.threads (l1 ++ (newA ++ t) :: l2)).perm hperm'.symm
        by_cases hn : n = 0
        · subst hn
          have hnew : Act.timer 1 ∈ newA := by
            unfold runTimer at hrun
            simp only [bind, Except.bind] at hrun
            split at hrun
            · cases hrun
            · cases hrun; simp
          have hmem := hperm'.mem_iff.mp (List.mem_append_left _ hnew)
          rcases g4.q with rfl | ⟨ev, rfl⟩
          · exact ⟨hc4, new, hr4, k5, fun _ => .inl ⟨1, Nat.le_refl _, hmem⟩⟩
          · exact ⟨hc4, ev :: new, hr4, k5, fun _ => .inl ⟨1, Nat.le_refl _, hmem⟩⟩
        · by_cases hn1 : n = 1
          · obtain ⟨ev, rfl, hcall, hfirst⟩ := hfl hn1
            refine ⟨hc4, ev :: new, hr4, k5, fun _ => .inr ⟨ev, List.mem_cons_self, hcall, ?_⟩⟩
            rw [hfirst]
            exact Quota.tick_mono (s' := sa.c.quota.setCallback true) sane.1 sane.2 hpos k2.q.reach k.q.reach
          · refine keep g4 k5 hf (fun m hm hmem => ?_)
            exact hoth _ (by intro h; cases h; omega) hmem
      · exact keep g k' hf (fun m hm hmem => hoth _ (fun h => hat ⟨m, h.symm⟩) hmem)
    | @call l1 t l2 c tr hth hfree hdy =>
      exact keep g k' (by show fires (sa.c.trace ++ [_]) = _; rw [fires_append]; rfl) (fun n _ => hpush [_] hth rfl _)
    | @sync l1 t l2 c hth hfree hdy =>
      exact keep g k' (by show fires (sa.c.trace ++ [_]) = _; rw [fires_append]; rfl) (fun n _ => hpush [_, _] hth rfl _)
    | @complete l1 t l2 id a p c' hth hfree htake =>
      obtain ⟨he, _⟩ := ra.inv.books.take htake
      refine keep g k' ?_ (fun n _ => hpush [_] hth rfl _)
      show fires c'.trace = _
      rw [he]
      show fires (sa.c.trace ++ [_]) = _
      rw [fires_append]; rfl
    | @fire l1 t l2 hth hfree htm =>
      have hmem : Act.timer 0 ∈ (l1 ++ (.timer 0 :: t) :: l2).flatten := List.mem_flatten.mpr ⟨.timer 0 :: t, by simp, List.mem_cons_self⟩
      rcases g.q with rfl | ⟨ev, rfl⟩
      · exact ⟨hc', new, hr', k', fun _ => .inl ⟨0, by omega, hmem⟩⟩
      · exact ⟨hc', ev :: new, hr', k', fun _ => .inl ⟨0, by omega, hmem⟩⟩
    | @destroy l1 t l2 hth hfree hdy hapi =>
      exact keep g k' rfl (fun n _ => hpush [_] hth rfl _)
    | spawn =>
      refine keep g k' rfl (fun n _ hm => ?_)
      unfold Sys.acts at hm ⊢
      simpa using hm

/-- C110: under every schedule, once the timer has called its function and that has returned, the operations the cache holds for a quota
signature were granted after `s1`, if none of its requests was unanswered then.  `s1` is any moment, all of whose clock readings
are older than the flush interval at a later moment `s2`; since then the timer has called its function, and in `s3` none of its calls is
running. -/
theorem C110_quotas_fresh (r : Reach K stops s1) (l12 : Later K stops s1 s2) (l23 : Later K stops s2 s3)
    (hf : fires s2.c.trace < fires s3.c.trace) (hidle : s3.timers = 0) (sane : SaneQ K) (hpos : 0 < K.cfgQ.numEntries) (hfl : 0 ≤ K.cfgQ.flushMs)
    (hold : ∀ i, i < s1.c.quota.base.tick → K.envQ.clk i + K.cfgQ.cyc K.cfgQ.flushMs.toNat < K.envQ.clk s2.c.quota.base.tick)
    (hnc : NoQuotaCollision K.cfgQ.H s3.c.trace)
    (hco : QuotasCompleted K.cfgQ.H k s1.c.trace) (hca : carriedQuotas K.cfgQ.H k s1 = []) (hlo : lostQuotas K.cfgQ.H k s1 = [])
    (hfin : ∀ p a q, Act.fin p a ∈ s1.acts → p.req = .quota q → allocateQuotaSig K.cfgQ.H q ≠ k) :
    ∃ late pend : List (QuotaOperation D),
      (grants K.cfgQ.H k s3.c.trace ++ grantsSoon K.cfgQ.H k s3).Perm (late ++ (grants K.cfgQ.H k s1.c.trace ++ grantsSoon K.cfgQ.H k s1)) ∧
      pend.Subperm late ∧
      match Quota.heldOf K.cfgQ k s3.c.quota with
      | none => pend = []
      | some o => Quota.Sum K.envQ K.cfgQ pend o := by
  obtain ⟨hc1, hq1, hr1, k1, hcs⟩ := r.caused hpos
  have r2 := Later.reach r l12
  have r3 := Later.reach r2 l23
  obtain ⟨hc2, n2, hr2, k2, _⟩ := later_flushedQ r k1 l12 sane hpos
  obtain ⟨hc3, n3, hr3, k3, hP⟩ := later_flushedQ r2 k2 l23 sane hpos
  have hnc3 : Quota.NoCollision K.cfgQ.H (n3 ++ (n2 ++ hq1)) := by
    intro q hq' q' hq'' he
    obtain ⟨i, h1⟩ := k3.asks q hq'
    obtain ⟨j, h2⟩ := k3.asks q' hq''
    exact hnc i q j q' h1 h2 he
  have hw := not_waiting r sane hpos (hnc3.suffix ((List.suffix_append _ _).trans (List.suffix_append _ _))) k1 (hcs k) hco hca hlo hfin
  have hheld : ∃ mid pend, Quota.absorbed K.cfgQ k (n3 ++ (n2 ++ hq1)) = Quota.absorbed K.cfgQ k hq1 ++ mid ++ pend ∧
      match Quota.heldOf K.cfgQ k s3.c.quota with
      | none => pend = []
      | some o => Quota.Sum K.envQ K.cfgQ pend o := by
    by_cases hp : Quota.pending K.cfgQ k hq1 = []
    · obtain ⟨mid, hmid⟩ := Quota.pending_later (cfg := K.cfgQ) (k := k) (n3 ++ n2) hp
      rw [List.append_assoc] at hmid
      exact ⟨mid, _, hmid, Quota.held_pending sane.1 sane.2 hpos (s := s3.c.quota.setCallback true) k3.q.reach hnc3 k⟩
    · rcases hP hf with ⟨n, _, hm⟩ | ⟨ev, hev, hcall, hfirst⟩
      · have := r3.shut.timers
        rw [hidle] at this
        exact absurd rfl (List.countP_eq_zero.mp this.symm _ hm)
      · obtain ⟨a, b, rfl⟩ := List.append_of_mem hev
        refine (Quota.C86_flush_sends sane.1 sane.2 hpos k3.q.reach (ev := ev) (h := b ++ (n2 ++ hq1)) (h1 := hq1) ?_ hcall ?_ hfl hp hw ?_ hnc3).2
        · exact ⟨a, by simp⟩
        · exact (List.suffix_append _ _).trans (List.suffix_append _ _)
        · intro e he i hi
          have ht : s1.c.quota.base.tick = e.last := by
            cases hq1 with
            | nil => cases he
            | cons e' t => cases he; exact Quota.Reach.tick (s := s1.c.quota.setCallback true) k1.q.reach
          have h1 := hold i (by rw [ht]; exact hi)
          have h2 : K.envQ.clk s2.c.quota.base.tick ≤ K.envQ.clk ev.first := sane.1.le hfirst
          omega
  obtain ⟨mid, pend, ha, hh⟩ := hheld
  refine ⟨Quota.grantedOps K.cfgQ.H k (n3 ++ n2), pend, ?_, ?_, hh⟩
  · refine (grants_perm k k3).trans (List.Perm.trans ?_ ((grants_perm k k1).symm.append_left _))
    unfold Quota.grantedOps
    rw [← List.flatMap_append, List.append_assoc]
  · rw [← List.append_assoc] at ha
    refine Quota.absorbed_granted _ (fun ev he => ?_) ha
    refine Quota.responses_ok sane.1 sane.2 hpos k3.q.reach ev ?_
    rw [← List.append_assoc]
    exact List.mem_append_left _ he

end

/-- `QuotasCompleted`, computed. -/
def quotasCompleted (H : Bytes → Bytes) (k : Bytes) (tr : List (Ev Int)) : Bool :=
  tr.all fun e => match e with
    | .sent id b (.quota r) => !decide (allocateQuotaSig H r = k) || tr.any fun e' => match e' with
      | .completed id' b' c _ => decide (id' = id ∧ b' = b ∧ c = .quota r)
      | _ => false
    | _ => true

theorem quotasCompleted_of {H : Bytes → Bytes} {k : Bytes} {tr : List (Ev Int)} (h : quotasCompleted H k tr = true) : QuotasCompleted H k tr := by
  intro id b r hm hk
  have h1 := List.all_eq_true.mp h _ hm
  simp only [hk, decide_true, Bool.not_true, Bool.false_or, List.any_eq_true] at h1
  obtain ⟨e', he', h2⟩ := h1
  split at h2
  · rename_i id' b' c a
    obtain ⟨rfl, rfl, rfl⟩ := of_decide_eq_true h2
    exact ⟨a, he'⟩
  · cases h2

/-- 6 tokens wait in the cache for longer than the flush interval.  The function called by the timer takes them out of the cache; before it
passes them on, 7 more are granted to another thread.  These are what the cache holds in the end. -/
example : ∃ s1 s3 : Sys Int, Reach exKJ true s1 ∧ Later exKJ true s1 s3 ∧ fires s1.c.trace < fires s3.c.trace ∧ s3.timers = 0 ∧ SaneQ exKJ ∧
    0 < exKJ.cfgQ.numEntries ∧ 0 ≤ exKJ.cfgQ.flushMs ∧
    (∀ i, i < s1.c.quota.base.tick → exKJ.envQ.clk i + exKJ.cfgQ.cyc exKJ.cfgQ.flushMs.toNat < exKJ.envQ.clk s1.c.quota.base.tick) ∧
    NoQuotaCollision exKJ.cfgQ.H s3.c.trace ∧ QuotasCompleted exKJ.cfgQ.H exSigQ s1.c.trace ∧ carriedQuotas exKJ.cfgQ.H exSigQ s1 = [] ∧
    lostQuotas exKJ.cfgQ.H exSigQ s1 = [] ∧ (∀ p a q, Act.fin p a ∈ s1.acts → p.req = .quota q → allocateQuotaSig exKJ.cfgQ.H q ≠ exSigQ) ∧
    (grants exKJ.cfgQ.H exSigQ s1.c.trace).map (fun o => Quota.amount [o] [9]) = [5, 6] ∧
    (Quota.heldOf exKJ.cfgQ exSigQ s1.c.quota).map (fun o => Quota.amount [o] [9]) = some 6 ∧
    (grants exKJ.cfgQ.H exSigQ s3.c.trace).map (fun o => Quota.amount [o] [9]) = [5, 6, 7] ∧
    (flushedQuotas exKJ.cfgQ.H exSigQ s3.c.trace).map (fun q => Quota.amount [q.op] [9]) = [5, 6] ∧
    (Quota.heldOf exKJ.cfgQ exSigQ s3.c.quota).map (fun o => Quota.amount [o] [9]) = some 7 := by
  obtain ⟨s, r, h⟩ := schedule_case (K := exKJ) (stops := true) exGranted
    (fun s => s.c.quota.base.tick = 7 ∧ quotasCompleted exKJ.cfgQ.H exSigQ s.c.trace = true ∧ s.threads = [[], []] ∧ s.dropped = [] ∧
      (grants exKJ.cfgQ.H exSigQ s.c.trace).map (fun o => Quota.amount [o] [9]) = [5, 6] ∧
      (Quota.heldOf exKJ.cfgQ exSigQ s.c.quota).map (fun o => Quota.amount [o] [9]) = some 6 ∧
      (match ([.fire 0] ++ steps 0 2 ++ [.call 1 (exQuota 1 7) .default] ++ steps 1 5 ++ steps 0 7 : List (Move Int)).foldlM
          (fun s m => m.run exKJ true s) s with
      | some s3 => decide (fires s.c.trace < fires s3.c.trace ∧ s3.timers = 0 ∧ askedQuotas s3.c.trace = [Quota.exQ 1 5, Quota.exQ 1 6, Quota.exQ 1 7] ∧
          (grants exKJ.cfgQ.H exSigQ s3.c.trace).map (fun o => Quota.amount [o] [9]) = [5, 6, 7] ∧
          (flushedQuotas exKJ.cfgQ.H exSigQ s3.c.trace).map (fun q => Quota.amount [q.op] [9]) = [5, 6] ∧
          (Quota.heldOf exKJ.cfgQ exSigQ s3.c.quota).map (fun o => Quota.amount [o] [9]) = some 7)
      | none => false) = true) (by decide +kernel)
  obtain ⟨h1, h2, h3, h4, h5, h6, h7⟩ := h
  split at h7
  · rename_i s3 hs3
    obtain ⟨g1, g2, g3, g4, g5, g6⟩ := of_decide_eq_true h7
    have hacts : s.acts = [] := by unfold Sys.acts; rw [h3]; rfl
    refine ⟨s, s3, r, moves_later hs3, g1, g2, ⟨Client.exJump_mono 7 (by decide), by decide⟩, by decide, by decide, ?_, ?_, quotasCompleted_of h2, ?_, ?_, ?_,
      h5, h6, g4, g5, g6⟩
    · clear * - h1
      intro i hi
      rw [h1] at hi ⊢
      have e1 : exKJ.envQ.clk i = 0 := if_pos hi
      rw [e1]
      decide
    · clear * - g3
      refine noCollision_of fun r hr r' hr' _ => ?_
      rw [g3] at hr hr'
      simp only [List.mem_cons, List.not_mem_nil, or_false] at hr hr'
      rcases hr with rfl | rfl | rfl <;> rcases hr' with rfl | rfl | rfl <;> exact ⟨rfl, rfl, fun _ => Iff.rfl⟩
    · unfold carriedQuotas; rw [h3]; rfl
    · unfold lostQuotas; rw [h4]; rfl
    · intro p a q hm; rw [hacts] at hm; cases hm
  · cases h7

end Verif.Threads
