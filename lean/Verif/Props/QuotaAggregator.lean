import Verif.Lemmas.QuotaHistory
import Verif.Props.ReportAggregator
/-
C44 - C48, C70 - C73.
-/
set_option linter.unusedSectionVars false

namespace Verif.Quota
open Lru

variable {D : Type} {E : Env} {cfg : AggConfig} {h : Hist D} {s s' : State D} {d : Nat} {out : Out}
  {fl : List (AllocateQuotaRequest D)}

/-- The history entry of a call. -/
abbrev evOf (c : Call D) (s : State D) (r : State D × Out × List (AllocateQuotaRequest D)) : Event D :=
  ⟨c, r.2.1, r.2.2, s.base.tick, r.1.base.tick, entriesOf r.1⟩

theorem expiration_eq (cfg : AggConfig) : expirationInterval cfg = 1000 * cfg.expirationMs := by
  unfold expirationInterval
  rw [show cfg.expirationMs * 1000000 = (cfg.expirationMs * 1000) * 1000 by omega, Int.mul_tdiv_cancel _ (by decide)]
  omega

theorem refresh_eq (cfg : AggConfig) : refreshInterval cfg = 1000 * cfg.flushMs := by
  unfold refreshInterval
  rw [show cfg.flushMs * 1000000 = (cfg.flushMs * 1000) * 1000 by omega, Int.mul_tdiv_cancel _ (by decide)]
  omega

section
variable (hm : Mono E.clk) (hf : 0 < E.extraFuel) (hpos : 0 < cfg.numEntries)
include hm hf hpos

/-- C44: `Quota` answers a valid request itself, with what the entry of its signature holds: the
response stored last, or the empty one if there was no entry. -/
theorem C44_quota_serves (r : Reach E cfg h s) (q : AllocateQuotaRequest D) (hv : Valid cfg q)
    (hs : step E cfg (d + 1) (.quota q) s = .ok (s', out, fl)) :
    let k := allocateQuotaSig cfg.H q
    let ev := evOf (.quota q) s (s', out, fl)
    out.status = .ok ∧ out.response ≠ none ∧ out.response = served cfg.H k (ev :: h) ∧
      (ident k h = none → out.response = some .default) ∧
      (ident k h ≠ none → ¬ Destroyed k ev h → out.response = served cfg.H k h) := by
  intro k ev
  obtain ⟨s0, inAll, rfl, hi⟩ := r.inv hm hf hpos
  obtain ⟨s1, inAll', o, rfl, _, _, hvc, hr⟩ := hi.step hm hf hpos hs
  have hb := hr.base k
  have hid := hi.id k
  have hid' := hr.id k
  have key : out.status = .ok ∧ ∃ p v, view s1.N k = some (p, v) ∧ out.response = some v.response := by
    clear hb hid'
    generalize view s1.N = M' at hvc
    cases hvc with
    | invalid h => exact absurd hv h
    | miss => exact ⟨rfl, _, _, View.set_self _ _ _, rfl⟩
    | hit => exact ⟨rfl, _, _, View.set_self _ _ _, rfl⟩
  obtain ⟨h1, p, v, h2, h3⟩ := key
  have h4 : served cfg.H k (ev :: h) = some v.response := (hb p v h2).served
  refine ⟨h1, by rw [h3]; simp, h3.trans h4.symm, fun hn => ?_, fun hne hnd => ?_⟩
  · rw [h3, ← h4]
    refine served_new _ ⟨?_, ?_⟩
    · rw [hid', h2]; simp
    · rw [hid', h2, hn]; simp
  · have he : ident k (ev :: h) = ident k h := by
      by_contra hc; exact hnd ⟨hne, hc⟩
    have hp : ident k (ev :: h) = some p := by rw [hid', h2]; rfl
    rw [h3, ← h4]
    exact served_keep cfg.H hp (he.symm.trans hp) (fun r resp hc => by cases hc)

omit hm hf hpos in
/-- A wrong service name or a missing operation is rejected without any effect. -/
theorem C44_invalid_rejected (q : AllocateQuotaRequest D) (hv : ¬ Valid cfg q) :
    step E cfg d (.quota q) s = .ok (s, ⟨.invalidArgument, none⟩, []) := by
  unfold step quota
  simp only
  split
  · rfl
  · rename_i h1
    split
    · rfl
    · rename_i h2; exact absurd ⟨by simpa using h1, h2⟩ hv

omit hm hf hpos in
/-- Keys of lists with the same view. -/
theorem length_lt_of_gone {N N' : List (QElem D)} (hk' : (N'.map (·.key)).Nodup)
    (hsub : ∀ k, view N k = none → view N' k = none) (k : Bytes) (h1 : view N k ≠ none) (h2 : view N' k = none) :
    N'.length < N.length := by
  have hmem : ∀ (L : List (QElem D)) (k : Bytes), view L k ≠ none ↔ k ∈ L.map (·.key) := by
    intro L k
    rw [ne_eq, view_none]
    simp [List.mem_map]
  have hsub' : N'.map (·.key) ⊆ (N.map (·.key)).erase k := by
    intro y hy
    have hy' := (hmem N' y).mpr hy
    have : view N y ≠ none := fun e => hy' (hsub y e)
    have hne : y ≠ k := fun e => by rw [e] at hy'; exact hy' h2
    exact (List.mem_erase_of_ne hne).mpr ((hmem N y).mp this)
  have hle := (List.subperm_of_subset hk' hsub').length_le
  rw [List.length_erase_of_mem ((hmem N k).mp h1), List.length_map, List.length_map] at hle
  have : 0 < N.length := by
    have := (hmem N k).mp h1
    rw [← List.length_map (f := (·.key))]
    exact List.length_pos_of_mem this
  omega

omit hm hf hpos in
theorem length_le_of_sub {N N' : List (QElem D)} (hk' : (N'.map (·.key)).Nodup)
    (hsub : ∀ k, view N k = none → view N' k = none) : N'.length ≤ N.length := by
  have hmem : ∀ (L : List (QElem D)) (k : Bytes), view L k ≠ none ↔ k ∈ L.map (·.key) := by
    intro L k
    rw [ne_eq, view_none]
    simp [List.mem_map]
  have hsub' : N'.map (·.key) ⊆ N.map (·.key) := by
    intro y hy
    exact (hmem N y).mp (fun e => (hmem N' y).mpr hy (hsub y e))
  simpa using (List.subperm_of_subset hk' hsub').length_le

/-- C44: a call of `Quota` on a cache that has the signature or has room returns; the only way to
fail is undefined behaviour in merging the caller's own operations, see C23. -/
theorem C44_quota_total (r : Reach E cfg h s) (q : AllocateQuotaRequest D) (hv : Valid cfg q)
    (hroom : ident (allocateQuotaSig cfg.H q) h ≠ none ∨ ((entriesOf s).length : Int) < cfg.numEntries) :
    (∃ res, step E cfg (d + 1) (.quota q) s = .ok res) ∨
    ∃ err x xs, step E cfg (d + 1) (.quota q) s = .error err ∧ QuotaAgg.aggregate E.dbg x xs = .error err ∧
      ∀ o ∈ x :: xs, ∃ r ∈ q :: requests h, allocateQuotaSig cfg.H r = allocateQuotaSig cfg.H q ∧ r.op = o := by
  obtain ⟨s0, inAll, rfl, hi⟩ := r.inv hm hf hpos
  have hinv := (removeExpired_eq hm hf cfg inAll d s0 hi.inv).2
  obtain ⟨ht1, hn1, hbg⟩ := expireAll_bg E cfg inAll s0 hi.inv.keys hi.out
  simp only [step]
  have hrm := quota_miss_room hm hf cfg inAll d s0 hi.inv hi.out q hv
  have hq := quota_hit hm hf cfg inAll d s0 hi.inv hi.out q hv
  have hbat := hbg.at (allocateQuotaSig cfg.H q)
  have hsub := fun k => hbg.sub k
  generalize expireAll E cfg inAll s0 = s1 at *
  cases hfk : findKey (allocateQuotaSig cfg.H q) s1.N with
  | none =>
    left
    have hno := findKey_none.mp hfk
    refine ⟨_, hrm hno ?_⟩
    rcases hroom with h1 | h1
    · rw [hi.id] at h1
      have := length_lt_of_gone hinv.keys hsub _ (fun e => h1 (by rw [e]; rfl)) (view_none.mpr hno)
      have := hi.inv.len; omega
    · have := length_le_of_sub hinv.keys hsub
      simp only [entriesOf, stateOf, cacheOf, List.length_map] at h1
      omega
  | some e =>
    obtain ⟨A, B, hN, hk, hA⟩ := find_split hfk
    have hb : KB E cfg (allocateQuotaSig cfg.H q) h e.val := by
      have hve : view s1.N (allocateQuotaSig cfg.H q) = some (e.ptr, e.val) := by simp only [view, hfk, Option.map_some]
      rw [hve] at hbat
      exact KB.bg hbat (hi.base _)
    rw [hq A B e hN hk]
    cases hrf : refresh E cfg e.val s1.t with
    | mk v1 x =>
      obtain ⟨t2, qs⟩ := x
      simp only
      cases hag : (if v1.positive then v1.aggregate E q else .ok v1) with
      | ok v2 => exact .inl ⟨_, rfl⟩
      | error err =>
        right
        split at hag
        · have hops : ∃ ops, AggOf E v1.agg ops ∧ ∀ o ∈ ops, ∃ r ∈ requests h, allocateQuotaSig cfg.H r = allocateQuotaSig cfg.H q ∧ r.op = o := by
            rcases refresh_cases hrf with ⟨_, rfl, _⟩ | ⟨_, _, rfl, _⟩ | ⟨_, _, rfl, _⟩
            · exact hb.ops
            · exact hb.ops
            · exact ⟨[], rfl, by simp⟩
          obtain ⟨ops, ho, hr⟩ := hops
          unfold Elem.aggregate at hag
          cases hva : v1.agg with
          | none =>
            simp only [hva] at hag
            cases hn : QuotaAgg.new E.dbg q.op with
            | ok a => rw [hn] at hag; cases hag
            | error e' =>
              rw [hn] at hag
              cases hag
              refine ⟨_, q.op, [], rfl, ?_, ?_⟩
              · unfold QuotaAgg.aggregate; rw [hn]; rfl
              · intro o ho; rw [List.mem_singleton] at ho; exact ⟨q, by simp, rfl, ho.symm⟩
          | some a =>
            simp only [hva] at hag ho
            obtain ⟨y, ys, rfl, hy⟩ := ho
            cases hn : a.mergeOperation E.dbg q.op with
            | ok a => rw [hn] at hag; cases hag
            | error e' =>
              rw [hn] at hag
              cases hag
              refine ⟨_, y, ys ++ [q.op], rfl, ?_, ?_⟩
              · rw [quotaAggregate_snoc, hy]; exact hn
              · intro o ho
                rw [← List.cons_append] at ho
                rcases List.mem_append.mp ho with ho | ho
                · obtain ⟨r, h1, h2⟩ := hr o ho
                  exact ⟨r, by simp [h1], h2⟩
                · rw [List.mem_singleton] at ho; exact ⟨q, by simp, rfl, ho.symm⟩
        · cases hag

/-- The step of one signature, as seen from the history. -/
theorem at_key (r : Reach E cfg h s) {c : Call D} (hs : step E cfg (d + 1) c s = .ok (s', out, fl))
    (hnc : NoCollision cfg.H (evOf c s (s', out, fl) :: h)) (k : Bytes) :
    ∃ (inAll : Bool) (nid : Nat) (x x' : Slot1 D), (inAll = true ↔ Cleared h) ∧ KFull E cfg k h x ∧
      KFull E cfg k (evOf c s (s', out, fl) :: h) x' ∧
      ident k h = x.map (·.1) ∧ ident k (evOf c s (s', out, fl) :: h) = x'.map (·.1) ∧ (∀ p v, x = some (p, v) → p < nid) ∧
      KStep E cfg inAll s.base.tick s'.base.tick nid k c out x (sent cfg.H k (evOf c s (s', out, fl))) x' ∧
      heldOf cfg k s = (aggAt x).map (fun a => a.toProto cfg.U) ∧ heldOf cfg k s' = (aggAt x').map (fun a => a.toProto cfg.U) := by
  obtain ⟨s0, inAll, rfl, hi⟩ := r.inv hm hf hpos
  obtain ⟨s1, inAll', o, rfl, h3, _, h6, hr⟩ := hi.step hm hf hpos hs
  have ho : ∀ k, ∀ q ∈ outAt k o, allocateQuotaSig cfg.H q = k := fun k => (h6.at k).outSig hnc.tail (hi.base k)
  have hse := sent_outAt (ev := evOf c (stateOf cfg inAll s0) (stateOf cfg inAll' s1, out, fl)) h3 ho k
  have hheld : ∀ (b : Bool) (s2 : S D), heldOf cfg k (stateOf cfg b s2) = (aggAt (view s2.N k)).map (fun a => a.toProto cfg.U) := by
    intro b s2
    simp only [heldOf, stateOf, cacheOf, view, findKey]
    cases List.find? (fun e => e.key == k) s2.N with
    | none => rfl
    | some e => rfl
  refine ⟨inAll, s0.nid, view s0.N k, view s1.N k, hi.all, hi.full hnc.tail k, hr.full hnc k, hi.id k, hr.id k, ?_, ?_, hheld _ _, hheld _ _⟩
  · intro p v hv
    obtain ⟨e, he, _, rfl, _⟩ := (view_some hi.inv.keys).mp hv
    exact (hi.inv.elem e he).2.2.2.1
  · rw [hse]; exact h6.at k

/-- C45: at most one request per signature is outstanding.  A call that makes an entry sends one
request; otherwise it sends one only if there is an entry and none was sent for it since a response
was last stored. -/
theorem C45_one_in_flight (r : Reach E cfg h s) {c : Call D} (hs : step E cfg (d + 1) c s = .ok (s', out, fl))
    (hnc : NoCollision cfg.H (evOf c s (s', out, fl) :: h)) (k : Bytes) :
    let ev := evOf c s (s', out, fl)
    (Created k ev h → (sent cfg.H k ev).length = 1) ∧
    (¬ Created k ev h → ident k h = none → sent cfg.H k ev = []) ∧
    (¬ Created k ev h → waiting cfg.H k h + (sent cfg.H k ev).length ≤ 1) ∧ waiting cfg.H k (ev :: h) ≤ 1 := by
  intro ev
  obtain ⟨inAll, nid, x, x', _, f, f', hx, hx', hn, hk, _⟩ := at_key hm hf hpos r hs hnc k
  have hw : waiting cfg.H k (ev :: h) ≤ 1 := by
    cases hxx : x' with
    | none => rw [waiting_gone cfg.H (by rw [hx', hxx]; rfl)]; omega
    | some y =>
      obtain ⟨p, v⟩ := y
      rw [f'.wait p v hxx]; split <;> omega
  have hw0 : x = none → waiting cfg.H k h = 0 := by
    intro e
    cases h with
    | nil => rfl
    | cons e' t => exact waiting_gone cfg.H (by rw [hx, e]; rfl)
  have hbg : ∀ {o y}, BgAt E cfg inAll s.base.tick s'.base.tick x o y → waiting cfg.H k h + o.length ≤ 1 ∧ (x = none → o = []) := by
    intro o y hb
    cases hb with
    | same =>
      refine ⟨?_, fun _ => rfl⟩
      cases hxx : x with
      | none => rw [hw0 hxx]; simp
      | some y =>
        obtain ⟨p, v⟩ := y
        rw [f.wait p v hxx]; simp only [List.length_nil]; split <;> omega
    | @drop p v _ =>
      refine ⟨?_, fun _ => rfl⟩
      rw [f.wait p v rfl]; simp only [List.length_nil]; split <;> omega
    | @send p v a i _ _ _ h4 => refine ⟨?_, by simp⟩; rw [f.wait p v rfl, h4]; simp
    | @sendDrop p v a i _ _ _ h4 => refine ⟨?_, by simp⟩; rw [f.wait p v rfl, h4]; simp
  have hbgid : ∀ {o y}, BgAt E cfg inAll s.base.tick s'.base.tick x o y → ∀ v p, y = some (p, v) → ident k h = some p := by
    intro o y hb v p e
    subst e
    obtain ⟨v0, rfl, _⟩ := hb.some_cases
    exact hx
  have hcr : ∀ p, ident k h = some p → ident k (ev :: h) = some p → ¬ Created k ev h := fun p a b => not_created b a
  refine ⟨fun hc => ?_, fun hc hnone => ?_, fun hc => ?_, hw⟩
  · generalize hse : sent cfg.H k (evOf c s (s', out, fl)) = o at hk
    cases hk with
    | bg hb =>
      cases hxx : x' with
      | none => exact absurd (by rw [hx', hxx]; rfl) hc.1
      | some y =>
        obtain ⟨p, v⟩ := y
        exact absurd hc (hcr p (hbgid hb v p hxx) (by rw [hx', hxx]; rfl))
    | create => rfl
    | @hit r x o1 p v t1 v1 t2 qs v2 _ _ hb => exact absurd hc (hcr p (hbgid hb v p rfl) hx')
    | @respond r resp x o1 p v _ hb => exact absurd hc (hcr p (hbgid hb v p rfl) hx')
    | clear => exact absurd hx' hc.1
  · have hxn : x = none := by
      cases hxx : x with
      | none => rfl
      | some y => rw [hnone, hxx] at hx; cases hx
    generalize hse : sent cfg.H k (evOf c s (s', out, fl)) = o at hk
    cases hk with
    | bg hb => exact (hbg hb).2 hxn
    | create => exact absurd ⟨by rw [hx']; simp, by rw [hx', hnone]; simp⟩ hc
    | @hit r x o1 p v t1 v1 t2 qs v2 _ _ hb => have := hbgid hb v p rfl; rw [hnone] at this; cases this
    | @respond r resp x o1 p v _ hb => exact (hbg hb).2 hxn
    | clear => rfl
  · generalize hse : sent cfg.H k (evOf c s (s', out, fl)) = o at hk
    cases hk with
    | bg hb => exact (hbg hb).1
    | create hv hk hb h1 h2 h3 => exact absurd (KStep.created hx hn hx' h3) hc
    | @hit r x o1 p v t1 v1 t2 qs v2 _ hkk hb =>
      rw [← hse, ← waiting_keep cfg.H (ev := evOf (.quota r) s (s', _, fl)) hx' (hbgid hb v p rfl) (fun r resp hc => by cases hc)]
      exact hw
    | respond hkk hb => exact (hbg hb).1
    | clear => exact (hbg (.same _)).1

/-- C46: every operation answered positively from an existing entry is, in order and exactly once,
part of a request passed to the flush callback, discarded, or still held; what is discarded is
discarded as a whole by a negative response or with the entry; every other request is the one that
made the entry. -/
theorem C46_conservation (r : Reach E cfg h s) (hnc : NoCollision cfg.H h) (k : Bytes) :
    ∃ items pend, Ledger E cfg k h items pend ∧
      match heldOf cfg k s with
      | none => pend = []
      | some o => Sum E cfg pend o := by
  obtain ⟨s0, inAll, rfl, hi⟩ := r.inv hm hf hpos
  obtain ⟨items, pend, hl, ha⟩ := (hi.full hnc k).ledger
  refine ⟨items, pend, hl, ?_⟩
  have hheld : heldOf cfg k (stateOf cfg inAll s0) = (aggAt (view s0.N k)).map (fun a => a.toProto cfg.U) := by
    simp only [heldOf, stateOf, cacheOf, view, findKey]
    cases List.find? (fun e => e.key == k) s0.N with
    | none => rfl
    | some e => rfl
  rw [hheld]
  cases hx : aggAt (view s0.N k) with
  | none => rw [hx] at ha; exact ha
  | some a =>
    rw [hx] at ha
    obtain ⟨x, xs, h1, h2⟩ := ha
    exact ⟨x, xs, a, h1, h2, rfl⟩

/-- The tokens of a metric requested by some operations. -/
def amount (ops : List (QuotaOperation D)) (n : Bytes) : Int := ((quotaReported ops n).map intOf).sum

/-- The tokens of a metric that an item accounts for. -/
def Item.amount (n : Bytes) : Item D → Int
  | .passed _ q => Quota.amount [q.op] n
  | .lost ops => Quota.amount ops n
  | .first _ => 0
  | .again _ _ => 0

omit hm hf hpos in
theorem amount_append (a b : List (QuotaOperation D)) (n : Bytes) : amount (a ++ b) n = amount a n + amount b n := by
  simp [amount, quotaReported, List.flatMap_append]

omit hm hf hpos in
/-- The aggregate of operations with integer amounts carries their totals. -/
theorem Sum.amount {ops : List (QuotaOperation D)} {o : QuotaOperation D} (hs : Sum E cfg ops o)
    (hint : ∀ n, ∀ v ∈ quotaReported ops n, IsInt v) (n : Bytes) : Quota.amount [o] n = Quota.amount ops n := by
  obtain ⟨x, xs, a, rfl, ha, rfl⟩ := hs
  obtain ⟨_, h2, h3, h4⟩ := C23_quota_sum E.dbg cfg.U x xs a ha hint
  generalize a.toProto cfg.U = p at *
  by_cases hn : n ∈ p.quotaMetrics.map (·.name)
  · obtain ⟨s, hs, rfl⟩ := List.mem_map.mp hn
    obtain ⟨v, hv1, hv2⟩ := h4 s hs
    have hf : p.quotaMetrics.filter (fun t => decide (t.name = s.name)) = [s] := by
      clear hn h3 h4
      revert hs h2
      generalize p.quotaMetrics = L
      intro h2 hs
      induction L with
      | nil => cases hs
      | cons y L ih =>
        simp only [List.map_cons, List.nodup_cons] at h2
        rw [List.filter_cons]
        rcases List.mem_cons.mp hs with rfl | hs'
        · rw [if_pos (by simp), List.filter_eq_nil_iff.mpr]
          intro z hz hc
          exact h2.1 (List.mem_map.mpr ⟨z, hz, by simpa using hc⟩)
        · rw [if_neg, ih h2.2 hs']
          intro hc
          have : y.name = s.name := by simpa using hc
          exact h2.1 (List.mem_map.mpr ⟨s, hs', this.symm⟩)
    simp only [Quota.amount, quotaReported, List.flatMap_cons, List.flatMap_nil, List.append_nil, hf, hv1, List.head?_cons,
      Option.toList_some, List.map_cons, List.map_nil, List.sum_cons, List.sum_nil, intOf, hv2]
    rw [Int.add_zero]
  · have e1 : quotaReported [p] n = [] := by
      simp only [quotaReported, List.flatMap_cons, List.flatMap_nil, List.append_nil]
      rw [List.filter_eq_nil_iff.mpr]
      · rfl
      · intro z hz hc; exact hn (List.mem_map.mpr ⟨z, hz, by simpa using hc⟩)
    have e2 : quotaReported (x :: xs) n = [] := by
      have hnn : n ∉ quotaNames (x :: xs) := fun hc => hn ((h3 n).mpr hc)
      unfold quotaReported
      rw [show ((x :: xs).flatMap fun o => o.quotaMetrics.filter fun s => decide (s.name = n)) = [] from ?_]
      · rfl
      · rw [List.flatMap_eq_nil_iff]
        intro o ho
        rw [List.filter_eq_nil_iff]
        intro z hz hc
        exact hnn (List.mem_flatMap.mpr ⟨o, ho, List.mem_map.mpr ⟨z, hz, by simpa using hc⟩⟩)
    unfold Quota.amount
    rw [e1, e2]

omit hm hf hpos in
theorem absorbed_requests (k : Bytes) (h : Hist D) : ∀ o ∈ absorbed cfg k h, ∃ r ∈ requests h, r.op = o := by
  induction h with
  | nil => simp [absorbed]
  | cons ev h ih =>
    intro o ho
    rcases List.mem_append.mp ho with ho | ho
    · obtain ⟨r, h1, h2⟩ := ih o ho
      exact ⟨r, requests_mono r h1, h2⟩
    · unfold absorbedBy at ho
      split at ho
      · rename_i r hc
        split at ho
        · split at ho
          · rw [List.mem_singleton] at ho
            exact ⟨r, requests_self hc, ho.symm⟩
          · cases ho
        · cases ho
      · cases ho

/-- C46 in tokens: for requests with integer amounts, for every metric, the tokens of the operations
answered positively from existing entries are those of the requests passed on for them, those
discarded, and those still held. -/
theorem C46_token_totals (r : Reach E cfg h s) (hnc : NoCollision cfg.H h) (k : Bytes)
    (hint : ∀ q ∈ requests h, ∀ n, ∀ v ∈ quotaReported [q.op] n, IsInt v) :
    ∃ items pend, Ledger E cfg k h items pend ∧ ∀ n, amount (absorbed cfg k h) n = (items.map (·.amount n)).sum +
      match heldOf cfg k s with
      | none => 0
      | some o => amount [o] n := by
  obtain ⟨items, pend, hl, hh⟩ := C46_conservation hm hf hpos r hnc k
  refine ⟨items, pend, hl, fun n => ?_⟩
  have hin : ∀ o ∈ absorbed cfg k h, ∀ n, ∀ v ∈ quotaReported [o] n, IsInt v := by
    intro o ho
    obtain ⟨r, h1, rfl⟩ := absorbed_requests k h o ho
    exact hint r h1
  have hsub : ∀ ops : List (QuotaOperation D), (∀ o ∈ ops, o ∈ absorbed cfg k h) → ∀ n, ∀ v ∈ quotaReported ops n, IsInt v := by
    intro ops hops n v hv
    simp only [quotaReported, List.mem_flatMap] at hv
    obtain ⟨s, ⟨o, ho, hs⟩, hv⟩ := hv
    exact hin o (hops o ho) n v (by simp only [quotaReported, List.mem_flatMap]; exact ⟨s, ⟨o, by simp, hs⟩, hv⟩)
  have hitems : ∀ L : List (Item D), (∀ i ∈ L, i ∈ items) → amount (L.flatMap (·.ops)) n = (L.map (·.amount n)).sum := by
    intro L
    induction L with
    | nil => intro _; rfl
    | cons i L ih =>
      intro hL
      rw [List.flatMap_cons, amount_append, ih (fun j hj => hL j (by simp [hj])), List.map_cons, List.sum_cons]
      congr 1
      have hok := hl.ok i (hL i (by simp))
      have hmem : ∀ o ∈ i.ops, o ∈ absorbed cfg k h := by
        intro o ho
        rw [hl.ops]
        exact List.mem_append_left _ (List.mem_flatMap.mpr ⟨i, hL i (by simp), ho⟩)
      cases i with
      | passed ops q =>
        obtain ⟨o, ho, rfl⟩ := hok
        exact (ho.amount (hsub ops hmem) n).symm
      | lost ops => rfl
      | first r => rfl
      | again r q => rfl
  rw [hl.ops, amount_append, hitems items (fun _ h => h)]
  congr 1
  cases hho : heldOf cfg k s with
  | none => rw [hho] at hh; simp only at hh; subst hh; rfl
  | some o =>
    rw [hho] at hh
    refine (Sum.amount hh (hsub pend (fun o ho => ?_)) n).symm
    rw [hl.ops]; exact List.mem_append_right _ ho

/-- C47: while the entry holds a negative response nothing is added to it or held by it. -/
theorem C47_negative_absorbs_nothing (r : Reach E cfg h s) {c : Call D} (hs : step E cfg (d + 1) c s = .ok (s', out, fl))
    (hnc : NoCollision cfg.H (evOf c s (s', out, fl) :: h)) (k : Bytes) (p : AllocateQuotaResponse)
    (hsv : served cfg.H k (evOf c s (s', out, fl) :: h) = some p) (hneg : p.allocateErrors ≠ []) :
    heldOf cfg k s' = none ∧ absorbedBy cfg k (evOf c s (s', out, fl)) h = [] := by
  obtain ⟨inAll, nid, x, x', _, f, f', hx, hx', hn, hk, _, hh⟩ := at_key hm hf hpos r hs hnc k
  have hv : ∀ q v, x' = some (q, v) → v.agg = none ∧ v.response = p := by
    intro q v hxx
    have hb := f'.base q v hxx
    have : v.response = p := by have := hb.served; rw [hsv] at this; exact (Option.some.inj this).symm
    refine ⟨?_, this⟩
    by_contra hc
    have := hb.pos hc
    unfold Elem.positive at this
    exact hneg (by rw [← ‹v.response = p›]; exact this)
  constructor
  · rw [hh]
    cases x' with
    | none => rfl
    | some y => obtain ⟨q, v⟩ := y; simp [aggAt, (hv q v rfl).1]
  · clear hs hnc hsv f' hx'
    generalize sent cfg.H k (evOf c s (s', out, fl)) = o at hk
    cases hk with
    | bg hb h1 h2 =>
      unfold absorbedBy
      split
      · rename_i q hc
        split
        · rename_i pp hp
          rw [if_neg]
          rintro ⟨h3, _⟩
          rcases h1 q hc with h1 | h1
          · exact h1 h3
          · simp only at hp; rw [h1] at hp; cases hp
        · rfl
      · rfl
    | @create q i p' x hv' hk' hb h1 h2 h3 => exact absurd (by rw [← (hv _ _ rfl).2]; rfl) hneg
    | hit =>
      unfold absorbedBy
      simp only
      rw [if_neg]
      rintro ⟨_, _, h3⟩
      exact hneg (by rw [← (hv _ _ rfl).2]; exact h3)
    | respond => rfl
    | clear => rfl

/-- C47: with a negative response in the entry, `Quota` on its signature sends nothing while a
request is outstanding or the refresh interval has not passed, and else exactly one request: the one
that made the entry, in NORMAL mode. -/
theorem C47_negative_refresh (r : Reach E cfg h s) (q : AllocateQuotaRequest D)
    (hs : step E cfg (d + 1) (.quota q) s = .ok (s', out, fl)) (hv : Valid cfg q)
    (hnc : NoCollision cfg.H (evOf (.quota q) s (s', out, fl) :: h)) (p : AllocateQuotaResponse)
    (hsv : served cfg.H (allocateQuotaSig cfg.H q) h = some p) (hneg : p.allocateErrors ≠ [])
    (hnd : ¬ Destroyed (allocateQuotaSig cfg.H q) (evOf (.quota q) s (s', out, fl)) h) :
    let k := allocateQuotaSig cfg.H q
    let ev := evOf (.quota q) s (s', out, fl)
    out.response = some p ∧
    (waiting cfg.H k h ≠ 0 → sent cfg.H k ev = []) ∧
    (waiting cfg.H k h = 0 → ∃ ev0 i j q0, lastSent cfg.H k h = some ev0 ∧ ev0.reads i ∧ ev.reads j ∧ origin k h = some q0 ∧
      sent cfg.H k ev = if 1000 * cfg.flushMs ≤ E.clk j - E.clk i then
          [{ q0 with allocateOperation := some { q0.op with quotaMode := quotaModeNormal } }] else []) := by
  intro k ev
  obtain ⟨inAll, nid, x, x', _, f, f', hx, hx', hn, hk, _, hh⟩ := at_key hm hf hpos r hs hnc k
  have hxs : ∃ p0 v0, x = some (p0, v0) := by
    cases hxx : x with
    | some y => exact ⟨y.1, y.2, rfl⟩
    | none =>
      exfalso
      have hid : ident k h = none := by rw [hx, hxx]; rfl
      cases h with
      | nil => simp [served] at hsv
      | cons e t => unfold served at hsv; rw [if_pos hid] at hsv; cases hsv
  obtain ⟨p0, v0, rfl⟩ := hxs
  have b := f.base p0 v0 rfl
  have hr : v0.response = p := by have := b.served; rw [hsv] at this; exact (Option.some.inj this).symm
  have hag : v0.agg = none := by
    by_contra hc
    exact hneg (by rw [← hr]; exact b.pos hc)
  have hnp : ¬ v0.positive := by unfold Elem.positive; rw [hr]; exact hneg
  have hbg : ∀ {o y}, BgAt E cfg inAll s.base.tick s'.base.tick (some (p0, v0)) o (some y) → o = [] ∧ y = (p0, v0) := by
    intro o y hb
    obtain ⟨y1, y2⟩ := y
    obtain ⟨v1, h1, h2 | ⟨_, a, i, _, _, _, h5, _⟩⟩ := hb.some_cases
    · cases h1; obtain ⟨rfl, rfl⟩ := h2; exact ⟨rfl, rfl⟩
    · cases h1; rw [hag] at h5; cases h5
  have hw := f.wait p0 v0 rfl
  have hl := f.last p0 v0 rfl
  have hor := b.origin
  clear hsv
  generalize hse : sent cfg.H k (evOf (.quota q) s (s', out, fl)) = o at hk
  cases hk with
  | bg hb h1 h2 =>
    exfalso
    rcases h1 q rfl with h1 | h1
    · exact h1 rfl
    · have := (C44_quota_serves hm hf hpos r q hv hs).2.1
      exact this h1
  | @create r' i p' _ hv' hk' hb h1 h2 h3 =>
    exfalso
    apply hnd
    have hc : Created k (evOf (.quota q) s (s', ⟨.ok, some .default⟩, fl)) h := KStep.created hx hn hx' h3
    exact ⟨by rw [hx]; simp, hc.2⟩
  | @hit r' _ o1 p1 v t1 v1 t2 qs v2 hv' hk' hb hlo hhi hrf hif =>
    obtain ⟨rfl, hpv⟩ := hbg hb
    cases hpv
    have hv1 : v1.response = p ∧ ¬ v1.positive := by
      rcases refresh_cases hrf with ⟨_, rfl, _⟩ | ⟨_, _, rfl, _⟩ | ⟨_, _, rfl, _⟩
      · exact ⟨hr, hnp⟩
      · exact ⟨hr, hnp⟩
      · exact ⟨hr, hnp⟩
    rw [if_neg hv1.2] at hif
    cases hif
    refine ⟨by rw [hv1.1], fun hne => ?_, fun h0 => ?_⟩
    · have hin : v0.inFlight = true := by
        by_contra hc
        rw [hw, if_neg hc] at hne; exact hne rfl
      rcases refresh_cases hrf with ⟨_, _, _, rfl⟩ | ⟨h1, _⟩ | ⟨h1, _⟩
      · rfl
      · rw [hin] at h1; cases h1
      · rw [hin] at h1; cases h1
    · have hin : v0.inFlight = false := by
        by_contra hc
        rw [hw, if_pos (by simpa using hc)] at h0; cases h0
      obtain ⟨ev0, i, h1, h2, h3⟩ := hl
      have hsr : shouldRefresh E cfg v0 t1 = decide (1000 * cfg.flushMs ≤ E.clk t1 - E.clk i) := by
        unfold shouldRefresh; rw [refresh_eq, h3]
      rcases b.refresh hrf with ⟨h4, _⟩ | ⟨_, h5, _, h6, rfl⟩ | ⟨_, h5, _, h6, h7⟩
      · rw [hin] at h4; cases h4
      · refine ⟨ev0, i, t1, v0.request, h1, h2, ⟨hlo, by show t1 < s'.base.tick; omega⟩, hor, ?_⟩
        rw [hsr] at h5
        rw [if_neg (by simpa using h5)]; rfl
      · refine ⟨ev0, i, t1, v0.request, h1, h2, ⟨hlo, by show t1 < s'.base.tick; omega⟩, hor, ?_⟩
        rw [hsr] at h5
        rw [if_pos (by simpa using h5)]
        rcases h7 with ⟨a, h7, _⟩ | ⟨_, h7, _⟩ | ⟨_, _, rfl⟩
        · rw [hag] at h7; cases h7
        · exact absurd h7 hnp
        · rfl

/-- C47: with a negative response in the entry, no other call sends anything for its signature. -/
theorem C47_negative_silent (r : Reach E cfg h s) {c : Call D} (hs : step E cfg (d + 1) c s = .ok (s', out, fl))
    (hnc : NoCollision cfg.H (evOf c s (s', out, fl) :: h)) (k : Bytes) (p : AllocateQuotaResponse)
    (hsv : served cfg.H k h = some p) (hneg : p.allocateErrors ≠ [])
    (hc : ∀ q, c = .quota q → allocateQuotaSig cfg.H q ≠ k) : sent cfg.H k (evOf c s (s', out, fl)) = [] := by
  obtain ⟨inAll, nid, x, x', _, f, f', hx, hx', hn, hk, _, hh⟩ := at_key hm hf hpos r hs hnc k
  have hag : aggAt x = none := by
    cases x with
    | none => rfl
    | some y =>
      obtain ⟨p0, v0⟩ := y
      have b := f.base p0 v0 rfl
      have hr : v0.response = p := by have := b.served; rw [hsv] at this; exact (Option.some.inj this).symm
      show v0.agg = none
      by_contra hc
      exact hneg (by rw [← hr]; exact b.pos hc)
  have hbg : ∀ {o y}, BgAt E cfg inAll s.base.tick s'.base.tick x o y → o = [] := by
    intro o y hb
    cases hb with
    | same => rfl
    | drop => rfl
    | send _ _ _ _ h5 => simp only [aggAt, Option.bind_some] at hag; rw [hag] at h5; cases h5
    | sendDrop _ _ _ _ h5 => simp only [aggAt, Option.bind_some] at hag; rw [hag] at h5; cases h5
  generalize sent cfg.H k (evOf c s (s', out, fl)) = o at hk
  cases hk with
  | bg hb => exact hbg hb
  | create hv hk => exact absurd hk (hc _ rfl)
  | hit hv hk => exact absurd hk (hc _ rfl)
  | respond hk hb => exact hbg hb
  | clear => rfl

/-- C49: storing any response for a signature ends the wait for it. -/
theorem C49_response_unblocks (r : Reach E cfg h s) (q : AllocateQuotaRequest D) (p : AllocateQuotaResponse)
    (hs : step E cfg (d + 1) (.cacheResponse q p) s = .ok (s', out, fl))
    (hnc : NoCollision cfg.H (evOf (.cacheResponse q p) s (s', out, fl) :: h)) :
    waiting cfg.H (allocateQuotaSig cfg.H q) (evOf (.cacheResponse q p) s (s', out, fl) :: h) = 0 := by
  obtain ⟨inAll, nid, x, x', _, f, f', hx, hx', hn, hk, _⟩ := at_key hm hf hpos r hs hnc (allocateQuotaSig cfg.H q)
  generalize hse : sent cfg.H (allocateQuotaSig cfg.H q) (evOf (.cacheResponse q p) s (s', out, fl)) = o at hk
  cases hk with
  | bg hb h1 h2 =>
    have := h2 q p rfl rfl
    subst this
    exact waiting_gone cfg.H hx'
  | respond hkk hb =>
    rw [f'.wait _ _ rfl]
    rfl

/-- C49: with no request outstanding and the refresh interval over since the last one, the next valid `Quota`
of the signature sends exactly one request. -/
theorem C49_refreshes_again (r : Reach E cfg h s) (q : AllocateQuotaRequest D)
    (hs : step E cfg (d + 1) (.quota q) s = .ok (s', out, fl)) (hv : Valid cfg q)
    (hnc : NoCollision cfg.H (evOf (.quota q) s (s', out, fl) :: h))
    (hw : waiting cfg.H (allocateQuotaSig cfg.H q) h = 0)
    (hold : ∀ ev0, lastSent cfg.H (allocateQuotaSig cfg.H q) h = some ev0 → 1000 * cfg.flushMs ≤ E.clk s.base.tick - E.clk ev0.last) :
    (sent cfg.H (allocateQuotaSig cfg.H q) (evOf (.quota q) s (s', out, fl))).length = 1 := by
  obtain ⟨inAll, nid, x, x', _, f, f', hx, hx', hn, hk, _⟩ := at_key hm hf hpos r hs hnc (allocateQuotaSig cfg.H q)
  generalize hse : sent cfg.H (allocateQuotaSig cfg.H q) (evOf (.quota q) s (s', out, fl)) = o at hk
  cases hk with
  | bg hb h1 h2 =>
    exfalso
    rcases h1 q rfl with h1 | h1
    · exact h1 rfl
    · exact (C44_quota_serves hm hf hpos r q hv hs).2.1 h1
  | create => rfl
  | @hit r' _ o1 p v t1 v1 t2 qs v2 hv' hk' hb hlo hhi hrf hif =>
    obtain ⟨v0, rfl, ⟨rfl, rfl⟩ | ⟨_, a, i, _, _, _, _, rfl, rfl⟩⟩ := hb.some_cases
    · have hin : v.inFlight = false := by
        by_contra hc
        rw [f.wait p v rfl, if_pos (by simpa using hc)] at hw; cases hw
      obtain ⟨ev0, i, h1, h2, h3⟩ := f.last p v rfl
      rcases refresh_cases hrf with ⟨h4, _⟩ | ⟨_, h5, _⟩ | ⟨_, _, _, _, q0, _, rfl⟩
      · rw [hin] at h4; cases h4
      · exfalso
        unfold shouldRefresh at h5
        rw [refresh_eq, h3] at h5
        have h6 := hold ev0 h1
        have h7 : E.clk s.base.tick ≤ E.clk t1 := hm.le hlo
        have h8 : E.clk i ≤ E.clk ev0.last := hm.le (Nat.le_of_lt h2.2)
        simp only [decide_eq_false_iff_not] at h5
        omega
      · rfl
    · rcases refresh_cases hrf with ⟨_, _, _, rfl⟩ | ⟨h4, _⟩ | ⟨h4, _⟩
      · rfl
      · cases h4
      · cases h4

/-- Storing a response returns. -/
theorem cacheResponse_returns (r : Reach E cfg h s) (q : AllocateQuotaRequest D) (p : AllocateQuotaResponse) :
    ∃ res, step E cfg (d + 1) (.cacheResponse q p) s = .ok res := by
  obtain ⟨s0, inAll, rfl, hi⟩ := r.inv hm hf hpos
  simp only [step]
  have hh := cacheResponse_hit hm hf cfg inAll d s0 hi.inv hi.out q p
  have hmi := cacheResponse_miss hm hf cfg inAll d s0 hi.inv hi.out q p
  generalize expireAll E cfg inAll s0 = s1 at *
  cases hfk : findKey (allocateQuotaSig cfg.H q) s1.N with
  | none => exact ⟨_, hmi (findKey_none.mp hfk)⟩
  | some e =>
    obtain ⟨A, B, hN, hk, _⟩ := find_split hfk
    exact ⟨_, hh A B e hN hk⟩

/-- C70: an entry disappears only by `FlushAll`, after a `FlushAll`, or when the expiration interval
has passed since a request was last sent for it. -/
theorem C70_kept_until_expiration (r : Reach E cfg h s) {c : Call D} (hs : step E cfg (d + 1) c s = .ok (s', out, fl))
    (hnc : NoCollision cfg.H (evOf c s (s', out, fl) :: h)) (k : Bytes)
    (hd : Destroyed k (evOf c s (s', out, fl)) h) :
    Cleared (evOf c s (s', out, fl) :: h) ∨
    ∃ i j, ((∃ ev0, lastSent cfg.H k h = some ev0 ∧ ev0.reads i) ∨
        (sent cfg.H k (evOf c s (s', out, fl)) ≠ [] ∧ (evOf c s (s', out, fl)).reads i)) ∧
      (evOf c s (s', out, fl)).reads j ∧ 1000 * cfg.expirationMs ≤ E.clk j - E.clk i := by
  obtain ⟨inAll, nid, x, x', hcl, f, f', hx, hx', hn, hk, _, hh⟩ := at_key hm hf hpos r hs hnc k
  have hcl' : inAll = true → Cleared (evOf c s (s', out, fl) :: h) := by
    intro hi
    obtain ⟨e, he, hc⟩ := hcl.mp hi
    exact ⟨e, List.mem_cons_of_mem _ he, hc⟩
  have hdrop : ∀ {v : Elem D} {i}, v.lastRefresh = E.clk i → DropOk E cfg inAll s.base.tick s'.base.tick v →
      Cleared (evOf c s (s', out, fl) :: h) ∨ ∃ j, (evOf c s (s', out, fl)).reads j ∧ 1000 * cfg.expirationMs ≤ E.clk j - E.clk i := by
    intro v i hv hd
    rcases hd with hd | ⟨j, h1, h2, h3⟩
    · exact .inl (hcl' hd)
    · refine .inr ⟨j, ⟨h1, h2⟩, ?_⟩
      unfold shouldDrop at h3
      rw [expiration_eq, hv] at h3
      simpa using h3
  have hbg : ∀ {o}, sent cfg.H k (evOf c s (s', out, fl)) = o ∨ o = [] → BgAt E cfg inAll s.base.tick s'.base.tick x o none → 
      Cleared (evOf c s (s', out, fl) :: h) ∨
      ∃ i j, ((∃ ev0, lastSent cfg.H k h = some ev0 ∧ ev0.reads i) ∨
          (sent cfg.H k (evOf c s (s', out, fl)) ≠ [] ∧ (evOf c s (s', out, fl)).reads i)) ∧
        (evOf c s (s', out, fl)).reads j ∧ 1000 * cfg.expirationMs ≤ E.clk j - E.clk i := by
    intro o ho hb
    cases hb with
    | same => exact absurd (by rw [hx]; rfl) hd.1
    | @drop p v hdr =>
      obtain ⟨ev0, i, h1, h2, h3⟩ := f.last p v rfl
      rcases hdrop h3 hdr with h4 | ⟨j, h4⟩
      · exact .inl h4
      · exact .inr ⟨i, j, .inl ⟨ev0, h1, h2⟩, h4⟩
    | @sendDrop p v a i h1 h2 h3 h4 h5 h6 =>
      rcases hdrop (v := v.sentAt E i) rfl h6 with h7 | ⟨j, h7⟩
      · exact .inl h7
      · refine .inr ⟨i, j, .inr ⟨?_, h2, h3⟩, h7⟩
        rcases ho with ho | ho
        · rw [ho]; simp
        · cases ho
  generalize hse : sent cfg.H k (evOf c s (s', out, fl)) = o at hk
  cases hk with
  | bg hb =>
    cases x' with
    | none => rw [← hse]; exact hbg (.inl hse) hb
    | some y =>
      obtain ⟨p, v⟩ := y
      obtain ⟨v0, rfl, _⟩ := hb.some_cases
      exact absurd (hx'.trans hx.symm) hd.2
  | create hv hk hb => rw [← hse]; exact hbg (.inr rfl) hb
  | hit hv hk hb =>
    obtain ⟨v0, rfl, _⟩ := hb.some_cases
    exact absurd (hx'.trans hx.symm) hd.2
  | respond hk hb =>
    obtain ⟨v0, rfl, _⟩ := hb.some_cases
    exact absurd (hx'.trans hx.symm) hd.2
  | clear => exact .inl ⟨_, List.mem_cons_self, rfl⟩

/-- C71, the part that holds: a request is sent for an existing entry only if it had operations
pending or the refresh interval has passed since the last one. -/
theorem C71_refresh_rate_partial (r : Reach E cfg h s) {c : Call D} (hs : step E cfg (d + 1) c s = .ok (s', out, fl))
    (hnc : NoCollision cfg.H (evOf c s (s', out, fl) :: h)) (k : Bytes) (hcr : ¬ Created k (evOf c s (s', out, fl)) h)
    (hse : sent cfg.H k (evOf c s (s', out, fl)) ≠ []) (hnp : heldOf cfg k s = none) :
    ∃ ev0 i j, lastSent cfg.H k h = some ev0 ∧ ev0.reads i ∧ (evOf c s (s', out, fl)).reads j ∧
      1000 * cfg.flushMs ≤ E.clk j - E.clk i := by
  obtain ⟨inAll, nid, x, x', _, f, f', hx, hx', hn, hk, hh, _⟩ := at_key hm hf hpos r hs hnc k
  have hag : aggAt x = none := by
    rw [hh] at hnp
    cases hxx : aggAt x with
    | none => rfl
    | some a => rw [hxx] at hnp; cases hnp
  have hbg : ∀ {o y}, BgAt E cfg inAll s.base.tick s'.base.tick x o y → o = [] := by
    intro o y hb
    cases hb with
    | same => rfl
    | drop => rfl
    | send _ _ _ _ h5 => simp only [aggAt, Option.bind_some] at hag; rw [hag] at h5; cases h5
    | sendDrop _ _ _ _ h5 => simp only [aggAt, Option.bind_some] at hag; rw [hag] at h5; cases h5
  generalize sent cfg.H k (evOf c s (s', out, fl)) = o at hk hse
  cases hk with
  | bg hb => exact absurd (hbg hb) hse
  | create hv hk hb h1 h2 h3 => exact absurd (KStep.created hx hn hx' h3) hcr
  | @hit r' _ o1 p1 v t1 v1 t2 qs v2 hv' hk' hb hlo hhi hrf hif =>
    have ho1 := hbg hb
    subst ho1
    obtain ⟨v0, rfl, ⟨rfl, _⟩ | ⟨_, a, i, _, _, _, h5, _, h6⟩⟩ := hb.some_cases
    · obtain ⟨ev0, i, h1, h2, h3⟩ := f.last p1 v rfl
      rcases refresh_cases hrf with ⟨_, _, _, rfl⟩ | ⟨_, _, _, _, rfl⟩ | ⟨_, h5, _, h6, _⟩
      · exact absurd rfl hse
      · exact absurd rfl hse
      · refine ⟨ev0, i, t1, h1, h2, ⟨hlo, by show t1 < s'.base.tick; omega⟩, ?_⟩
        unfold shouldRefresh at h5
        rw [refresh_eq, h3] at h5
        simpa using h5
    · cases h6
  | respond hk hb => exact absurd (hbg hb) hse
  | clear => exact absurd rfl hse

/-! ### A full cache -/

omit hm hf hpos in
theorem requeue_length (inAll : Bool) (x : QElem D) (s : S D) :
    (requeue E cfg inAll x s).N.length ≤ s.N.length + 1 ∧ s.t ≤ (requeue E cfg inAll x s).t ∧
      (requeue E cfg inAll x s).t ≤ s.t + 3 := by
  unfold requeue
  split
  · simp
  · split
    · simp
    · simp only [sendE]
      split
      · simp only [List.length_cons]; omega
      · simp only [List.length_cons]; omega

omit hm hf hpos in
theorem expire_length (inAll : Bool) (th : Int) (R : List (QElem D)) :
    ∀ s : S D, (expire E cfg inAll th R s).N.length ≤ s.N.length + R.length ∧ s.t ≤ (expire E cfg inAll th R s).t ∧
      (expire E cfg inAll th R s).t ≤ s.t + 3 * R.length := by
  induction R with
  | nil => intro s; simp [expire]
  | cons x R ih =>
    intro s
    unfold expire
    split
    · have h1 := ih (requeue E cfg inAll x s)
      have h2 := requeue_length (E := E) (cfg := cfg) inAll x s
      simp only [List.length_cons]; omega
    · simp

omit hm hf hpos in
/-- An entry that is due to be dropped is dropped or left alone. -/
theorem expire_due (inAll : Bool) (th : Int) (R : List (QElem D)) (y : QElem D) :
    ∀ s : S D, y ∈ R → (∀ j, s.t ≤ j → shouldDrop E cfg y.val j = true) →
      y ∈ (expire E cfg inAll th R s).N ∨ (expire E cfg inAll th R s).N.length < s.N.length + R.length := by
  induction R with
  | nil => intro s hy; cases hy
  | cons x R ih =>
    intro s hy hd
    unfold expire
    split
    · have h2 := requeue_length (E := E) (cfg := cfg) inAll x s
      rcases List.mem_cons.mp hy with rfl | hy
      · right
        have h1 := expire_length (E := E) (cfg := cfg) inAll th R (requeue E cfg inAll y s)
        have : (requeue E cfg inAll y s).N.length = s.N.length := by
          unfold requeue
          split
          · rfl
          · rw [if_pos (hd _ (Nat.le_refl _))]
        simp only [List.length_cons]; omega
      · rcases ih (requeue E cfg inAll x s) hy (fun j hj => hd j (by omega)) with h3 | h3
        · exact .inl h3
        · right; simp only [List.length_cons]; omega
    · left; simp only [List.mem_append, List.mem_reverse]; exact .inr hy

omit hm hf hpos in
theorem evict_due (inAll : Bool) (R : List (QElem D)) (y : QElem D) :
    ∀ nid t, y ∈ R → (∀ j, t ≤ j → shouldDrop E cfg y.val j = true) → evict E cfg inAll R nid t ≠ none := by
  induction R with
  | nil => intro nid t hy; cases hy
  | cons x R ih =>
    intro nid t hy hd
    unfold evict
    split
    · simp
    · split
      · simp
      · rename_i h1 h2
        rcases List.mem_cons.mp hy with rfl | hy
        · exact absurd (hd t (Nat.le_refl _)) h2
        · have := ih (nid + 1) (t + 2) hy (fun j hj => hd j (by omega))
          cases he : evict E cfg inAll R (nid + 1) (t + 2) with
          | none => exact absurd he this
          | some z => simp

omit hm hf hpos in
theorem evict_stuck (R : List (QElem D)) :
    ∀ nid t, (∀ y ∈ R, ∀ j, t ≤ j → j < t + 2 * R.length → shouldDrop E cfg y.val j = false) →
      evict E cfg false R nid t = none := by
  induction R with
  | nil => intro nid t _; rfl
  | cons x R ih =>
    intro nid t hd
    unfold evict
    rw [if_neg (by simp), if_neg (by rw [hd x (by simp) t (Nat.le_refl _) (by simp only [List.length_cons]; omega)]; simp)]
    rw [ih (nid + 1) (t + 2) (fun y hy j h1 h2 => hd y (by simp [hy]) j (by omega) (by simp only [List.length_cons]; omega))]

omit hm hf hpos in
theorem expireAll_due (inAll : Bool) (s : S D) (y : QElem D) (hy : y ∈ s.N)
    (hd : ∀ j, s.t ≤ j → shouldDrop E cfg y.val j = true) :
    y ∈ (expireAll E cfg inAll s).N ∨ (expireAll E cfg inAll s).N.length < s.N.length := by
  unfold expireAll
  split
  · have := expire_due (E := E) (cfg := cfg) inAll (E.clk s.t - limitOf cfg) s.N.reverse y ⟨[], s.nid, s.t + 1, s.out⟩
      (by simpa using hy) (fun j hj => hd j (by simp only at hj; omega))
    simpa using this
  · exact .inl hy

omit hm hf hpos in
theorem expireAll_t (inAll : Bool) (s : S D) : (expireAll E cfg inAll s).t ≤ s.t + 1 + 3 * s.N.length := by
  unfold expireAll
  split
  · have := (expire_length (E := E) (cfg := cfg) inAll (E.clk s.t - limitOf cfg) s.N.reverse ⟨[], s.nid, s.t + 1, s.out⟩).2.2
    simpa using this
  · omega

/-- Events of a reached history ended before now. -/
theorem ticks (r : Reach E cfg h s) : ∀ ev ∈ h, ev.first ≤ ev.last ∧ ev.last ≤ s.base.tick := by
  induction r with
  | init => simp
  | @call h s d c s' out fl r hs ih =>
    obtain ⟨s0, inAll, rfl, hi⟩ := r.inv hm hf hpos
    obtain ⟨s1, inAll', o, rfl, _, ht, _⟩ := hi.step hm hf hpos hs
    have ht' : (stateOf cfg inAll s0).base.tick ≤ (stateOf cfg inAll' s1).base.tick := ht
    intro ev hev
    rcases List.mem_cons.mp hev with rfl | hev
    · exact ⟨ht', Nat.le_refl _⟩
    · have := ih ev hev; omega

/-- C48, the part that holds: on a cache without room `Quota` of a new signature returns if
`FlushAll` was ever called, or if the expiration interval has passed since the last request sent for
one of the entries.  (C44 has the cases with room.)  `d` bounds the nesting of deleter calls and may
be anything from the number of entries on. -/
theorem C48_full_cache_returns_partial (r : Reach E cfg h s) (hnc : NoCollision cfg.H h) (q : AllocateQuotaRequest D)
    (hv : Valid cfg q) (hid : ident (allocateQuotaSig cfg.H q) h = none) (hd : cfg.numEntries ≤ (d + 1 : Nat))
    (hc : Cleared h ∨ ∃ k ev0, ident k h ≠ none ∧ lastSent cfg.H k h = some ev0 ∧
      1000 * cfg.expirationMs ≤ E.clk s.base.tick - E.clk ev0.last) :
    ∃ s' fl, step E cfg (d + 1) (.quota q) s = .ok (s', ⟨.ok, some .default⟩, fl) := by
  obtain ⟨s0, inAll, rfl, hi⟩ := r.inv hm hf hpos
  have hinv := (removeExpired_eq hm hf cfg inAll d s0 hi.inv).2
  obtain ⟨ht1, hn1, hbg⟩ := expireAll_bg E cfg inAll s0 hi.inv.keys hi.out
  simp only [step]
  have hrm := quota_miss_room hm hf cfg inAll d s0 hi.inv hi.out q hv
  have hfl := quota_miss_full hm hf cfg inAll d s0 hi.inv hi.out q hv
  have hev0 : inAll = true ∨ ∃ y ∈ s0.N, ∀ j, s0.t ≤ j → shouldDrop E cfg y.val j = true := by
    rcases hc with hc | ⟨k, ev0, h1, h2, h3⟩
    · exact .inl (hi.all.mpr hc)
    · right
      rw [hi.id] at h1
      cases hv0 : view s0.N k with
      | none => rw [hv0] at h1; exact absurd rfl h1
      | some y =>
        obtain ⟨p, v⟩ := y
        obtain ⟨ev1, i, h4, h5, h6⟩ := (hi.full hnc k).last p v hv0
        rw [h2] at h4; cases h4
        obtain ⟨e, he, _, _, rfl⟩ := (view_some hi.inv.keys).mp hv0
        refine ⟨e, he, fun j hj => ?_⟩
        unfold shouldDrop
        rw [expiration_eq, h6]
        have a1 := hm.le hj
        have a2 := hm.le (Nat.le_of_lt h5.2)
        have a3 : (stateOf cfg inAll s0).base.tick = s0.t := rfl
        rw [a3] at h3
        simp only [decide_eq_true_eq]; omega
  have hno : ∀ e ∈ (expireAll E cfg inAll s0).N, e.key ≠ allocateQuotaSig cfg.H q := by
    rw [hi.id] at hid
    have hvn : view s0.N (allocateQuotaSig cfg.H q) = none := by
      cases hv0 : view s0.N (allocateQuotaSig cfg.H q) with
      | none => rfl
      | some y => rw [hv0] at hid; cases hid
    exact view_none.mp (hbg.sub _ hvn)
  by_cases hroom : ((expireAll E cfg inAll s0).N.length : Int) < cfg.numEntries
  · exact ⟨_, _, hrm hno hroom⟩
  · have hfull : ((expireAll E cfg inAll s0).N.length : Int) = cfg.numEntries := by have := hinv.len; omega
    have hne : evict E cfg inAll (expireAll E cfg inAll s0).N.reverse ((expireAll E cfg inAll s0).nid + 1)
        ((expireAll E cfg inAll s0).t + 2) ≠ none := by
      rcases hev0 with rfl | ⟨y, hy, hdue⟩
      · cases hR : (expireAll E cfg true s0).N.reverse with
        | nil =>
          have : (expireAll E cfg true s0).N.length = 0 := by rw [← List.length_reverse, hR]; rfl
          omega
        | cons x R => simp [evict]
      · rcases expireAll_due (E := E) (cfg := cfg) inAll s0 y hy hdue with h1 | h1
        · exact evict_due inAll _ y _ _ (by simpa using h1) (fun j hj => hdue j (by omega))
        · have := hi.inv.len; omega
    cases he : evict E cfg inAll (expireAll E cfg inAll s0).N.reverse ((expireAll E cfg inAll s0).nid + 1)
        ((expireAll E cfg inAll s0).t + 2) with
    | none => exact absurd he hne
    | some z =>
      obtain ⟨F, R', nid', t', o⟩ := z
      have hlen := evict_length E cfg inAll _ _ _ _ _ _ _ _ he
      rw [List.length_reverse] at hlen
      exact ⟨_, _, ((hfl hno hpos hfull).1 F R' nid' t' o he).1 (by omega)⟩

/-- C48 is false: on a full cache, `Quota` of a new signature never returns, whatever the depth to
which deleter calls may nest, unless the expiration interval passes for some entry during the first
few clock readings (five per entry). -/
theorem C48_false_full_cache (r : Reach E cfg h s) (hnc : NoCollision cfg.H h) (q : AllocateQuotaRequest D)
    (hv : Valid cfg q) (hid : ident (allocateQuotaSig cfg.H q) h = none)
    (hfull : ((entriesOf s).length : Int) = cfg.numEntries) (hcl : ¬ Cleared h)
    (hexp : ∀ k ev0 j, ident k h ≠ none → lastSent cfg.H k h = some ev0 → s.base.tick ≤ j →
      j < s.base.tick + 5 * cfg.numEntries.toNat + 3 → E.clk j - E.clk ev0.first < 1000 * cfg.expirationMs) :
    ∃ err, step E cfg (d + 1) (.quota q) s = .error err := by
  have htk := ticks hm hf hpos r
  obtain ⟨s0, inAll, rfl, hi⟩ := r.inv hm hf hpos
  have hinv := (removeExpired_eq hm hf cfg inAll d s0 hi.inv).2
  obtain ⟨ht1, hn1, hbg⟩ := expireAll_bg E cfg inAll s0 hi.inv.keys hi.out
  simp only [step]
  have hfl := quota_miss_full hm hf cfg inAll d s0 hi.inv hi.out q hv
  have hin : inAll = false := by
    cases hia : inAll with
    | false => rfl
    | true => exact absurd (hi.all.mp hia) hcl
  have htt := expireAll_t (E := E) (cfg := cfg) inAll s0
  have hlen0 : (s0.N.length : Int) = cfg.numEntries := by simpa [entriesOf, stateOf, cacheOf] using hfull
  have hN : s0.N.length = cfg.numEntries.toNat := by omega
  rw [hN] at htt
  change ∀ ev ∈ h, ev.first ≤ ev.last ∧ ev.last ≤ s0.t at htk
  change ∀ k ev0 j, ident k h ≠ none → lastSent cfg.H k h = some ev0 → s0.t ≤ j →
      j < s0.t + 5 * cfg.numEntries.toNat + 3 → E.clk j - E.clk ev0.first < 1000 * cfg.expirationMs at hexp
  have hdue : ∀ k p v, view s0.N k = some (p, v) → ∀ j, s0.t ≤ j → j < s0.t + 5 * cfg.numEntries.toNat + 3 →
      shouldDrop E cfg v j = false ∧ ∀ i, s0.t ≤ i → shouldDrop E cfg (v.sentAt E i) j = false := by
    intro k p v hk j h1 h2
    obtain ⟨ev1, i, h4, h5, h6⟩ := (hi.full hnc k).last p v hk
    have h7 := hexp k ev1 j (by rw [hi.id, hk]; simp) h4 h1 h2
    have a1 := hm.le h5.1
    have hmem : ev1 ∈ h := List.mem_of_find?_eq_some h4
    have a2 := htk ev1 hmem
    refine ⟨?_, fun i' hi' => ?_⟩
    · unfold shouldDrop
      rw [expiration_eq, h6]
      simp only [decide_eq_false_iff_not]; omega
    · unfold shouldDrop
      rw [expiration_eq]
      have a3 := hm.le (Nat.le_trans a2.1 (Nat.le_trans a2.2 hi'))
      simp only [decide_eq_false_iff_not]; omega
  have hat : ∀ k p v, view s0.N k = some (p, v) → ∃ v', view (expireAll E cfg inAll s0).N k = some (p, v') ∧
      ∀ j, (expireAll E cfg inAll s0).t ≤ j → j < s0.t + 5 * cfg.numEntries.toNat + 3 → shouldDrop E cfg v' j = false := by
    intro k p v hk
    have hb := hbg.at k
    rw [hk] at hb
    have hdk := hdue k p v hk
    generalize view (expireAll E cfg inAll s0).N k = y at hb ⊢
    generalize outAt k (expireAll E cfg inAll s0).out = oo at hb
    cases hb with
    | same => exact ⟨v, rfl, fun j h1 h2 => (hdk j (by omega) h2).1⟩
    | drop hd =>
      rcases hd with hd | ⟨j, h1, h2, h3⟩
      · rw [hin] at hd; cases hd
      · rw [(hdk j h1 (by omega)).1] at h3; cases h3
    | @send _ _ a i _ h2 _ _ _ => exact ⟨_, rfl, fun j h3 h4 => (hdk j (by omega) h4).2 i h2⟩
    | @sendDrop _ _ a i _ h2 _ _ _ hd =>
      rcases hd with hd | ⟨j, h3, h4, h5⟩
      · rw [hin] at hd; cases hd
      · rw [(hdk j h3 (by omega)).2 i h2] at h5; cases h5
  have hno : ∀ e ∈ (expireAll E cfg inAll s0).N, e.key ≠ allocateQuotaSig cfg.H q := by
    rw [hi.id] at hid
    have hvn : view s0.N (allocateQuotaSig cfg.H q) = none := by
      cases hv0 : view s0.N (allocateQuotaSig cfg.H q) with
      | none => rfl
      | some y => rw [hv0] at hid; cases hid
    exact view_none.mp (hbg.sub _ hvn)
  have hle : s0.N.length ≤ (expireAll E cfg inAll s0).N.length := by
    refine length_le_of_sub hi.inv.keys (fun k hk => ?_)
    cases hv0 : view s0.N k with
    | none => rfl
    | some y =>
      obtain ⟨v', h1, _⟩ := hat k y.1 y.2 hv0
      rw [hk] at h1; cases h1
  have hfull1 : ((expireAll E cfg inAll s0).N.length : Int) = cfg.numEntries := by have := hinv.len; omega
  refine (hfl hno hpos hfull1).2.1 ?_
  subst hin
  refine evict_stuck _ _ _ (fun y hy j h1 h2 => ?_)
  have hyN : y ∈ (expireAll E cfg false s0).N := by simpa using hy
  have hvy : view (expireAll E cfg false s0).N y.key = some (y.ptr, y.val) := (view_some hinv.keys).mpr ⟨y, hyN, rfl, rfl, rfl⟩
  cases hv0 : view s0.N y.key with
  | none => have := hbg.sub _ hv0; rw [hvy] at this; cases this
  | some z =>
    obtain ⟨v', h3, h4⟩ := hat y.key z.1 z.2 hv0
    rw [hvy] at h3
    simp only [Option.some.injEq, Prod.mk.injEq] at h3
    rw [h3.2]
    refine h4 j (by omega) ?_
    rw [List.length_reverse] at h2
    omega

end
/-! ### Examples -/
section examples

def run (E : Env) (cfg : AggConfig) (d : Nat) (cs : List (Call D)) : Res (Hist D × State D) := do
  let s ← new E cfg (d + 1)
  cs.foldlM (fun p c => do
    let (s', out, fl) ← step E cfg (d + 1) c p.2
    .ok (⟨c, out, fl, p.2.base.tick, s'.base.tick, entriesOf s'⟩ :: p.1, s'))
    ([], { s with base := s.base.setFlushCallback true })

theorem run_reach (d : Nat) (cs : List (Call D)) (h : Hist D) (s : State D) (hr : run E cfg d cs = .ok (h, s)) :
    Reach E cfg h s := by
  unfold run at hr
  cases hn : new (D := D) E cfg (d + 1) with
  | error e => simp [hn, bind, Except.bind] at hr
  | ok s0 =>
    rw [hn] at hr
    simp only [bind, Except.bind] at hr
    have hgen : ∀ (cs : List (Call D)) (h0 : Hist D) (s0 : State D), Reach E cfg h0 s0 →
        cs.foldlM (fun (p : Hist D × State D) c => do
          let (s', out, fl) ← step E cfg (d + 1) c p.2
          Except.ok (⟨c, out, fl, p.2.base.tick, s'.base.tick, entriesOf s'⟩ :: p.1, s')) (h0, s0) = Except.ok (h, s) →
        Reach E cfg h s := by
      intro cs
      induction cs with
      | nil =>
        intro h0 s0 r hr
        simp only [List.foldlM_nil, pure, Except.pure] at hr
        cases hr; exact r
      | cons c cs ih =>
        intro h0 s0 r hr
        simp only [List.foldlM_cons, bind, Except.bind] at hr
        cases hst : step E cfg (d + 1) c s0 with
        | error e => rw [hst] at hr; cases hr
        | ok v =>
          obtain ⟨s', out, fl⟩ := v
          rw [hst] at hr
          exact ih _ _ (.call r hst) hr
    exact hgen cs [] _ (.init hn) hr

/-- A way to see `NoCollision` on examples. -/
theorem noCollision_of (H : Bytes → Bytes) (h : Hist D)
    (hc : ∀ r ∈ requests h, ∀ r' ∈ requests h, allocateQuotaSig H r = allocateQuotaSig H r' →
      r.op.methodName = r'.op.methodName ∧ r.op.consumerId = r'.op.consumerId ∧
      r.op.quotaMetrics.map (·.name) = r'.op.quotaMetrics.map (·.name)) : NoCollision H h := by
  intro r hr r' hr' he
  obtain ⟨h1, h2, h3⟩ := hc r hr r' hr' he
  exact ⟨h1, h2, fun n => by rw [h3]⟩

/-- Examples are evaluated by the kernel. -/
theorem run_case (d : Nat) (cs : List (Call D)) (P : Hist D → State D → Prop) [∀ h s, Decidable (P h s)]
    (hb : (match run E cfg d cs with | .ok (h, s) => decide (P h s) | .error _ => false) = true) :
    ∃ h s, run E cfg d cs = .ok (h, s) ∧ Reach E cfg h s ∧ P h s := by
  cases hr : run E cfg d cs with
  | error e => rw [hr] at hb; cases hb
  | ok v =>
    rw [hr] at hb
    exact ⟨v.1, v.2, rfl, run_reach d cs _ _ hr, of_decide_eq_true hb⟩

/-- The same signature only for the same names. -/
abbrev SeenApart (H : Bytes → Bytes) (h : Hist D) : Prop :=
  ∀ r ∈ requests h, ∀ r' ∈ requests h, allocateQuotaSig H r = allocateQuotaSig H r' →
      r.op.methodName = r'.op.methodName ∧ r.op.consumerId = r'.op.consumerId ∧
      r.op.quotaMetrics.map (·.name) = r'.op.quotaMetrics.map (·.name)

/-- Clock readings come in groups of four, 1 ms apart. -/
def exEnv : Env := ⟨fun i => 1000 * ((i / 4 : Nat) : Int), true, 1, .insertion⟩

theorem exEnv_mono : Mono exEnv.clk := by
  constructor
  · simp [exEnv]
  · intro i; simp only [exEnv]; omega

/-- Service "s", two entries, refresh interval 3 ms, expiration 10 ms. -/
def exCfg : AggConfig := ⟨[115], [49], 2, 3, 10, none, fun b => b, .insertion, fun ms => 1000 * ms⟩

/-- A request for `i` tokens of one metric by method `n`, in BEST_EFFORT mode. -/
def exQ (n : UInt8) (i : Int) : AllocateQuotaRequest Int :=
  ⟨[115], some ⟨[], [n], [2], [], [⟨[9], [exVal i 0 0]⟩], quotaModeBestEffort, []⟩, [49], []⟩

def exYes (n : UInt8) : AllocateQuotaResponse := ⟨[], [n]⟩
def exNo : AllocateQuotaResponse := ⟨[[1]], []⟩

/-- The int64 tokens of a request. -/
def tokens (q : AllocateQuotaRequest Int) : Int :=
  (q.op.quotaMetrics.flatMap (fun s => s.values.map (fun v => match v.value with | .int64 i => i | _ => 0))).sum

abbrev exSig (n : UInt8) : Bytes := allocateQuotaSig exCfg.H (exQ n 0)

/-- Two token requests answered from the cache are summed and sent as one by the `Flush` that comes
after the refresh interval; two signatures are kept apart. -/
theorem example_aggregate : ∃ h s, run exEnv exCfg 2
      ([.quota (exQ 1 5), .cacheResponse (exQ 1 5) (exYes 1), .quota (exQ 1 7), .quota (exQ 2 1), .quota (exQ 1 8)] ++
        List.replicate 6 .flush) = .ok (h, s) ∧ Reach exEnv exCfg h s ∧ NoCollision exCfg.H h ∧
    (absorbed exCfg (exSig 1) h).length = 2 ∧
    (sentAll exCfg.H (exSig 1) h).map tokens = [5, 15] ∧ (sentAll exCfg.H (exSig 2) h).map tokens = [1] ∧
    waiting exCfg.H (exSig 1) h = 1 ∧ served exCfg.H (exSig 1) h = some (exYes 1) ∧ heldOf exCfg (exSig 1) s = none := by
  obtain ⟨h, s, h1, h2, h3, h4⟩ := run_case (E := exEnv) (cfg := exCfg) 2
      ([.quota (exQ 1 5), .cacheResponse (exQ 1 5) (exYes 1), .quota (exQ 1 7), .quota (exQ 2 1), .quota (exQ 1 8)] ++
        List.replicate 6 .flush) (fun h s => SeenApart exCfg.H h ∧ (absorbed exCfg (exSig 1) h).length = 2 ∧
    (sentAll exCfg.H (exSig 1) h).map tokens = [5, 15] ∧ (sentAll exCfg.H (exSig 2) h).map tokens = [1] ∧
    waiting exCfg.H (exSig 1) h = 1 ∧ served exCfg.H (exSig 1) h = some (exYes 1) ∧ heldOf exCfg (exSig 1) s = none)
    (by decide +kernel)
  exact ⟨h, s, h1, h2, noCollision_of _ _ h3, h4⟩

/-- C46 cannot be strengthened to "every accepted token is sent": the 7 tokens of the second call
were answered positively and are discarded by the negative response (and by `FlushAll` in the same
way), after which nothing is held for the signature. -/
theorem C46_false_tokens_discarded : ∃ h s h' s',
    run exEnv exCfg 2 [.quota (exQ 1 5), .cacheResponse (exQ 1 5) (exYes 1), .quota (exQ 1 7),
      .cacheResponse (exQ 1 5) exNo] = .ok (h, s) ∧ Reach exEnv exCfg h s ∧
    ((absorbed exCfg (exSig 1) h) = [(exQ 1 7).op] ∧
      (sentAll exCfg.H (exSig 1) h).map tokens = [5] ∧ heldOf exCfg (exSig 1) s = none) ∧
    run exEnv exCfg 2 [.quota (exQ 1 5), .cacheResponse (exQ 1 5) (exYes 1), .quota (exQ 1 7), .flushAll] = .ok (h', s') ∧
    Reach exEnv exCfg h' s' ∧ (absorbed exCfg (exSig 1) h') = [(exQ 1 7).op] ∧
    (sentAll exCfg.H (exSig 1) h').map tokens = [5] ∧ entriesOf s' = [] := by
  obtain ⟨h, s, h1, h2, h3⟩ := run_case (E := exEnv) (cfg := exCfg) 2
    [.quota (exQ 1 5), .cacheResponse (exQ 1 5) (exYes 1), .quota (exQ 1 7), .cacheResponse (exQ 1 5) exNo]
    (fun h s => (absorbed exCfg (exSig 1) h) = [(exQ 1 7).op] ∧
      (sentAll exCfg.H (exSig 1) h).map tokens = [5] ∧ heldOf exCfg (exSig 1) s = none) (by decide +kernel)
  obtain ⟨h', s', h4, h5, h6⟩ := run_case (E := exEnv) (cfg := exCfg) 2
    [.quota (exQ 1 5), .cacheResponse (exQ 1 5) (exYes 1), .quota (exQ 1 7), .flushAll]
    (fun h' s' => (absorbed exCfg (exSig 1) h') = [(exQ 1 7).op] ∧
      (sentAll exCfg.H (exSig 1) h').map tokens = [5] ∧ entriesOf s' = []) (by decide +kernel)
  exact ⟨h, s, h', s', h1, h2, h3, h4, h5, h6⟩

/-- Calls that show C71 and C72 false. -/
def exCalls : List (Call Int) :=
  [.quota (exQ 1 5), .cacheResponse (exQ 1 5) (exYes 1)] ++ List.replicate 6 .flush ++
    [.quota (exQ 1 7), .cacheResponse (exQ 1 5) (exYes 2), .flush, .flush]

/-- C49: after a response, and once the refresh interval has passed, a request is sent again. -/
example : ∃ (h : Hist Int) (s : State Int), Reach exEnv exCfg h s ∧ waiting exCfg.H (exSig 1) h.tail = 0 ∧ NoCollision exCfg.H h ∧
    h.tail.length = 14 ∧ (∀ ev0, lastSent exCfg.H (exSig 1) h.tail = some ev0 →
      ∃ ev, h.head? = some ev ∧ 1000 * exCfg.flushMs ≤ exEnv.clk ev.first - exEnv.clk ev0.last ∧ (sent exCfg.H (exSig 1) ev).length = 1) := by
  obtain ⟨h, s, h1, hr, h2, h3, h4, h5⟩ := run_case (E := exEnv) (cfg := exCfg) 2
    ([.quota (exQ 1 5), .cacheResponse (exQ 1 5) .default] ++ List.replicate 12 .flush ++ [.quota (exQ 1 7)])
    (fun h _ => SeenApart exCfg.H h ∧ waiting exCfg.H (exSig 1) h.tail = 0 ∧ h.tail.length = 14 ∧
      (match lastSent exCfg.H (exSig 1) h.tail, h.head? with
        | some ev0, some ev => decide (1000 * exCfg.flushMs ≤ exEnv.clk ev.first - exEnv.clk ev0.last ∧ (sent exCfg.H (exSig 1) ev).length = 1)
        | _, _ => false) = true) (by decide +kernel)
  refine ⟨h, s, hr, h3, noCollision_of _ _ h2, h4, fun ev0 he => ?_⟩
  rw [he] at h5
  cases hh : h.head? with
  | none => rw [hh] at h5; cases h5
  | some ev => rw [hh] at h5; exact ⟨ev, rfl, of_decide_eq_true h5⟩

/-- C71 is false: the last two requests for the signature are sent at most 2 ms apart, with a
response in between, though the refresh interval is 3 ms. -/
theorem C71_false_too_soon : ∃ h s ev ev' t, run exEnv exCfg 2 exCalls = .ok (h, s) ∧ Reach exEnv exCfg h s ∧
    h = ev :: t ∧ (sent exCfg.H (exSig 1) ev).length = 1 ∧ lastSent exCfg.H (exSig 1) t = some ev' ∧
    exEnv.clk (ev.last - 1) - exEnv.clk ev'.first ≤ 2000 ∧ refreshInterval exCfg = 3000 := by
  obtain ⟨h, s, h1, h2, h3⟩ := run_case (E := exEnv) (cfg := exCfg) 2 exCalls
    (fun h _ => (h.head?.map (fun ev => (sent exCfg.H (exSig 1) ev).length)) = some 1 ∧
      (lastSent exCfg.H (exSig 1) h.tail).map (fun ev' => decide (exEnv.clk ((h.head?.map (·.last)).getD 0 - 1) - exEnv.clk ev'.first ≤ 2000)) = some true)
    (by decide +kernel)
  obtain ⟨h4, h5⟩ := h3
  cases h with
  | nil => cases h4
  | cons ev t =>
    cases hl : lastSent exCfg.H (exSig 1) t with
    | none => simp only [List.tail_cons, hl, Option.map_none] at h5; cases h5
    | some ev' =>
      simp only [List.tail_cons, hl, Option.map_some, Option.some.injEq, List.head?_cons, Option.getD_some] at h5
      exact ⟨_, s, ev, ev', t, h1, h2, rfl, by simpa using h4, hl, of_decide_eq_true h5, by decide⟩

/-- C72 is false: 12 tokens were asked for, 17 are requested of the server. -/
theorem C72_false_charged_twice : ∃ h s, run exEnv exCfg 2 exCalls = .ok (h, s) ∧ Reach exEnv exCfg h s ∧
    ((requests h).map tokens).sum = 12 ∧ (sentAll exCfg.H (exSig 1) h).map tokens = [5, 5, 7] :=
  run_case 2 exCalls (fun h _ => ((requests h).map tokens).sum = 12 ∧ (sentAll exCfg.H (exSig 1) h).map tokens = [5, 5, 7])
    (by decide +kernel)

/-- C73 is false: the same calls, once on a new aggregator and once after a `FlushAll` of the empty
cache.  In the first case the pending 7 tokens are sent and the response stays cached; in the second
the tokens are discarded and the entry is gone. -/
theorem C73_false_after_flushAll : ∃ h s h' s',
    run exEnv exCfg 2 ([.quota (exQ 1 5), .cacheResponse (exQ 1 5) (exYes 1), .quota (exQ 1 7)] ++
      List.replicate 12 .flush) = .ok (h, s) ∧ Reach exEnv exCfg h s ∧
    ((sentAll exCfg.H (exSig 1) h).map tokens = [5, 7] ∧ served exCfg.H (exSig 1) h = some (exYes 1) ∧
      absorbed exCfg (exSig 1) h = [(exQ 1 7).op]) ∧
    run exEnv exCfg 2 (.flushAll :: ([.quota (exQ 1 5), .cacheResponse (exQ 1 5) (exYes 1), .quota (exQ 1 7)] ++
      List.replicate 12 .flush)) = .ok (h', s') ∧ Reach exEnv exCfg h' s' ∧
    (sentAll exCfg.H (exSig 1) h').map tokens = [5] ∧ served exCfg.H (exSig 1) h' = none ∧
    absorbed exCfg (exSig 1) h' = [(exQ 1 7).op] := by
  obtain ⟨h, s, h1, h2, h3⟩ := run_case (E := exEnv) (cfg := exCfg) 2
    ([.quota (exQ 1 5), .cacheResponse (exQ 1 5) (exYes 1), .quota (exQ 1 7)] ++ List.replicate 12 .flush)
    (fun h _ => (sentAll exCfg.H (exSig 1) h).map tokens = [5, 7] ∧ served exCfg.H (exSig 1) h = some (exYes 1) ∧
      absorbed exCfg (exSig 1) h = [(exQ 1 7).op]) (by decide +kernel)
  obtain ⟨h', s', h4, h5, h6⟩ := run_case (E := exEnv) (cfg := exCfg) 2
    (.flushAll :: ([.quota (exQ 1 5), .cacheResponse (exQ 1 5) (exYes 1), .quota (exQ 1 7)] ++ List.replicate 12 .flush))
    (fun h' _ => (sentAll exCfg.H (exSig 1) h').map tokens = [5] ∧ served exCfg.H (exSig 1) h' = none ∧
      absorbed exCfg (exSig 1) h' = [(exQ 1 7).op]) (by decide +kernel)
  exact ⟨h, s, h', s', h1, h2, h3, h4, h5, h6⟩

abbrev Call.isFlushAll : Call D → Bool
  | .flushAll => true
  | _ => false

/-- C48 is false: two entries in a cache of two; the third signature never returns. -/
theorem C48_false_witness : ∃ h s, Reach exEnv exCfg h s ∧ ∀ d, ∃ err, step exEnv exCfg (d + 1) (.quota (exQ 3 1)) s = .error err := by
  obtain ⟨h, s, h1, hr, h2, h3, h4, h5, h6⟩ := run_case (E := exEnv) (cfg := exCfg) 2 [.quota (exQ 1 5), .quota (exQ 2 5)]
    (fun h s => SeenApart exCfg.H h ∧ ident (exSig 3) h = none ∧ ((entriesOf s).length : Int) = exCfg.numEntries ∧
      s.base.tick < 10 ∧ h.all (fun ev => !ev.call.isFlushAll) = true) (by decide +kernel)
  refine ⟨h, s, hr, fun d => ?_⟩
  refine C48_false_full_cache exEnv_mono (by decide) (by decide) hr (noCollision_of _ _ h2) (exQ 3 1)
    ⟨rfl, by decide⟩ h3 h4 ?_ ?_
  · rintro ⟨ev, hev, hc⟩
    have := List.all_eq_true.mp h6 ev hev
    rw [hc] at this; simp at this
  · intro k ev0 j _ _ h7 h8
    have : exCfg.numEntries.toNat = 2 := rfl
    rw [this] at h8
    simp only [exEnv, exCfg]
    omega

/-- The hypotheses of the C48 part occur: `FlushAll` was called, or the entry of the first signature
is as old as the expiration interval. -/
example : ∃ (h : Hist Int) (s : State Int), Reach exEnv exCfg h s ∧ NoCollision exCfg.H h ∧ Cleared h ∧ ident (exSig 3) h = none ∧
    ((entriesOf s).length : Int) = exCfg.numEntries := by
  obtain ⟨h, s, h1, hr, h2, h3, h4, h5⟩ := run_case (E := exEnv) (cfg := exCfg) 2
    [.flushAll, .quota (exQ 1 5), .quota (exQ 2 5)]
    (fun h s => SeenApart exCfg.H h ∧ ident (exSig 3) h = none ∧ ((entriesOf s).length : Int) = exCfg.numEntries ∧
      h.any (fun ev => ev.call.isFlushAll) = true) (by decide +kernel)
  refine ⟨h, s, hr, noCollision_of _ _ h2, ?_, h3, h4⟩
  obtain ⟨ev, hev, hc⟩ := List.any_eq_true.mp h5
  refine ⟨ev, hev, ?_⟩
  cases hcc : ev.call with
  | flushAll => rfl
  | quota => rw [hcc] at hc; cases hc
  | cacheResponse => rw [hcc] at hc; cases hc
  | flush => rw [hcc] at hc; cases hc

example : ∃ (h : Hist Int) (s : State Int), Reach exEnv { exCfg with flushMs := 100 } h s ∧ NoCollision exCfg.H h ∧ ident (exSig 3) h = none ∧
    ((entriesOf s).length : Int) = exCfg.numEntries ∧
    ∃ ev0, ident (exSig 1) h ≠ none ∧ lastSent exCfg.H (exSig 1) h = some ev0 ∧
      1000 * exCfg.expirationMs ≤ exEnv.clk s.base.tick - exEnv.clk ev0.last := by
  obtain ⟨h, s, h1, hr, h2, h3, h4, h5, h6⟩ := run_case (E := exEnv) (cfg := { exCfg with flushMs := 100 }) 2
    ([.quota (exQ 1 5), .quota (exQ 2 5)] ++ List.replicate 40 .flush)
    (fun h s => SeenApart exCfg.H h ∧ ident (exSig 3) h = none ∧ ((entriesOf s).length : Int) = exCfg.numEntries ∧
      ident (exSig 1) h ≠ none ∧
      (lastSent exCfg.H (exSig 1) h).map (fun ev0 => decide (1000 * exCfg.expirationMs ≤ exEnv.clk s.base.tick - exEnv.clk ev0.last)) = some true)
    (by decide +kernel)
  cases hl : lastSent exCfg.H (exSig 1) h with
  | none => rw [hl] at h6; cases h6
  | some ev0 =>
    rw [hl] at h6
    exact ⟨h, s, hr, noCollision_of _ _ h2, h3, h4, ev0, h5, hl, by simpa using h6⟩

/-- The hypotheses of C47 occur: a negative response is served without and with a refresh. -/
example : ∃ (h : Hist Int) (s : State Int), Reach exEnv exCfg h s ∧ NoCollision exCfg.H h ∧ served exCfg.H (exSig 1) h.tail = some exNo ∧
    served exCfg.H (exSig 1) h = some exNo ∧ waiting exCfg.H (exSig 1) h.tail = 0 ∧
    h.map (fun ev => ev.flushed.map (fun q => (tokens q, q.op.quotaMode))) = [[], [], [(5, quotaModeBestEffort)]] := by
  obtain ⟨h, s, h1, hr, h2, h3⟩ := run_case (E := exEnv) (cfg := exCfg) 2
    [.quota (exQ 1 5), .cacheResponse (exQ 1 5) exNo, .quota (exQ 1 7)]
    (fun h _ => SeenApart exCfg.H h ∧ served exCfg.H (exSig 1) h.tail = some exNo ∧
    served exCfg.H (exSig 1) h = some exNo ∧ waiting exCfg.H (exSig 1) h.tail = 0 ∧
    h.map (fun ev => ev.flushed.map (fun q => (tokens q, q.op.quotaMode))) = [[], [], [(5, quotaModeBestEffort)]]) (by decide +kernel)
  exact ⟨h, s, hr, noCollision_of _ _ h2, h3⟩

example : ∃ (h : Hist Int) (s : State Int), Reach exEnv exCfg h s ∧ served exCfg.H (exSig 1) h.tail = some exNo ∧
    (h.take 1).map (fun ev => ev.flushed.map (fun q => (tokens q, q.op.quotaMode))) = [[(5, quotaModeNormal)]] := by
  obtain ⟨h, s, h1, hr, h3⟩ := run_case (E := exEnv) (cfg := exCfg) 2
    ([.quota (exQ 1 5), .cacheResponse (exQ 1 5) exNo] ++ List.replicate 8 .flush ++ [.quota (exQ 1 7)])
    (fun h _ => served exCfg.H (exSig 1) h.tail = some exNo ∧
    (h.take 1).map (fun ev => ev.flushed.map (fun q => (tokens q, q.op.quotaMode))) = [[(5, quotaModeNormal)]]) (by decide +kernel)
  exact ⟨h, s, hr, h3⟩

/-- The hypotheses of C70 occur: an entry unused for the expiration interval is destroyed. -/
example : ∃ (h : Hist Int) (s : State Int), Reach exEnv exCfg h s ∧ ident (exSig 1) h = none ∧
    ∃ ev t, ev :: t <:+ h ∧ Destroyed (exSig 1) ev t := by
  obtain ⟨h, s, h1, hr, h2, h3⟩ := run_case (E := exEnv) (cfg := exCfg) 2 (.quota (exQ 1 5) :: List.replicate 60 .flush)
    (fun h _ => ident (exSig 1) h = none ∧ h.tails.any (fun l => match l with | ev :: t => decide (Destroyed (exSig 1) ev t) | [] => false) = true)
    (by decide +kernel)
  obtain ⟨l, hl, hd⟩ := List.any_eq_true.mp h3
  cases l with
  | nil => cases hd
  | cons ev t => exact ⟨h, s, hr, h2, ev, t, (List.mem_tails _ _).mp hl, by simpa using hd⟩

end examples
end Verif.Quota
