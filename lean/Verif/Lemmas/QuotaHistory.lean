import Verif.Lemmas.QuotaView
import Verif.Props.QuotaOperationAggregator
import Verif.Props.Signature
/-
What a call does to the entry of one signature, and the invariant of histories.
-/
set_option linter.unusedSectionVars false

namespace Verif.Quota
open Lru

variable {D : Type} {E : Env} {cfg : AggConfig}

/-- An entry, if there is one: identity and contents. -/
abbrev Slot1 (D : Type) := Option (Nat × Elem D)

/-- The entry after its pending operations were sent at clock reading `i`. -/
abbrev Elem.sentAt (E : Env) (v : Elem D) (i : Nat) : Elem D := { v with inFlight := true, lastRefresh := E.clk i, agg := none }

abbrev reqOf (cfg : AggConfig) (a : QuotaAgg D) : QReq D := ⟨cfg.serviceName, some (a.toProto cfg.U), cfg.serviceConfigId, []⟩

abbrev DropOk (E : Env) (cfg : AggConfig) (inAll : Bool) (lo hi : Nat) (v : Elem D) : Prop :=
  inAll = true ∨ ∃ i, lo ≤ i ∧ i < hi ∧ shouldDrop E cfg v i = true

/-- Background actions on one entry. -/
inductive BgAt (E : Env) (cfg : AggConfig) (inAll : Bool) (lo hi : Nat) : Slot1 D → List (QReq D) → Slot1 D → Prop
  | same (x) : BgAt E cfg inAll lo hi x [] x
  | drop {p v} : DropOk E cfg inAll lo hi v → BgAt E cfg inAll lo hi (some (p, v)) [] none
  | send {p v a i} : inAll = false → lo ≤ i → i < hi → v.inFlight = false → v.agg = some a →
      BgAt E cfg inAll lo hi (some (p, v)) [reqOf cfg a] (some (p, v.sentAt E i))
  | sendDrop {p v a i} : inAll = false → lo ≤ i → i < hi → v.inFlight = false → v.agg = some a →
      DropOk E cfg inAll lo hi (v.sentAt E i) → BgAt E cfg inAll lo hi (some (p, v)) [reqOf cfg a] none

/-- The requests for one signature. -/
def outAt (k : Bytes) (o : List (Bytes × QReq D)) : List (QReq D) := (o.filter (fun x => x.1 == k)).map (·.2)

theorem outAt_append (k : Bytes) (o o' : List (Bytes × QReq D)) : outAt k (o ++ o') = outAt k o ++ outAt k o' := by
  simp [outAt]

theorem outAt_nil {k : Bytes} {o : List (Bytes × QReq D)} (h : ∀ q, (k, q) ∉ o) : outAt k o = [] := by
  unfold outAt
  rw [List.filter_eq_nil_iff.mpr, List.map_nil]
  rintro ⟨k', q⟩ hq hk
  have : k' = k := by simpa using hk
  subst this
  exact h q hq

theorem outAt_self (k : Bytes) (qs : List (QReq D)) : outAt k (qs.map (fun q => (k, q))) = qs := by
  unfold outAt
  rw [List.filter_eq_self.mpr (by simp), List.map_map]
  exact List.map_id qs

theorem outAt_other {k k' : Bytes} (h : k' ≠ k) (qs : List (QReq D)) : outAt k (qs.map (fun q => (k', q))) = [] :=
  outAt_nil (by simp [h])

theorem Bg.at {inAll : Bool} {lo hi : Nat} {M : View D} {o : List (Bytes × QReq D)} {M' : View D}
    (h : Bg E cfg inAll lo hi M o M') (k : Bytes) : BgAt E cfg inAll lo hi (M k) (outAt k o) (M' k) := by
  induction h with
  | nil M => exact .same _
  | @drop M k' p v o M' h1 h2 _ ih =>
    by_cases hk : k = k'
    · subst hk
      rw [View.set_self] at ih
      rw [h1]
      generalize hx : M' k = x at *
      generalize outAt k o = oo at *
      cases ih
      exact .drop h2
    · rwa [View.set_ne _ _ _ _ hk] at ih
  | @send M k' p v a i o M' h1 h2 h3 h4 h5 h6 _ ih =>
    by_cases hk : k = k'
    · subst hk
      rw [View.set_self] at ih
      rw [h1]
      have he : outAt k ((k, reqOf cfg a) :: o) = reqOf cfg a :: outAt k o := by simp [outAt]
      rw [he]
      generalize hx : M' k = x at *
      generalize outAt k o = oo at *
      cases ih with
      | same => exact .send h2 h3 h4 h5 h6
      | drop hd => exact .sendDrop h2 h3 h4 h5 h6 hd
      | send _ _ _ hf => cases hf
      | sendDrop _ _ _ hf => cases hf
    · have he : outAt k ((k', reqOf cfg a) :: o) = outAt k o := by
        simp only [outAt, List.filter_cons]
        rw [if_neg (by simpa using fun e => hk e.symm)]
      rw [he]
      rwa [View.set_ne _ _ _ _ hk] at ih

/-- What a call does to the entry of `k`. -/
inductive KStep (E : Env) (cfg : AggConfig) (inAll : Bool) (lo hi nid : Nat) (k : Bytes) :
    Call D → Out → Slot1 D → List (QReq D) → Slot1 D → Prop
  | bg {c out x o x'} : BgAt E cfg inAll lo hi x o x' →
      (∀ r, c = .quota r → allocateQuotaSig cfg.H r ≠ k ∨ out.response = none) →
      (∀ r resp, c = .cacheResponse r resp → allocateQuotaSig cfg.H r = k → x' = none) →
      KStep E cfg inAll lo hi nid k c out x o x'
  | create {r i p x} : Valid cfg r → allocateQuotaSig cfg.H r = k → BgAt E cfg inAll lo hi x [] none →
      lo ≤ i → i < hi → nid ≤ p →
      KStep E cfg inAll lo hi nid k (.quota r) ⟨.ok, some .default⟩ x [r] (some (p, ⟨r, .default, k, E.clk i, true, none⟩))
  | hit {r x o1 p v t1 v1 t2 qs v2} : Valid cfg r → allocateQuotaSig cfg.H r = k → BgAt E cfg inAll lo hi x o1 (some (p, v)) →
      lo ≤ t1 → t2 ≤ hi → refresh E cfg v t1 = (v1, t2, qs) →
      (if v1.positive then v1.aggregate E r else .ok v1) = .ok v2 →
      KStep E cfg inAll lo hi nid k (.quota r) ⟨.ok, some v2.response⟩ x (o1 ++ qs) (some (p, v2))
  | respond {r resp x o1 p v} : allocateQuotaSig cfg.H r = k → BgAt E cfg inAll lo hi x o1 (some (p, v)) →
      KStep E cfg inAll lo hi nid k (.cacheResponse r resp) ⟨.ok, none⟩ x o1
        (some (p, { v with inFlight := false }.setResponse resp))
  | clear {x} : KStep E cfg inAll lo hi nid k .flushAll ⟨.ok, none⟩ x [] none

theorem VCall.at {inAll inAll' : Bool} {lo hi nid : Nat} {M M' : View D} {c : Call D} {out : Out} {o : List (Bytes × QReq D)}
    (h : VCall E cfg inAll lo hi nid M c out o M' inAll') (k : Bytes) :
    KStep E cfg inAll lo hi nid k c out (M k) (outAt k o) (M' k) := by
  cases h with
  | invalid hv => exact .bg (.same _) (fun r' _ => .inr rfl) (fun r' _ hc => by cases hc)
  | @miss r o1 M1 o2 M2 i p hv hb1 hn hq hb2 hi1 hi2 hp =>
    by_cases hk : k = allocateQuotaSig cfg.H r
    · have h1 := hb1.at k
      rw [← hk] at hn hq ⊢
      have h2 : outAt k o1 = [] := outAt_nil hq
      have h3 : outAt k o2 = [] := outAt_nil (hb2.quiet k hn)
      have h4 : outAt k (o1 ++ o2 ++ [(k, r)]) = [r] := by
        rw [outAt_append, outAt_append, h2, h3]; exact outAt_self k [r]
      rw [h4, View.set_self]
      rw [hn, h2] at h1
      exact .create hv hk.symm h1 hi1 hi2 hp
    · have h1 := (hb1.trans hb2).at k
      rw [View.set_ne _ _ _ _ hk]
      have h4 : outAt k (o1 ++ o2 ++ [(allocateQuotaSig cfg.H r, r)]) = outAt k (o1 ++ o2) := by
        rw [outAt_append, show outAt k [(allocateQuotaSig cfg.H r, r)] = [] from outAt_other (fun e => hk e.symm) [r], List.append_nil]
      rw [h4]
      exact .bg h1 (fun r' hc => by cases hc; exact .inl fun e => hk e.symm) (fun r' _ hc => by cases hc)
  | @hit r o1 M1 p v t1 v1 t2 qs v2 hv hb hn hl hh hr ha =>
    by_cases hk : k = allocateQuotaSig cfg.H r
    · have h1 := hb.at k
      rw [← hk] at hn ⊢
      rw [hn] at h1
      rw [outAt_append, outAt_self, View.set_self]
      exact .hit hv hk.symm h1 hl hh hr ha
    · have h1 := hb.at k
      rw [View.set_ne _ _ _ _ hk, outAt_append, outAt_other (fun e => hk e.symm), List.append_nil]
      exact .bg h1 (fun r' hc => by cases hc; exact .inl fun e => hk e.symm) (fun r' _ hc => by cases hc)
  | respMiss hb hn =>
    refine .bg (hb.at k) (fun r' hc => by cases hc) (fun r' _ hc hk => ?_)
    cases hc; rw [← hk]; exact hn
  | @respHit r resp o1 M1 p v hb hn =>
    by_cases hk : k = allocateQuotaSig cfg.H r
    · have h1 := hb.at k
      rw [← hk] at hn ⊢
      rw [hn] at h1
      rw [View.set_self]
      exact .respond hk.symm h1
    · rw [View.set_ne _ _ _ _ hk]
      exact .bg (hb.at k) (fun r' hc => by cases hc) (fun r' _ hc hk' => by cases hc; exact absurd hk'.symm hk)
  | flush hb => exact .bg (hb.at k) (fun r' hc => by cases hc) (fun r' _ hc => by cases hc)
  | flushAll => exact .clear

/-! ### Aggregates -/

/-- `agg` is the aggregate of `ops`; none for no operations. -/
def AggOf (E : Env) (agg : Option (QuotaAgg D)) (ops : List (QuotaOperation D)) : Prop :=
  match agg with
  | none => ops = []
  | some a => ∃ x xs, ops = x :: xs ∧ QuotaAgg.aggregate E.dbg x xs = .ok a

theorem AggOf.add {v v' : Elem D} {r : QReq D} {ops : List (QuotaOperation D)} (h : AggOf E v.agg ops)
    (ha : v.aggregate E r = .ok v') : AggOf E v'.agg (ops ++ [r.op]) := by
  obtain ⟨a, rfl, h1 | ⟨b, h1, h2⟩⟩ := aggregate_cases ha
  · rw [h1.1] at h
    simp only [AggOf] at h
    subst h
    exact ⟨r.op, [], rfl, by unfold QuotaAgg.aggregate; rw [h1.2]; rfl⟩
  · rw [h1] at h
    obtain ⟨x, xs, rfl, h3⟩ := h
    refine ⟨x, xs ++ [r.op], rfl, ?_⟩
    rw [quotaAggregate_snoc, h3]; exact h2

/-- The aggregate of operations of one identity has that identity. -/
theorem agg_identity (cfg : AggConfig) {dbg : Bool} {x : QuotaOperation D} {xs : List (QuotaOperation D)} {a : QuotaAgg D}
    (h : QuotaAgg.aggregate dbg x xs = .ok a) (hs : ∀ y ∈ xs, SameQuotaIdentity y x) : SameQuotaIdentity (a.toProto cfg.U) x := by
  obtain ⟨h1, h2, h3, _⟩ := quotaAggregate_inv dbg x xs a h
  refine ⟨by simp [QuotaAgg.toProto, h1], by simp [QuotaAgg.toProto, h1], fun n => ?_⟩
  have hp := (cfg.U.perm _ a.sets).map Prod.fst
  have : n ∈ (a.toProto cfg.U).quotaMetrics.map (·.name) ↔ n ∈ a.sets.map Prod.fst := by
    rw [← hp.mem_iff]
    simp [QuotaAgg.toProto, Function.comp_def]
  rw [this, h3]
  simp only [quotaNames, List.flatMap_cons, List.mem_append, List.mem_flatMap]
  constructor
  · rintro (h | ⟨y, hy, h⟩)
    · exact h
    · exact ((hs y hy).2.2 n).mp h
  · exact Or.inl

theorem refresh_cases {v v1 : Elem D} {t t2 : Nat} {qs : List (QReq D)} (h : refresh E cfg v t = (v1, t2, qs)) :
    (v.inFlight = true ∧ v1 = v ∧ t2 = t ∧ qs = []) ∨
    (v.inFlight = false ∧ shouldRefresh E cfg v t = false ∧ v1 = v ∧ t2 = t + 1 ∧ qs = []) ∨
    (v.inFlight = false ∧ shouldRefresh E cfg v t = true ∧ v1 = v.sentAt E (t + 1) ∧ t2 = t + 2 ∧ ∃ q0, 
      q0 = (match v.agg with | some a => reqOf cfg a | none => v.request) ∧
      qs = [if v.positive then q0 else { q0 with allocateOperation := some { q0.op with quotaMode := quotaModeNormal } }]) := by
  unfold refresh at h
  split at h
  · rename_i h1
    split at h
    · rename_i h2
      refine .inr (.inr ⟨h1, h2, ?_⟩)
      simp only [Elem.returnRequest, Prod.mk.injEq] at h
      obtain ⟨rfl, rfl, rfl⟩ := h
      cases ha : v.agg with
      | none => exact ⟨by simp [Elem.sentAt], rfl, _, rfl, rfl⟩
      | some a => exact ⟨by simp [Elem.sentAt], rfl, _, rfl, rfl⟩
    · rename_i h2
      simp only [Prod.mk.injEq] at h
      obtain ⟨rfl, rfl, rfl⟩ := h
      exact .inr (.inl ⟨h1, by simpa using h2, rfl, rfl, rfl⟩)
  · rename_i h1
    simp only [Prod.mk.injEq] at h
    obtain ⟨rfl, rfl, rfl⟩ := h
    exact .inl ⟨by simpa using h1, rfl, rfl, rfl⟩

section Fold
variable {k : Bytes} {ev : Event D} {h : Hist D} {p : Nat}

theorem not_created (h1 : ident k (ev :: h) = some p) (h2 : ident k h = some p) : ¬ Created k ev h := by
  rintro ⟨_, h4⟩; exact h4 (h1.trans h2.symm)

theorem served_keep (H : Bytes → Bytes) (h1 : ident k (ev :: h) = some p) (h2 : ident k h = some p)
    (h3 : ∀ r resp, ev.call = .cacheResponse r resp → allocateQuotaSig H r ≠ k) : served H k (ev :: h) = served H k h := by
  have hn := not_created h1 h2
  conv => lhs; unfold served
  rw [if_neg (by rw [h1]; simp), if_neg hn]
  split
  · rename_i r resp hc; rw [if_neg (h3 r resp hc)]
  · rfl

theorem served_resp (H : Bytes → Bytes) (h1 : ident k (ev :: h) = some p) (h2 : ident k h = some p)
    {r : QReq D} {resp : AllocateQuotaResponse} (h3 : ev.call = .cacheResponse r resp) (h4 : allocateQuotaSig H r = k) :
    served H k (ev :: h) = some resp := by
  have hn := not_created h1 h2
  unfold served
  rw [if_neg (by rw [h1]; simp), if_neg hn, h3]
  exact if_pos h4

theorem served_new (H : Bytes → Bytes) (h1 : Created k ev h) : served H k (ev :: h) = some .default := by
  unfold served
  rw [if_neg h1.1, if_pos h1]

theorem origin_keep (h1 : ident k (ev :: h) = some p) (h2 : ident k h = some p) : origin k (ev :: h) = origin k h := by
  have hn := not_created h1 h2
  conv => lhs; unfold origin
  rw [if_neg hn, if_neg (by rw [h1]; simp)]

theorem origin_new (h1 : Created k ev h) {r : QReq D} (h3 : ev.call = .quota r) : origin k (ev :: h) = some r := by
  conv => lhs; unfold origin
  rw [if_pos h1, h3]

theorem waiting_gone (H : Bytes → Bytes) (h1 : ident k (ev :: h) = none) : waiting H k (ev :: h) = 0 := by
  unfold waiting; rw [if_pos h1]

theorem waiting_keep (H : Bytes → Bytes) (h1 : ident k (ev :: h) = some p) (h2 : ident k h = some p)
    (h3 : ∀ r resp, ev.call = .cacheResponse r resp → allocateQuotaSig H r ≠ k) :
    waiting H k (ev :: h) = waiting H k h + (sent H k ev).length := by
  have hn := not_created h1 h2
  conv => lhs; unfold waiting
  rw [if_neg (by rw [h1]; simp), if_neg hn]
  split
  · rename_i r resp hc; rw [if_neg (h3 r resp hc)]
  · rfl

theorem waiting_resp (H : Bytes → Bytes) (h1 : ident k (ev :: h) = some p) (h2 : ident k h = some p)
    {r : QReq D} {resp : AllocateQuotaResponse} (h3 : ev.call = .cacheResponse r resp) (h4 : allocateQuotaSig H r = k) :
    waiting H k (ev :: h) = 0 := by
  have hn := not_created h1 h2
  unfold waiting
  rw [if_neg (by rw [h1]; simp), if_neg hn, h3]
  exact if_pos h4

theorem waiting_new (H : Bytes → Bytes) (h1 : Created k ev h) : waiting H k (ev :: h) = (sent H k ev).length := by
  unfold waiting
  rw [if_neg h1.1, if_pos h1]

theorem requests_mono (r : QReq D) (hr : r ∈ requests h) : r ∈ requests (ev :: h) := by
  unfold requests at hr ⊢
  rw [List.filterMap_cons]
  split
  · exact hr
  · exact List.mem_cons_of_mem _ hr

theorem requests_self {r : QReq D} (hr : ev.call = .quota r) : r ∈ requests (ev :: h) := by
  unfold requests
  rw [List.filterMap_cons_some (b := r) (by rw [hr])]
  exact List.mem_cons_self

theorem NoCollision.tail {H : Bytes → Bytes} (hn : NoCollision H (ev :: h)) : NoCollision H h :=
  fun r hr r' hr' => hn r (requests_mono r hr) r' (requests_mono r' hr')
end Fold

/-! ### The invariant of one entry -/

/-- What an entry holds. -/
structure KB (E : Env) (cfg : AggConfig) (k : Bytes) (h : Hist D) (v : Elem D) : Prop where
  served : served cfg.H k h = some v.response
  origin : origin k h = some v.request
  pos : v.agg ≠ none → v.positive
  mem : v.request ∈ requests h
  sig : allocateQuotaSig cfg.H v.request = k
  valid : Valid cfg v.request
  ops : ∃ ops, AggOf E v.agg ops ∧ ∀ o ∈ ops, ∃ r ∈ requests h, allocateQuotaSig cfg.H r = k ∧ r.op = o

abbrev KBase (E : Env) (cfg : AggConfig) (k : Bytes) (h : Hist D) (x : Slot1 D) : Prop := ∀ p v, x = some (p, v) → KB E cfg k h v

theorem BgAt.some_cases {inAll : Bool} {lo hi : Nat} {x : Slot1 D} {o : List (QReq D)} {p : Nat} {v : Elem D}
    (hb : BgAt E cfg inAll lo hi x o (some (p, v))) : ∃ v0, x = some (p, v0) ∧
      ((v = v0 ∧ o = []) ∨ (inAll = false ∧ ∃ a i, lo ≤ i ∧ i < hi ∧ v0.inFlight = false ∧ v0.agg = some a ∧ v = v0.sentAt E i ∧ o = [reqOf cfg a])) := by
  cases hb with
  | same => exact ⟨v, rfl, .inl ⟨rfl, rfl⟩⟩
  | send h1 h2 h3 h4 h5 => exact ⟨_, rfl, .inr ⟨h1, _, _, h2, h3, h4, h5, rfl, rfl⟩⟩

theorem KB.sentAt {k : Bytes} {h : Hist D} {v : Elem D} (b : KB E cfg k h v) (i : Nat) : KB E cfg k h (v.sentAt E i) :=
  ⟨b.served, b.origin, fun h => absurd rfl h, b.mem, b.sig, b.valid, [], rfl, by simp⟩

theorem KB.bg {k : Bytes} {h : Hist D} {inAll : Bool} {lo hi : Nat} {x : Slot1 D} {o : List (QReq D)} {p : Nat} {v : Elem D}
    (hb : BgAt E cfg inAll lo hi x o (some (p, v))) (hx : KBase E cfg k h x) : KB E cfg k h v := by
  obtain ⟨v0, rfl, ⟨rfl, _⟩ | ⟨_, a, i, _, _, _, _, rfl, _⟩⟩ := hb.some_cases
  · exact hx p v rfl
  · exact (hx p v0 rfl).sentAt i

/-- An untouched entry. -/
theorem KB.keep {k : Bytes} {h : Hist D} {v : Elem D} (b : KB E cfg k h v) {ev : Event D} {p : Nat}
    (h1 : ident k (ev :: h) = some p) (h2 : ident k h = some p)
    (h3 : ∀ r resp, ev.call = .cacheResponse r resp → allocateQuotaSig cfg.H r ≠ k) : KB E cfg k (ev :: h) v :=
  ⟨(served_keep cfg.H h1 h2 h3).trans b.served, (origin_keep h1 h2).trans b.origin, b.pos, requests_mono _ b.mem, b.sig, b.valid, by
    obtain ⟨ops, ho, hr⟩ := b.ops
    exact ⟨ops, ho, fun o ho => by obtain ⟨r, h1, h2⟩ := hr o ho; exact ⟨r, requests_mono r h1, h2⟩⟩⟩

section Step
variable {inAll : Bool} {lo hi nid : Nat} {k : Bytes} {ev : Event D} {h : Hist D} {x x' : Slot1 D} {o : List (QReq D)}

theorem KStep.created (hx : ident k h = x.map (·.1)) (hn : ∀ p v, x = some (p, v) → p < nid) {p : Nat} {v : Elem D}
    (hx' : ident k (ev :: h) = (some (p, v) : Slot1 D).map (·.1)) (hp : nid ≤ p) : Created k ev h := by
  refine ⟨by rw [hx']; simp, ?_⟩
  rw [hx', hx]
  intro e
  cases x with
  | none => cases e
  | some y =>
    obtain ⟨p', v'⟩ := y
    have := hn p' v' rfl
    simp only [Option.map_some, Option.some.injEq] at e; omega

theorem KBase.step (b : KBase E cfg k h x) (hx : ident k h = x.map (·.1)) (hx' : ident k (ev :: h) = x'.map (·.1))
    (hn : ∀ p v, x = some (p, v) → p < nid)
    (hs : KStep E cfg inAll lo hi nid k ev.call ev.out x o x') : KBase E cfg k (ev :: h) x' := by
  intro p v hxv
  subst hxv
  generalize hc : ev.call = c at hs
  generalize ho : ev.out = out at hs
  cases hs with
  | bg hb h1 h2 =>
    obtain ⟨v0, rfl, _⟩ := hb.some_cases
    refine (KB.bg hb b).keep hx' hx (fun r resp hc' hk => ?_)
    have := h2 r resp (by rw [← hc, hc']) hk
    cases this
  | @create r i _ _ hv hk hb hi1 hi2 hp =>
    have hcr : Created k ev h := KStep.created hx hn hx' hp
    exact ⟨served_new _ hcr, origin_new hcr hc, fun h => absurd rfl h, requests_self hc, hk, hv, [], rfl, by simp⟩
  | @hit r _ o1 _ v0 t1 v1 t2 qs _ hv hk hb hl hh hr ha =>
    obtain ⟨vx, rfl, _⟩ := hb.some_cases
    have b0 : KB E cfg k h v0 := KB.bg hb b
    have b1 : KB E cfg k h v1 := by
      rcases refresh_cases hr with ⟨_, rfl, _⟩ | ⟨_, _, rfl, _⟩ | ⟨_, _, rfl, _⟩
      · exact b0
      · exact b0
      · exact b0.sentAt _
    have b1' : KB E cfg k (ev :: h) v1 := b1.keep hx' hx (fun r resp hc' => by rw [hc'] at hc; cases hc)
    split at ha
    · rename_i hpos
      obtain ⟨ops, ho, hrr⟩ := b1'.ops
      have hadd := ho.add ha
      have hsg := aggregate_sig ha
      refine ⟨by rw [hsg.2.1]; exact b1'.served, by rw [hsg.2.2.1]; exact b1'.origin, fun _ => ?_, by rw [hsg.2.2.1]; exact b1'.mem,
        by rw [hsg.2.2.1]; exact b1'.sig, by rw [hsg.2.2.1]; exact b1'.valid, _, hadd, ?_⟩
      · unfold Elem.positive; rw [hsg.2.1]; exact hpos
      · intro y hy
        rcases List.mem_append.mp hy with hy | hy
        · exact hrr y hy
        · rw [List.mem_singleton] at hy; subst hy
          exact ⟨r, requests_self hc, hk, rfl⟩
    · cases ha; exact b1'
  | @respond r resp _ _ _ v0 hk hb =>
    obtain ⟨vx, rfl, _⟩ := hb.some_cases
    have b0 : KB E cfg k h v0 := KB.bg hb b
    obtain ⟨ops, ho, hrr⟩ := b0.ops
    have e1 := served_resp cfg.H hx' hx hc hk
    refine ⟨e1, (origin_keep hx' hx).trans b0.origin, ?_, requests_mono _ b0.mem, b0.sig, b0.valid, ?_⟩
    · intro hne
      simp only [Elem.setResponse] at hne
      simp only [Elem.positive, Elem.setResponse]
      by_cases hl : resp.allocateErrors.length > 0
      · rw [if_pos hl] at hne; exact absurd rfl hne
      · exact List.length_eq_zero_iff.mp (by omega)
    · by_cases hl : resp.allocateErrors.length > 0
      · refine ⟨[], ?_, by simp⟩
        simp only [Elem.setResponse, if_pos hl]; rfl
      · refine ⟨ops, ?_, fun o ho => by obtain ⟨r, h1, h2⟩ := hrr o ho; exact ⟨r, requests_mono r h1, h2⟩⟩
        simp only [Elem.setResponse, if_neg hl]; exact ho

/-- The aggregate held by an entry has the entry's signature. -/
theorem KB.aggSig {v : Elem D} (b : KB E cfg k h v) (hnc : NoCollision cfg.H h) {a : QuotaAgg D} (ha : v.agg = some a) :
    allocateQuotaSig cfg.H (reqOf cfg a) = k := by
  obtain ⟨ops, ho, hr⟩ := b.ops
  rw [ha] at ho
  obtain ⟨y, ys, rfl, hagg⟩ := ho
  obtain ⟨r, hr1, hr2, rfl⟩ := hr y (by simp)
  rw [← hr2]
  apply C11_quota_signature_invariant
  refine agg_identity cfg hagg (fun z hz => ?_)
  obtain ⟨r', h1, h2, rfl⟩ := hr z (by simp [hz])
  exact hnc r' h1 r hr1 (by rw [h2, hr2])

theorem KB.normalSig {v : Elem D} (b : KB E cfg k h v) :
    allocateQuotaSig cfg.H { v.request with allocateOperation := some { v.request.op with quotaMode := quotaModeNormal } } = k := by
  rw [← b.sig]
  exact C11_quota_signature_invariant _ _ _ ⟨rfl, rfl, fun _ => Iff.rfl⟩

theorem BgAt.outs {v0 : Slot1 D} (hb : BgAt E cfg inAll lo hi x o v0) (q : QReq D) (hq : q ∈ o) :
    ∃ p v a, x = some (p, v) ∧ v.agg = some a ∧ q = reqOf cfg a := by
  cases hb with
  | same => cases hq
  | drop => cases hq
  | send _ _ _ _ h5 => exact ⟨_, _, _, rfl, h5, by simpa using hq⟩
  | sendDrop _ _ _ _ h5 => exact ⟨_, _, _, rfl, h5, by simpa using hq⟩

/-- The request triggered by a refresh, for an entry of a history. -/
theorem KB.refresh {v v1 : Elem D} {t1 t2 : Nat} {qs : List (QReq D)} (b : KB E cfg k h v) (hr : refresh E cfg v t1 = (v1, t2, qs)) :
    (v.inFlight = true ∧ v1 = v ∧ t2 = t1 ∧ qs = []) ∨
    (v.inFlight = false ∧ shouldRefresh E cfg v t1 = false ∧ v1 = v ∧ t2 = t1 + 1 ∧ qs = []) ∨
    (v.inFlight = false ∧ shouldRefresh E cfg v t1 = true ∧ v1 = v.sentAt E (t1 + 1) ∧ t2 = t1 + 2 ∧
      ((∃ a, v.agg = some a ∧ v.positive ∧ qs = [reqOf cfg a]) ∨ (v.agg = none ∧ v.positive ∧ qs = [v.request]) ∨
       (v.agg = none ∧ ¬ v.positive ∧
        qs = [{ v.request with allocateOperation := some { v.request.op with quotaMode := quotaModeNormal } }]))) := by
  rcases refresh_cases hr with h1 | h1 | ⟨h1, h2, h3, h4, q0, hq0, hqs⟩
  · exact .inl h1
  · exact .inr (.inl h1)
  · refine .inr (.inr ⟨h1, h2, h3, h4, ?_⟩)
    cases ha : v.agg with
    | some a =>
      have hp := b.pos (by rw [ha]; simp)
      rw [ha] at hq0
      rw [if_pos hp, hq0] at hqs
      exact .inl ⟨a, rfl, hp, hqs⟩
    | none =>
      rw [ha] at hq0
      by_cases hp : v.positive
      · rw [if_pos hp, hq0] at hqs; exact .inr (.inl ⟨rfl, hp, hqs⟩)
      · rw [if_neg hp, hq0] at hqs; exact .inr (.inr ⟨rfl, hp, hqs⟩)

theorem KStep.outSig (hnc : NoCollision cfg.H h) (b : KBase E cfg k h x) {c : Call D} {out : Out}
    (hs : KStep E cfg inAll lo hi nid k c out x o x') : ∀ q ∈ o, allocateQuotaSig cfg.H q = k := by
  have hbg : ∀ {o1 : List (QReq D)} {y : Slot1 D}, BgAt E cfg inAll lo hi x o1 y → ∀ q ∈ o1, allocateQuotaSig cfg.H q = k := by
    intro o1 y hb q hq
    obtain ⟨p, v, a, rfl, h2, rfl⟩ := hb.outs q hq
    exact (b p v rfl).aggSig hnc h2
  cases hs with
  | bg hb h1 h2 => exact hbg hb
  | create hv hk hb _ _ _ => intro q hq; rw [List.mem_singleton] at hq; rw [hq]; exact hk
  | hit hv hk hb hl hh hr ha =>
    intro q hq
    rcases List.mem_append.mp hq with hq | hq
    · exact hbg hb q hq
    · have b0 := KB.bg hb b
      rcases b0.refresh hr with ⟨_, _, _, rfl⟩ | ⟨_, _, _, _, rfl⟩ | ⟨_, _, _, _, ⟨a, h1, _, rfl⟩ | ⟨_, _, rfl⟩ | ⟨_, _, rfl⟩⟩
      · cases hq
      · cases hq
      · rw [List.mem_singleton] at hq; rw [hq]; exact b0.aggSig hnc h1
      · rw [List.mem_singleton] at hq; rw [hq]; exact b0.sig
      · rw [List.mem_singleton] at hq; rw [hq]; exact b0.normalSig
  | respond hk hb => exact hbg hb
  | clear => simp

end Step

/-! ### Accounts -/

/-- The operations discarded, if any. -/
def lostItems (ops : List (QuotaOperation D)) : List (Item D) := if ops = [] then [] else [.lost ops]

theorem lostItems_ops (ops : List (QuotaOperation D)) : (lostItems ops).flatMap (·.ops) = ops := by
  unfold lostItems; split
  · rename_i h; simp [h]
  · simp [Item.ops]

theorem lostItems_sent (ops : List (QuotaOperation D)) : (lostItems ops).flatMap (·.sent) = [] := by
  unfold lostItems; split <;> simp [Item.sent]

theorem lostItems_made (ops : List (QuotaOperation D)) : (lostItems ops).flatMap (·.made) = [] := by
  unfold lostItems; split <;> simp [Item.made]

theorem madeBy_none {k : Bytes} {ev : Event D} {h : Hist D} (hn : ¬ Created k ev h) : madeBy k ev h = [] := by
  unfold madeBy; split
  · rw [if_neg hn]
  · rfl

theorem lostItems_count (ops : List (QuotaOperation D)) : ((lostItems ops).filter (·.isLost)).length ≤ 1 := by
  unfold lostItems; split <;> simp [Item.isLost]

theorem lostItems_ok {k : Bytes} {h : Hist D} (ops : List (QuotaOperation D)) : ∀ i ∈ lostItems ops, i.Ok E cfg k h := by
  unfold lostItems; split
  · simp
  · rename_i hne; intro i hi; rw [List.mem_singleton] at hi; subst hi; exact hne

theorem Item.Ok.mono {k : Bytes} {h : Hist D} {ev : Event D} {i : Item D} (hi : i.Ok E cfg k h) : i.Ok E cfg k (ev :: h) := by
  cases i with
  | passed ops q => exact hi
  | lost ops => exact hi
  | first r => exact ⟨requests_mono r hi.1, hi.2⟩
  | again r q => exact ⟨requests_mono r hi.1, hi.2⟩

theorem Ledger.extend {k : Bytes} {h : Hist D} {items : List (Item D)} {pend : List (QuotaOperation D)}
    (l : Ledger E cfg k h items pend) {ev : Event D} (new : List (Item D)) (pend' : List (QuotaOperation D))
    (h1 : ∀ i ∈ new, i.Ok E cfg k (ev :: h)) (h2 : pend ++ absorbedBy cfg k ev h = new.flatMap (·.ops) ++ pend')
    (h3 : Quota.sent cfg.H k ev = new.flatMap (·.sent)) (h5 : madeBy k ev h = new.flatMap (·.made))
    (h4 : (new.filter (·.isLost)).length ≤ if Loses cfg.H k ev h then 1 else 0) :
    Ledger E cfg k (ev :: h) (items ++ new) pend' := by
  refine ⟨?_, ?_, ?_, ?_, ?_⟩
  · intro i hi
    rcases List.mem_append.mp hi with hi | hi
    · exact (l.ok i hi).mono
    · exact h1 i hi
  · simp only [absorbed, l.ops, List.flatMap_append, List.append_assoc, h2]
  · simp only [sentAll, l.sent, List.flatMap_append, h3]
  · simp only [made, l.first, List.flatMap_append, h5]
  · have := l.lost
    simp only [losses, List.filter_append, List.length_append]; omega

theorem passed_ok {k : Bytes} {h : Hist D} {a : QuotaAgg D} {ops : List (QuotaOperation D)} (ho : AggOf E (some a) ops) :
    (Item.passed ops (reqOf cfg a)).Ok E cfg k h := by
  obtain ⟨y, ys, rfl, hy⟩ := ho
  exact ⟨_, ⟨y, ys, a, rfl, hy, rfl⟩, rfl⟩

/-- What the entry holds, `none` for an absent one. -/
abbrev aggAt (x : Slot1 D) : Option (QuotaAgg D) := x.bind (·.2.agg)

/-- The accounts of background actions. -/
theorem BgAt.items {inAll : Bool} {lo hi : Nat} {k : Bytes} {h : Hist D} {x x' : Slot1 D} {o : List (QReq D)}
    (hb : BgAt E cfg inAll lo hi x o x') {pend : List (QuotaOperation D)} (hp : AggOf E (aggAt x) pend) :
    ∃ (new : List (Item D)) (pend' : List (QuotaOperation D)), (∀ i ∈ new, i.Ok E cfg k h) ∧ pend = new.flatMap (·.ops) ++ pend' ∧ o = new.flatMap (·.sent) ∧
      new.flatMap (·.made) = [] ∧ AggOf E (aggAt x') pend' ∧ (new.filter (·.isLost)).length ≤ 1 ∧ (x' ≠ none → new.filter (·.isLost) = []) ∧
      (x = none → new.filter (·.isLost) = []) := by
  cases hb with
  | same => exact ⟨[], pend, by simp, by simp, by simp, rfl, hp, by simp, by simp, by simp⟩
  | drop hd =>
    exact ⟨lostItems pend, [], lostItems_ok _, by rw [lostItems_ops]; simp, (lostItems_sent _).symm, lostItems_made _, rfl, lostItems_count _, by simp, by simp⟩
  | @send p v a i h1 h2 h3 h4 h5 =>
    have hp' : AggOf E (some a) pend := by simpa [aggAt, h5] using hp
    refine ⟨[.passed pend (reqOf cfg a)], [], ?_, by simp [Item.ops], by simp [Item.sent], rfl, rfl, by simp [Item.isLost], by simp [Item.isLost], by simp⟩
    intro i hi; rw [List.mem_singleton] at hi; subst hi; exact passed_ok hp'
  | @sendDrop p v a i h1 h2 h3 h4 h5 h6 =>
    have hp' : AggOf E (some a) pend := by simpa [aggAt, h5] using hp
    refine ⟨[.passed pend (reqOf cfg a)], [], ?_, by simp [Item.ops], by simp [Item.sent], rfl, rfl, by simp [Item.isLost], by simp [Item.isLost], by simp⟩
    intro i hi; rw [List.mem_singleton] at hi; subst hi; exact passed_ok hp'

/-- The whole invariant of one signature. -/
structure KFull (E : Env) (cfg : AggConfig) (k : Bytes) (h : Hist D) (x : Slot1 D) : Prop where
  base : KBase E cfg k h x
  wait : ∀ p v, x = some (p, v) → waiting cfg.H k h = if v.inFlight then 1 else 0
  last : ∀ p v, x = some (p, v) → ∃ ev i, lastSent cfg.H k h = some ev ∧ ev.reads i ∧ v.lastRefresh = E.clk i
  ledger : ∃ items pend, Ledger E cfg k h items pend ∧ AggOf E (aggAt x) pend

theorem lastSent_keep {H : Bytes → Bytes} {k : Bytes} {ev : Event D} {h : Hist D} (hs : sent H k ev = []) :
    lastSent H k (ev :: h) = lastSent H k h := by
  unfold lastSent; rw [List.find?_cons, hs]; rfl

theorem lastSent_new {H : Bytes → Bytes} {k : Bytes} {ev : Event D} {h : Hist D} (hs : sent H k ev ≠ []) :
    lastSent H k (ev :: h) = some ev := by
  unfold lastSent; rw [List.find?_cons]
  cases hx : sent H k ev with
  | nil => exact absurd hx hs
  | cons a l => simp

section Full
variable {inAll : Bool} {nid : Nat} {k : Bytes} {ev : Event D} {h : Hist D} {x x' : Slot1 D}

theorem KFull.step (f : KFull E cfg k h x) (hx : ident k h = x.map (·.1)) (hx' : ident k (ev :: h) = x'.map (·.1))
    (hn : ∀ p v, x = some (p, v) → p < nid)
    (hs : KStep E cfg inAll ev.first ev.last nid k ev.call ev.out x (sent cfg.H k ev) x') : KFull E cfg k (ev :: h) x' := by
  have hbase := f.base.step hx hx' hn hs
  obtain ⟨items, pend, hl, hp⟩ := f.ledger
  have hwait := f.wait; have hlast := f.last; have hb0 := f.base
  clear f
  generalize hc : ev.call = c at hs
  generalize ho : ev.out = out at hs
  generalize hsent : sent cfg.H k ev = o at hs
  have hdest : ∀ {p v}, x = some (p, v) → ident k (ev :: h) ≠ some p → Loses cfg.H k ev h := by
    intro p v e hne; subst e
    exact .inr ⟨by rw [hx]; simp, by rw [hx]; exact hne⟩
  -- background actions that leave the entry
  have hbgw : ∀ {p v o1}, BgAt E cfg inAll ev.first ev.last x o1 (some (p, v)) →
      waiting cfg.H k h + o1.length = (if v.inFlight then 1 else 0) ∧
      ((o1 = [] ∧ ∃ ev' i, lastSent cfg.H k h = some ev' ∧ ev'.reads i ∧ v.lastRefresh = E.clk i) ∨
       (o1 ≠ [] ∧ ∃ i, ev.reads i ∧ v.lastRefresh = E.clk i)) ∧ ident k h = some p := by
    intro p v o1 hb
    obtain ⟨v0, rfl, ⟨rfl, rfl⟩ | ⟨_, a, i, h1, h2, h3, _, rfl, rfl⟩⟩ := hb.some_cases
    · exact ⟨by rw [hwait p v rfl]; rfl, .inl ⟨rfl, hlast p v rfl⟩, hx⟩
    · refine ⟨?_, .inr ⟨by simp, i, ⟨h1, h2⟩, rfl⟩, hx⟩
      rw [hwait p v0 rfl, h3]; rfl
  cases hs with
  | @bg c out x o x' hb h1 h2 =>
    have hab : absorbedBy cfg k ev h = [] := by
      unfold absorbedBy
      rw [hc]
      cases hcc : c with
      | quota r =>
        simp only
        rcases h1 r hcc with h3 | h3
        · split
          · rw [if_neg (fun e => h3 e.1)]
          · rfl
        · rw [ho, h3]
      | _ => rfl
    have hncr : ¬ Created k ev h := by
      rintro ⟨g1, g2⟩
      cases hxx' : x' with
      | none => rw [hx', hxx'] at g1; exact g1 rfl
      | some y =>
        obtain ⟨p, v⟩ := y
        subst hxx'
        rw [(hbgw hb).2.2, hx'] at g2
        exact g2 rfl
    refine ⟨hbase, ?_, ?_, ?_⟩
    · intro p v e; subst e
      have hno : ∀ r resp, ev.call = .cacheResponse r resp → allocateQuotaSig cfg.H r ≠ k := by
        intro r resp hcc hk; have := h2 r resp (by rw [← hc, hcc]) hk; cases this
      obtain ⟨g1, g2, g3⟩ := hbgw hb
      rw [waiting_keep cfg.H hx' g3 hno, hsent, g1]
    · intro p v e; subst e
      obtain ⟨g1, g2, g3⟩ := hbgw hb
      rcases g2 with ⟨rfl, ev', i, g4, g5⟩ | ⟨g4, i, g5⟩
      · exact ⟨ev', i, by rw [lastSent_keep hsent]; exact g4, g5⟩
      · exact ⟨ev, i, lastSent_new (by rw [hsent]; exact g4), g5⟩
    · obtain ⟨new, pend', n1, n2, n3, n8, n4, n5, n6, n7⟩ := hb.items (k := k) (h := ev :: h) hp
      refine ⟨items ++ new, pend', hl.extend new pend' n1 (by rw [hab, List.append_nil]; exact n2) (hsent.trans n3) (by rw [n8]; exact madeBy_none hncr) ?_, n4⟩
      cases hxx : x with
      | none => rw [n7 hxx]; simp
      | some y =>
        obtain ⟨p, v⟩ := y
        cases hxx' : x' with
        | some z => rw [n6 (by rw [hxx']; simp)]; simp
        | none =>
          rw [if_pos (hdest hxx (by rw [hx', hxx']; simp))]; exact n5
  | @create r i p x hv hk hb hi1 hi2 hpn =>
    have hcr : Created k ev h := KStep.created hx hn hx' hpn
    have hab : absorbedBy cfg k ev h = [] := by
      unfold absorbedBy
      rw [hc, ho]
      simp only
      rw [if_neg (fun e => e.2.1 hcr)]
    refine ⟨hbase, ?_, ?_, ?_⟩
    · intro p' v e
      simp only [Option.some.injEq, Prod.mk.injEq] at e
      obtain ⟨rfl, rfl⟩ := e
      rw [waiting_new cfg.H hcr, hsent]; rfl
    · intro p' v e
      simp only [Option.some.injEq, Prod.mk.injEq] at e
      obtain ⟨rfl, rfl⟩ := e
      exact ⟨ev, i, lastSent_new (by rw [hsent]; simp), ⟨hi1, hi2⟩, rfl⟩
    · obtain ⟨new, pend', n1, n2, n3, n8, n4, n5, n6, n7⟩ := hb.items (k := k) (h := ev :: h) hp
      have hpe : pend' = [] := n4
      refine ⟨items ++ (new ++ [.first r]), [], hl.extend _ [] ?_ ?_ ?_ ?_ ?_, rfl⟩
      · intro i hi
        rcases List.mem_append.mp hi with hi | hi
        · exact n1 i hi
        · rw [List.mem_singleton] at hi; subst hi
          exact ⟨requests_self hc, hk⟩
      · rw [hab, n2, hpe]; simp [Item.ops]
      · rw [hsent, List.flatMap_append, ← n3]; rfl
      · rw [List.flatMap_append, n8]; unfold madeBy; rw [hc]; simp only; rw [if_pos hcr]; rfl
      · have : (new ++ [Item.first r]).filter (·.isLost) = new.filter (·.isLost) := by simp [Item.isLost]
        rw [this]
        cases hxx : x with
        | none => rw [n7 hxx]; simp
        | some y =>
          obtain ⟨p', v⟩ := y
          have : p' < nid := hn p' v hxx
          rw [if_pos (hdest hxx (by rw [hx']; simp only [Option.map_some, ne_eq, Option.some.injEq]; omega))]; exact n5
  | @hit r x o1 p v t1 v1 t2 qs v2 hv hk hb hl1 hh hr ha =>
    obtain ⟨g1, g2, g3⟩ := hbgw hb
    have b0 : KB E cfg k h v := KB.bg hb hb0
    have hno : ∀ r resp, ev.call = .cacheResponse r resp → allocateQuotaSig cfg.H r ≠ k := by
      intro r resp hcc; rw [hc] at hcc; cases hcc
    have hfields : v2.inFlight = v1.inFlight ∧ v2.lastRefresh = v1.lastRefresh ∧ v2.response = v1.response := by
      split at ha
      · have := aggregate_sig ha; exact ⟨this.2.2.2.1, this.2.2.2.2, this.2.1⟩
      · cases ha; exact ⟨rfl, rfl, rfl⟩
    have hv1r : v1.response = v.response := by
      rcases b0.refresh hr with ⟨_, rfl, _⟩ | ⟨_, _, rfl, _⟩ | ⟨_, _, rfl, _⟩ <;> rfl
    have hncr : ¬ Created k ev h := not_created hx' g3
    have hab : absorbedBy cfg k ev h = if v.positive then [r.op] else [] := by
      unfold absorbedBy
      rw [hc, ho]
      simp only [hfields.2.2, hv1r, hk, true_and, hncr, not_false_eq_true]
    obtain ⟨new, pend', n1, n2, n3, n8, n4, n5, n6, n7⟩ := hb.items (k := k) (h := ev :: h) hp
    have n6' := n6 (by simp)
    have n4' : AggOf E v.agg pend' := n4
    -- the refresh
    have hres : (v1.inFlight = true ∧ qs ≠ [] ∧ o1 = [] ∧ v.inFlight = false ∧ qs.length = 1 ∧ v1.lastRefresh = E.clk (t1 + 1) ∧ ev.reads (t1 + 1) ∧
        ∃ (new2 : List (Item D)) (pend2 : List (QuotaOperation D)), (∀ i ∈ new2, i.Ok E cfg k (ev :: h)) ∧ pend' = new2.flatMap (·.ops) ++ pend2 ∧ qs = new2.flatMap (·.sent) ∧
          new2.flatMap (·.made) = [] ∧ AggOf E v1.agg pend2 ∧ new2.filter (·.isLost) = []) ∨ (v1 = v ∧ qs = []) := by
      rcases b0.refresh hr with ⟨_, h1, _, h2⟩ | ⟨_, _, h1, _, h2⟩ | ⟨hif, _, h1, ht, hcase⟩
      · exact .inr ⟨h1, h2⟩
      · exact .inr ⟨h1, h2⟩
      · left
        have ho1 : o1 = [] := by
          rw [hif] at g1; simp only [Bool.false_eq_true, if_false] at g1
          exact List.length_eq_zero_iff.mp (by omega)
        have hrd : ev.reads (t1 + 1) := ⟨by omega, by omega⟩
        rcases hcase with ⟨a, c1, c2, c3⟩ | ⟨c1, c2, c3⟩ | ⟨c1, c2, c3⟩
        · rw [c1] at n4'
          refine ⟨by rw [h1], by rw [c3]; simp, ho1, hif, by rw [c3]; rfl, by rw [h1], hrd, [.passed pend' (reqOf cfg a)], [], ?_, by simp [Item.ops], by rw [c3]; rfl,
            rfl, by rw [h1]; rfl, by simp [Item.isLost]⟩
          intro i hi; rw [List.mem_singleton] at hi; subst hi; exact passed_ok n4'
        · have hpe : pend' = [] := by rw [c1] at n4'; exact n4'
          refine ⟨by rw [h1], by rw [c3]; simp, ho1, hif, by rw [c3]; rfl, by rw [h1], hrd, [.again v.request v.request], [], ?_, by rw [hpe]; rfl, by rw [c3]; rfl,
            rfl, by rw [h1]; rfl, by simp [Item.isLost]⟩
          intro i hi; rw [List.mem_singleton] at hi; subst hi
          exact ⟨requests_mono _ b0.mem, b0.sig, .inl rfl⟩
        · have hpe : pend' = [] := by rw [c1] at n4'; exact n4'
          refine ⟨by rw [h1], by rw [c3]; simp, ho1, hif, by rw [c3]; rfl, by rw [h1], hrd, [.again v.request _], [], ?_, by rw [hpe]; rfl, by rw [c3]; rfl,
            rfl, by rw [h1]; rfl, by simp [Item.isLost]⟩
          intro i hi; rw [List.mem_singleton] at hi; subst hi
          exact ⟨requests_mono _ b0.mem, b0.sig, .inr rfl⟩
    have hagg2 : ∀ pp, AggOf E v1.agg pp → AggOf E v2.agg (pp ++ absorbedBy cfg k ev h) := by
      intro pp hpp
      rw [hab]
      have : v1.positive ↔ v.positive := by unfold Elem.positive; rw [hv1r]
      split at ha
      · rename_i hq; rw [if_pos (this.mp hq)]; exact hpp.add ha
      · rename_i hq; rw [if_neg (fun e => hq (this.mpr e))]; cases ha; rw [List.append_nil]; exact hpp
    refine ⟨hbase, ?_, ?_, ?_⟩
    · intro p' v' e
      simp only [Option.some.injEq, Prod.mk.injEq] at e
      obtain ⟨rfl, rfl⟩ := e
      rw [waiting_keep cfg.H hx' g3 hno, hsent, hfields.1, List.length_append]
      rcases hres with ⟨e1, _, e2, e3, e4, _⟩ | ⟨rfl, rfl⟩
      · rw [e3, e2] at g1
        simp only [List.length_nil, Bool.false_eq_true, if_false] at g1
        rw [e1, e2, e4]; simp only [List.length_nil, if_true]; omega
      · rw [← g1]; rfl
    · intro p' v' e
      simp only [Option.some.injEq, Prod.mk.injEq] at e
      obtain ⟨rfl, rfl⟩ := e
      rw [hfields.2.1]
      rcases hres with ⟨_, e1, _, _, _, e5, e6, _⟩ | ⟨rfl, rfl⟩
      · exact ⟨ev, _, lastSent_new (by rw [hsent]; simp [e1]), e6, e5⟩
      · rw [List.append_nil] at hsent
        rcases g2 with ⟨rfl, ev', i, g4, g5⟩ | ⟨g4, i, g5⟩
        · exact ⟨ev', i, by rw [lastSent_keep hsent]; exact g4, g5⟩
        · exact ⟨ev, i, lastSent_new (by rw [hsent]; exact g4), g5⟩
    · rcases hres with ⟨_, _, _, _, _, _, _, new2, pend2, m1, m2, m3, m6, m4, m5⟩ | ⟨e1, e2⟩
      · refine ⟨items ++ (new ++ new2), pend2 ++ absorbedBy cfg k ev h, hl.extend _ _ ?_ ?_ ?_ ?_ ?_, hagg2 _ m4⟩
        · intro i hi
          rcases List.mem_append.mp hi with hi | hi
          · exact n1 i hi
          · exact m1 i hi
        · rw [n2, m2]; simp
        · rw [hsent, n3, m3]; simp
        · rw [List.flatMap_append, n8, m6]; exact madeBy_none hncr
        · rw [List.filter_append, n6', m5]; simp
      · refine ⟨items ++ new, pend' ++ absorbedBy cfg k ev h, hl.extend _ _ n1 ?_ ?_ (by rw [n8]; exact madeBy_none hncr) ?_, hagg2 _ (by rw [e1]; exact n4')⟩
        · rw [n2]; simp
        · rw [hsent, n3, e2]; simp
        · rw [n6']; simp
  | @respond r resp x o1 p v hk hb =>
    obtain ⟨g1, g2, g3⟩ := hbgw hb
    have hab : absorbedBy cfg k ev h = [] := by unfold absorbedBy; rw [hc]
    refine ⟨hbase, ?_, ?_, ?_⟩
    · intro p' v' e
      simp only [Option.some.injEq, Prod.mk.injEq] at e
      obtain ⟨rfl, rfl⟩ := e
      rw [waiting_resp cfg.H hx' g3 hc hk]; rfl
    · intro p' v' e
      simp only [Option.some.injEq, Prod.mk.injEq] at e
      obtain ⟨rfl, rfl⟩ := e
      rcases g2 with ⟨rfl, ev', i, g4, g5⟩ | ⟨g4, i, g5⟩
      · exact ⟨ev', i, by rw [lastSent_keep hsent]; exact g4, g5⟩
      · exact ⟨ev, i, lastSent_new (by rw [hsent]; exact g4), g5⟩
    · obtain ⟨new, pend', n1, n2, n3, n8, n4, n5, n6, n7⟩ := hb.items (k := k) (h := ev :: h) hp
      have n6' := n6 (by simp)
      have n4' : AggOf E v.agg pend' := n4
      by_cases hl2 : resp.allocateErrors.length > 0
      · have hlo : Loses cfg.H k ev h := .inl ⟨r, resp, hc, hk, fun e => by rw [e] at hl2; simp at hl2⟩
        refine ⟨items ++ (new ++ lostItems pend'), [], hl.extend _ [] ?_ ?_ ?_ ?_ ?_, ?_⟩
        · intro i hi
          rcases List.mem_append.mp hi with hi | hi
          · exact n1 i hi
          · exact lostItems_ok _ i hi
        · rw [hab, n2, List.flatMap_append, lostItems_ops]
        · rw [hsent, n3, List.flatMap_append, lostItems_sent]; simp
        · rw [List.flatMap_append, n8, lostItems_made]; unfold madeBy; rw [hc]; rfl
        · rw [if_pos hlo, List.filter_append, n6']; simpa using lostItems_count pend'
        · simp only [aggAt, Option.bind_some, Elem.setResponse, if_pos hl2]; rfl
      · refine ⟨items ++ new, pend', hl.extend _ pend' n1 (by rw [hab, List.append_nil]; exact n2) (hsent.trans n3) (by rw [n8]; unfold madeBy; rw [hc]) (by rw [n6']; simp), ?_⟩
        simp only [aggAt, Option.bind_some, Elem.setResponse, if_neg hl2]; exact n4'
  | @clear x =>
    have hab : absorbedBy cfg k ev h = [] := by unfold absorbedBy; rw [hc]
    refine ⟨hbase, by simp, by simp, ?_⟩
    refine ⟨items ++ lostItems pend, [], hl.extend _ [] (lostItems_ok _) ?_ ?_ (by rw [lostItems_made]; unfold madeBy; rw [hc]) ?_, rfl⟩
    · rw [hab, lostItems_ops]
    · rw [hsent, lostItems_sent]
    · cases hxx : x with
      | none =>
        rw [hxx] at hp
        have : pend = [] := hp
        rw [this]; simp [lostItems]
      | some y =>
        obtain ⟨p, v⟩ := y
        rw [if_pos (hdest hxx (by rw [hx']; simp))]; exact lostItems_count _

end Full

/-! ### Histories -/

/-- `FlushAll` was called. -/
def Cleared (h : Hist D) : Prop := ∃ ev ∈ h, ev.call = .flushAll

/-- The invariant of reachable states. -/
structure RInv (E : Env) (cfg : AggConfig) (h : Hist D) (s : S D) (inAll : Bool) : Prop where
  inv : SInv E cfg.numEntries s
  out : s.out = []
  all : inAll = true ↔ Cleared h
  id : ∀ k, ident k h = (view s.N k).map (·.1)
  base : ∀ k, KBase E cfg k h (view s.N k)
  full : NoCollision cfg.H h → ∀ k, KFull E cfg k h (view s.N k)

theorem entries_ident (cfg : AggConfig) (inAll : Bool) (s : S D) (ev : Event D) (h : Hist D) (he : ev.entries = entriesOf (stateOf cfg inAll s)) (k : Bytes) :
    ident k (ev :: h) = (view s.N k).map (·.1) := by
  unfold ident view findKey
  simp only [he, entriesOf, stateOf, cacheOf, List.find?_map, Option.map_map]
  rfl

/-- The requests of an event, by signature. -/
theorem sent_outAt {H : Bytes → Bytes} {ev : Event D} {o : List (Bytes × QReq D)} (he : ev.flushed = o.map (·.2))
    (ho : ∀ k, ∀ q ∈ outAt k o, allocateQuotaSig H q = k) (k : Bytes) : sent H k ev = outAt k o := by
  have ho' : ∀ x ∈ o, allocateQuotaSig H x.2 = x.1 := by
    intro x hx
    refine ho x.1 x.2 ?_
    unfold outAt
    exact List.mem_map.mpr ⟨x, List.mem_filter.mpr ⟨hx, by simp⟩, rfl⟩
  unfold sent outAt
  rw [he, List.filter_map]
  congr 1
  refine List.filter_congr (fun x hx => ?_)
  simp only [Function.comp_apply, ho' x hx]

variable {h : Hist D}

theorem Reach.none {st : State D} (r : Reach E cfg h st) (hn : cfg.numEntries ≤ 0) : st.base.cache = none := by
  induction r with
  | @init s d h0 =>
    unfold new at h0
    rw [if_neg (by omega)] at h0
    cases h0; rfl
  | @call h s d c s' out fl _ hs ih =>
    cases c <;> simp only [step, quota, cacheResponse, flush, flushAll, withBuffer, ih, bind, Except.bind] at hs
    · split at hs
      · cases hs; exact ih
      · split at hs
        · cases hs; exact ih
        · cases hs; exact ih
    all_goals cases hs; exact ih

/-- One call on a reached state. -/
theorem RInv.step_ripe (hm : Mono E.clk) (hf : 0 < E.extraFuel) (hpos : 0 < cfg.numEntries) {s : S D} {inAll : Bool} {d : Nat} {c : Call D}
    {st' : State D} {out : Out} {fl : List (QReq D)} (ih : RInv E cfg h s inAll)
    (hs : Quota.step E cfg (d + 1) c (stateOf cfg inAll s) = .ok (st', out, fl)) :
    ∃ (s' : S D) (inAll' : Bool) (o : List (Bytes × QReq D)), st' = stateOf cfg inAll' s' ∧ fl = o.map (·.2) ∧ s.t ≤ s'.t ∧
      VCall E cfg inAll s.t s'.t s.nid (view s.N) c out o (view s'.N) inAll' ∧
      RInv E cfg (⟨c, out, fl, (stateOf cfg inAll s).base.tick, st'.base.tick, entriesOf st'⟩ :: h) s' inAll' ∧
      (∀ e ∈ s.N, Ripe e → Kept s'.N o e ∨ Rejects cfg e.key c) ∧
      (c = .flush → 0 ≤ limitOf cfg → ∀ e ∈ s'.N, E.clk s.t - limitOf cfg ≤ e.lastUse)  ∧
      (∀ q ∈ o, Sends E cfg s c q.1) := by
  obtain ⟨s', inAll', o, rfl, h1, h2, h3, h4, h5, h6, h7⟩ := step_view hm hf cfg hpos inAll d s ih.inv ih.out c st' out fl hs
  refine ⟨s', inAll', o, rfl, h3, h4, h6, ?_, h7⟩
  let ev : Event D := ⟨c, out, fl, s.t, s'.t, entriesOf (stateOf cfg inAll' s')⟩
  show RInv E cfg (ev :: h) s' inAll'
  have hid := entries_ident cfg inAll' s' ev h rfl
  have hn : ∀ k p v, view s.N k = some (p, v) → p < s.nid := by
    intro k p v hv
    obtain ⟨e, he, _, rfl, _⟩ := (view_some ih.inv.keys).mp hv
    exact (ih.inv.elem e he).2.2.2.1
  refine ⟨h2, h1, ?_, hid, fun k => (ih.base k).step (ih.id k) (hid k) (hn k) (h6.at k), ?_⟩
  · have hcl : Cleared (ev :: h) ↔ c = .flushAll ∨ Cleared h := by simp [Cleared, ev]
    rw [hcl, ← ih.all]
    generalize view s'.N = M' at h6
    cases h6 <;> simp
  · intro hnc k
    have ho : ∀ k, ∀ q ∈ outAt k o, allocateQuotaSig cfg.H q = k := fun k => (h6.at k).outSig hnc.tail (ih.base k)
    have hse := sent_outAt (ev := ev) h3 ho k
    refine KFull.step (inAll := inAll) ((ih.full hnc.tail) k) (ih.id k) (hid k) (hn k) ?_
    rw [hse]
    exact h6.at k

/-- One call on a reached state, without what it does to entries that hold something. -/
theorem RInv.step (hm : Mono E.clk) (hf : 0 < E.extraFuel) (hpos : 0 < cfg.numEntries) {s : S D} {inAll : Bool} {d : Nat} {c : Call D}
    {st' : State D} {out : Out} {fl : List (QReq D)} (ih : RInv E cfg h s inAll)
    (hs : Quota.step E cfg (d + 1) c (stateOf cfg inAll s) = .ok (st', out, fl)) :
    ∃ (s' : S D) (inAll' : Bool) (o : List (Bytes × QReq D)), st' = stateOf cfg inAll' s' ∧ fl = o.map (·.2) ∧ s.t ≤ s'.t ∧
      VCall E cfg inAll s.t s'.t s.nid (view s.N) c out o (view s'.N) inAll' ∧
      RInv E cfg (⟨c, out, fl, (stateOf cfg inAll s).base.tick, st'.base.tick, entriesOf st'⟩ :: h) s' inAll' := by
  obtain ⟨s', inAll', o, h1, h2, h3, h4, h5, _⟩ := ih.step_ripe hm hf hpos hs
  exact ⟨s', inAll', o, h1, h2, h3, h4, h5⟩

/-- Reached states satisfy the invariant. -/
theorem Reach.inv (hm : Mono E.clk) (hf : 0 < E.extraFuel) (hpos : 0 < cfg.numEntries) {st : State D} (r : Reach E cfg h st) :
    ∃ s inAll, st = stateOf cfg inAll s ∧ RInv E cfg h s inAll := by
  induction r with
  | @init s d h0 =>
    obtain ⟨t, ht⟩ := new_eq (D := D) E cfg hpos
    replace ht := ht (d + 1)
    rw [h0] at ht
    simp only [Except.map, Except.ok.injEq] at ht
    refine ⟨⟨[], 0, t, []⟩, false, ht, SInv.empty hpos t, rfl, by simp [Cleared], fun k => rfl, (fun k p v hx => by cases hx), fun _ k => ?_⟩
    exact ⟨(fun p v hx => by cases hx), (fun p v hx => by cases hx), (fun p v hx => by cases hx),
      [], [], ⟨by simp, rfl, rfl, rfl, by simp [losses]⟩, rfl⟩
  | @call h s d c s' out fl _ hs ih =>
    obtain ⟨s0, inAll, rfl, hi⟩ := ih
    obtain ⟨s1, inAll', o, rfl, _, _, _, hr⟩ := hi.step hm hf hpos hs
    exact ⟨s1, inAll', rfl, hr⟩

end Verif.Quota
