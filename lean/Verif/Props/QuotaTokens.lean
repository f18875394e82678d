import Verif.Spec.QuotaTokens
import Verif.Props.QuotaAggregator
/-
C72: the part that holds.
-/
set_option linter.unusedSectionVars false

namespace Verif.Quota
open Lru

variable {D : Type} {E : Env} {cfg : AggConfig} {h : Hist D} {s s' : State D} {d : Nat} {out : Out}
  {fl : List (AllocateQuotaRequest D)} {k : Bytes} {ev : Event D}

/-- The tokens of a metric in some requests. -/
abbrev tokensOf (qs : List (AllocateQuotaRequest D)) (n : Bytes) : Int := amount (qs.map (·.op)) n

theorem amount_nil (n : Bytes) : amount ([] : List (QuotaOperation D)) n = 0 := rfl

theorem amount_nonneg {ops : List (QuotaOperation D)} {n : Bytes} (hn : ∀ o ∈ ops, 0 ≤ amount [o] n) : 0 ≤ amount ops n := by
  induction ops with
  | nil => exact Int.le_refl 0
  | cons o ops ih =>
    rw [show o :: ops = [o] ++ ops from rfl, amount_append]
    have := hn o (by simp)
    have := ih (fun o ho => hn o (by simp [ho]))
    omega

theorem pending_requests (k : Bytes) (h : Hist D) : ∀ o ∈ pending cfg k h, ∃ r ∈ requests h, r.op = o := by
  induction h with
  | nil => simp [pending]
  | cons ev h ih =>
    have hab : ∀ o ∈ absorbedBy cfg k ev h, ∃ r ∈ requests (ev :: h), r.op = o := by
      intro o ho
      unfold absorbedBy at ho
      split at ho
      · rename_i r hc
        split at ho
        · split at ho
          · rw [List.mem_singleton] at ho
            exact ⟨r, requests_self hc, ho.symm⟩
          · cases ho
        · cases ho
      · cases ho
    intro o ho
    unfold pending at ho
    split at ho
    · cases ho
    · split at ho
      · exact hab o ho
      · rcases List.mem_append.mp ho with ho | ho
        · obtain ⟨r, h1, h2⟩ := ih o ho
          exact ⟨r, requests_mono r h1, h2⟩
        · exact hab o ho

theorem pending_gone (h1 : ident k (ev :: h) = none) : pending cfg k (ev :: h) = [] := by
  unfold pending; rw [if_pos (.inl h1)]

theorem pending_new (h1 : Created k ev h) : pending cfg k (ev :: h) = [] := by
  unfold pending; rw [if_pos (.inr (.inl h1))]

theorem pending_refused (h1 : refuses cfg.H k ev = true) : pending cfg k (ev :: h) = [] := by
  unfold pending; rw [if_pos (.inr (.inr h1))]

theorem pending_keep {p : Nat} (h1 : ident k (ev :: h) = some p) (h2 : ident k h = some p) (h3 : refuses cfg.H k ev = false) :
    pending cfg k (ev :: h) = (if sent cfg.H k ev ≠ [] then [] else pending cfg k h) ++ absorbedBy cfg k ev h := by
  conv => lhs; unfold pending
  rw [if_neg]
  · split <;> rfl
  · rintro (h4 | h4 | h4)
    · rw [h1] at h4; cases h4
    · exact not_created h1 h2 h4
    · rw [h3] at h4; cases h4

/-- What the accounts of `k` say: the entry holds the pending operations, and what was sent and what is
pending is covered by what was asked for and what was sent again. -/
structure Tok (E : Env) (cfg : AggConfig) (k : Bytes) (h : Hist D) (x : Slot1 D) : Prop where
  holds : AggOf E (aggAt x) (pending cfg k h)
  covered : (∀ q ∈ requests h, ∀ n, ∀ v ∈ quotaReported [q.op] n, IsInt v) → (∀ q ∈ requests h, ∀ n, 0 ≤ amount [q.op] n) →
    ∀ n, tokensOf (sentAll cfg.H k h) n + amount (pending cfg k h) n ≤ amount (asked cfg k h) n + tokensOf (resent cfg k h) n

theorem tokens_append (a b : List (AllocateQuotaRequest D)) (n : Bytes) : tokensOf (a ++ b) n = tokensOf a n + tokensOf b n := by
  simp [tokensOf, amount_append]

/-- The tokens newly asked for. -/
def newAsked (cfg : AggConfig) (k : Bytes) (ev : Event D) : List (QuotaOperation D) :=
  match ev.call with
  | .quota r => if Valid cfg r ∧ allocateQuotaSig cfg.H r = k then [r.op] else []
  | _ => []

/-- It is enough to look at the last call. -/
theorem Tok.of_step {x x' : Slot1 D} (t : Tok E cfg k h x) (h1 : AggOf E (aggAt x') (pending cfg k (ev :: h)))
    (h2 : (∀ q ∈ requests (ev :: h), ∀ n, ∀ v ∈ quotaReported [q.op] n, IsInt v) → (∀ q ∈ requests (ev :: h), ∀ n, 0 ≤ amount [q.op] n) →
      ∀ n, tokensOf (sent cfg.H k ev) n + amount (pending cfg k (ev :: h)) n ≤ amount (pending cfg k h) n + amount (newAsked cfg k ev) n +
        (if ¬ Created k ev h ∧ pending cfg k h = [] then tokensOf (sent cfg.H k ev) n else 0)) :
    Tok E cfg k (ev :: h) x' := by
  refine ⟨h1, fun hi hn n => ?_⟩
  have h3 := h2 hi hn n
  have h4 := t.covered (fun q hq => hi q (requests_mono q hq)) (fun q hq => hn q (requests_mono q hq)) n
  have e1 : tokensOf (sentAll cfg.H k (ev :: h)) n = tokensOf (sentAll cfg.H k h) n + tokensOf (sent cfg.H k ev) n := by
    conv => lhs; unfold sentAll
    exact tokens_append _ _ n
  have e2 : amount (asked cfg k (ev :: h)) n = amount (asked cfg k h) n + amount (newAsked cfg k ev) n := by
    conv => lhs; unfold asked
    exact amount_append _ _ n
  have e3 : tokensOf (resent cfg k (ev :: h)) n = tokensOf (resent cfg k h) n +
      (if ¬ Created k ev h ∧ pending cfg k h = [] then tokensOf (sent cfg.H k ev) n else 0) := by
    conv => lhs; unfold resent
    rw [tokens_append]
    congr 1
    split <;> rfl
  rw [e1, e2, e3]
  omega

theorem sum_of_aggOf {ops : List (QuotaOperation D)} {a : QuotaAgg D} (ha : AggOf E (some a) ops) : Sum E cfg ops (a.toProto cfg.U) := by
  obtain ⟨y, ys, h1, h2⟩ := ha
  exact ⟨y, ys, a, h1, h2, rfl⟩

theorem reqOf_tokens {ops : List (QuotaOperation D)} {a : QuotaAgg D} (ha : AggOf E (some a) ops)
    (hint : ∀ n, ∀ v ∈ quotaReported ops n, IsInt v) (n : Bytes) : tokensOf [reqOf cfg a] n = amount ops n :=
  (sum_of_aggOf (cfg := cfg) ha).amount hint n

theorem ints_of_pending (hi : ∀ q ∈ requests h, ∀ n, ∀ v ∈ quotaReported [q.op] n, IsInt v) (n : Bytes) :
    ∀ v ∈ quotaReported (pending cfg k h) n, IsInt v := by
  intro v hv
  simp only [quotaReported, List.mem_flatMap] at hv
  obtain ⟨y, ⟨o, ho, hs⟩, hv⟩ := hv
  obtain ⟨r, h1, rfl⟩ := pending_requests k h o ho
  exact hi r h1 n v (by simp only [quotaReported, List.mem_flatMap]; exact ⟨y, ⟨r.op, by simp, hs⟩, hv⟩)

theorem newAsked_nonneg (hn : ∀ q ∈ requests (ev :: h), ∀ n, 0 ≤ amount [q.op] n) (n : Bytes) :
    0 ≤ amount (newAsked cfg k ev) n := by
  unfold newAsked
  split
  · rename_i r hc
    split
    · exact hn r (requests_self hc) n
    · exact Int.le_refl 0
  · exact Int.le_refl 0

theorem pending_nonneg (hn : ∀ q ∈ requests h, ∀ n, 0 ≤ amount [q.op] n) (n : Bytes) : 0 ≤ amount (pending cfg k h) n := by
  refine amount_nonneg (fun o ho => ?_)
  obtain ⟨r, h1, rfl⟩ := pending_requests k h o ho
  exact hn r h1 n

/-- What the background of a call does to the pending operations `P`. -/
theorem BgAt.pending {inAll : Bool} {lo hi : Nat} {x y : Slot1 D} {o : List (QReq D)} (hb : BgAt E cfg inAll lo hi x o y)
    {P : List (QuotaOperation D)} (hP : AggOf E (aggAt x) P) :
    (o ≠ [] → P ≠ []) ∧ AggOf E (aggAt y) (if y = none ∨ o ≠ [] then [] else P) ∧
    ((∀ n, ∀ v ∈ quotaReported P n, IsInt v) → (∀ n, 0 ≤ amount P n) →
      ∀ n, tokensOf o n + amount (if y = none ∨ o ≠ [] then [] else P) n ≤ amount P n) := by
  cases hb with
  | same =>
    refine ⟨fun h => absurd rfl h, ?_, fun _ hp n => ?_⟩
    · split
      · rename_i hc
        rcases hc with rfl | hc
        · rfl
        · exact absurd rfl hc
      · exact hP
    · split
      · rw [amount_nil]; have := hp n; show (0 : Int) + 0 ≤ _; omega
      · show (0 : Int) + _ ≤ _; omega
  | drop =>
    refine ⟨fun h => absurd rfl h, by rw [if_pos (.inl rfl)]; rfl, fun _ hp n => ?_⟩
    rw [if_pos (.inl rfl), amount_nil]; have := hp n; show (0 : Int) + 0 ≤ _; omega
  | @send p v a i _ _ _ _ h5 =>
    simp only [aggAt, Option.bind_some, h5] at hP
    refine ⟨fun _ => ?_, by rw [if_pos (.inr (by simp))]; rfl, fun hi _ n => ?_⟩
    · obtain ⟨y, ys, rfl, _⟩ := hP; simp
    · rw [if_pos (.inr (by simp)), amount_nil, reqOf_tokens hP hi]; omega
  | @sendDrop p v a i _ _ _ _ h5 =>
    simp only [aggAt, Option.bind_some, h5] at hP
    refine ⟨fun _ => ?_, by rw [if_pos (.inl rfl)]; rfl, fun hi _ n => ?_⟩
    · obtain ⟨y, ys, rfl, _⟩ := hP; simp
    · rw [if_pos (.inl rfl), amount_nil, reqOf_tokens hP hi]; omega

theorem Tok.step {x x' : Slot1 D} {inAll : Bool} {nid : Nat} (t : Tok E cfg k h x) (b : KBase E cfg k h x) (hx : ident k h = x.map (·.1))
    (hx' : ident k (ev :: h) = x'.map (·.1)) (hn : ∀ p v, x = some (p, v) → p < nid)
    (hs : KStep E cfg inAll ev.first ev.last nid k ev.call ev.out x (sent cfg.H k ev) x') : Tok E cfg k (ev :: h) x' := by
  generalize hc : ev.call = c at hs
  generalize ho : ev.out = out at hs
  generalize hse : sent cfg.H k ev = o at hs
  have hmono : (∀ q ∈ requests (ev :: h), ∀ n, ∀ v ∈ quotaReported [q.op] n, IsInt v) →
      ∀ q ∈ requests h, ∀ n, ∀ v ∈ quotaReported [q.op] n, IsInt v := fun hi q hq => hi q (requests_mono q hq)
  have hmono' : (∀ q ∈ requests (ev :: h), ∀ n, 0 ≤ amount [q.op] n) → ∀ q ∈ requests h, ∀ n, 0 ≤ amount [q.op] n :=
    fun hi q hq => hi q (requests_mono q hq)
  have hite : ∀ (P : Prop) [Decidable P] (z : Int), 0 ≤ z → 0 ≤ if P then z else 0 := by
    intro P _ z hz; split
    · exact hz
    · exact Int.le_refl 0
  cases hs with
  | bg hb h1 h2 =>
    obtain ⟨g1, g2, g3⟩ := hb.pending t.holds
    have hab : absorbedBy cfg k ev h = [] := by
      unfold absorbedBy
      split
      · rename_i q hq
        split
        · rename_i pp hp
          rw [if_neg]
          rintro ⟨h3, _⟩
          rcases h1 q (hc.symm.trans hq) with h1 | h1
          · exact h1 h3
          · rw [ho] at hp; rw [h1] at hp; cases hp
        · rfl
      · rfl
    have hpe : pending cfg k (ev :: h) = if x' = none ∨ o ≠ [] then [] else pending cfg k h := by
      cases hxx : x' with
      | none => rw [if_pos (.inl rfl), pending_gone (by rw [hx', hxx]; rfl)]
      | some y =>
        obtain ⟨p, v⟩ := y
        subst hxx
        obtain ⟨v0, rfl, _⟩ := hb.some_cases
        rw [pending_keep (p := p) hx' hx, hab, hse, List.append_nil]
        · simp
        · unfold refuses
          split
          · rename_i r resp hr
            have := h2 r resp (hc.symm.trans hr)
            simp only [decide_eq_false_iff_not]
            rintro ⟨h3, _⟩
            cases this h3
          · rfl
    refine t.of_step (by rw [hpe]; exact g2) (fun hi hn' n => ?_)
    rw [hpe, hse]
    have h3 := g3 (fun n => ints_of_pending (hmono hi) n) (fun n => pending_nonneg (hmono' hn') n) n
    have h4 := newAsked_nonneg (cfg := cfg) (k := k) hn' n
    by_cases hpp : pending cfg k h = []
    · have : o = [] := by by_contra hoo; exact g1 hoo hpp
      subst this
      have : (if ¬ Created k ev h ∧ pending cfg k h = [] then tokensOf ([] : List (QReq D)) n else 0) = 0 := by split <;> rfl
      rw [this]; omega
    · rw [if_neg (fun hcc : ¬ Created k ev h ∧ pending cfg k h = [] => hpp hcc.2)]; omega
  | @create r i p _ hv hk hb h1 h2 h3 =>
    have hcr : Created k ev h := KStep.created hx hn hx' h3
    refine t.of_step (by rw [pending_new hcr]; rfl) (fun hi hn' n => ?_)
    rw [pending_new hcr, hse, amount_nil, if_neg (fun hc => hc.1 hcr)]
    have : newAsked cfg k ev = [r.op] := by
      unfold newAsked; rw [hc]; simp only; rw [if_pos ⟨hv, hk⟩]
    rw [this]
    have := pending_nonneg (cfg := cfg) (k := k) (hmono' hn') n
    show amount [r.op] n + 0 ≤ _
    omega
  | @hit r _ o1 p v t1 v1 t2 qs v2 hv hk hb hlo hhi hrf hif =>
    obtain ⟨g1, g2, g3⟩ := hb.pending t.holds
    have hbv : KB E cfg k h v := KB.bg hb b
    obtain ⟨v0, rfl, hvv⟩ := hb.some_cases
    have hncr : ¬ Created k ev h := not_created hx' hx
    have hasked : newAsked cfg k ev = [r.op] := by
      unfold newAsked; rw [hc]; simp only; rw [if_pos ⟨hv, hk⟩]
    have href : refuses cfg.H k ev = false := by unfold refuses; rw [hc]
    have hab : absorbedBy cfg k ev h = if v2.response.allocateErrors = [] then [r.op] else [] := by
      unfold absorbedBy
      rw [hc, ho]
      simp only
      by_cases hp2 : v2.response.allocateErrors = []
      · rw [if_pos ⟨hk, hncr, hp2⟩, if_pos hp2]
      · rw [if_neg (fun hc => hp2 hc.2.2), if_neg hp2]
    have hpk := pending_keep (p := p) hx' hx href
    rw [hse] at hpk
    -- what the entry holds after the refresh
    have key : ∃ P1, AggOf E v1.agg P1 ∧ P1 = (if o1 ++ qs ≠ [] then [] else pending cfg k h) ∧
        ((∀ n, ∀ v ∈ quotaReported (pending cfg k h) n, IsInt v) → (∀ n, 0 ≤ amount (pending cfg k h) n) →
          ∀ n, tokensOf (o1 ++ qs) n + amount P1 n ≤ amount (pending cfg k h) n +
            (if pending cfg k h = [] then tokensOf (o1 ++ qs) n else 0)) := by
      have hnil : ∀ (z : Int), 0 ≤ z → (0 : Int) ≤ if pending cfg k h = [] then z else 0 := fun z hz => hite _ z hz
      rcases hvv with ⟨rfl, rfl⟩ | ⟨_, a, i, _, _, h4, h5, rfl, rfl⟩
      · have hho : AggOf E v.agg (pending cfg k h) := t.holds
        rcases hbv.refresh hrf with ⟨_, rfl, _, rfl⟩ | ⟨_, _, rfl, _, rfl⟩ | ⟨_, _, rfl, _, hq⟩
        · refine ⟨_, hho, by simp, fun hi hp n => ?_⟩
          have : (if pending cfg k h = [] then tokensOf ([] ++ [] : List (QReq D)) n else 0) = 0 := by split <;> rfl
          rw [this]; show (0 : Int) + _ ≤ _; omega
        · refine ⟨_, hho, by simp, fun hi hp n => ?_⟩
          have : (if pending cfg k h = [] then tokensOf ([] ++ [] : List (QReq D)) n else 0) = 0 := by split <;> rfl
          rw [this]; show (0 : Int) + _ ≤ _; omega
        · refine ⟨[], rfl, ?_, fun hi hp n => ?_⟩
          · rcases hq with ⟨a, _, _, rfl⟩ | ⟨_, _, rfl⟩ | ⟨_, _, rfl⟩ <;> simp
          · rw [amount_nil, List.nil_append]
            rcases hq with ⟨a, h6, _, rfl⟩ | ⟨h6, _⟩ | ⟨h6, _⟩
            · rw [h6] at hho
              have hne : pending cfg k h ≠ [] := by obtain ⟨y, ys, hy, _⟩ := hho; rw [hy]; simp
              rw [if_neg hne, reqOf_tokens hho hi]
            · rw [h6] at hho
              rw [if_pos (show pending cfg k h = [] from hho), show amount (pending cfg k h) n = 0 by rw [show pending cfg k h = [] from hho]; rfl]; omega
            · rw [h6] at hho
              rw [if_pos (show pending cfg k h = [] from hho), show amount (pending cfg k h) n = 0 by rw [show pending cfg k h = [] from hho]; rfl]; omega
      · have hho : AggOf E (some a) (pending cfg k h) := by have := t.holds; simp only [aggAt, Option.bind_some, h5] at this; exact this
        have hne : pending cfg k h ≠ [] := by obtain ⟨y, ys, hy, _⟩ := hho; rw [hy]; simp
        rcases refresh_cases hrf with ⟨_, rfl, _, rfl⟩ | ⟨h6, _⟩ | ⟨h6, _⟩
        · refine ⟨[], rfl, by simp, fun hi hp n => ?_⟩
          rw [amount_nil, List.append_nil, if_neg hne, reqOf_tokens hho hi]
        · cases h6
        · cases h6
    obtain ⟨P1, k1, k2, k3⟩ := key
    rw [← k2, hab] at hpk
    refine t.of_step ?_ (fun hi hn' n => ?_)
    · rw [hpk]
      show AggOf E v2.agg _
      split at hif
      · rename_i hpos
        obtain ⟨a, rfl, _⟩ := aggregate_cases hif
        rw [if_pos hpos]
        exact k1.add hif
      · rename_i hpos
        cases hif
        rw [if_neg hpos, List.append_nil]
        exact k1
    · have h3 := k3 (fun n => ints_of_pending (hmono hi) n) (fun n => pending_nonneg (hmono' hn') n) n
      rw [hse, hpk, hasked, amount_append]
      have hr0 : 0 ≤ amount [r.op] n := hn' r (requests_self hc) n
      have hle : amount (if v2.response.allocateErrors = [] then [r.op] else []) n ≤ amount [r.op] n := by
        split
        · omega
        · exact hr0
      have hsame : (if ¬ Created k ev h ∧ pending cfg k h = [] then tokensOf (o1 ++ qs) n else 0) =
          if pending cfg k h = [] then tokensOf (o1 ++ qs) n else 0 := by
        by_cases hpp : pending cfg k h = []
        · rw [if_pos ⟨hncr, hpp⟩, if_pos hpp]
        · rw [if_neg (fun hc => hpp hc.2), if_neg hpp]
      rw [hsame]
      omega
  | @respond r resp _ _ p v hk hb =>
    obtain ⟨g1, g2, g3⟩ := hb.pending t.holds
    obtain ⟨v0, rfl, hvv⟩ := hb.some_cases
    have hncr : ¬ Created k ev h := not_created hx' hx
    have hab : absorbedBy cfg k ev h = [] := by unfold absorbedBy; rw [hc]
    have hre : refuses cfg.H k ev = decide (resp.allocateErrors ≠ []) := by
      unfold refuses; rw [hc]; simp [hk]
    have hpe : pending cfg k (ev :: h) = if resp.allocateErrors ≠ [] then [] else
        (if (some (p, v) : Slot1 D) = none ∨ o ≠ [] then [] else pending cfg k h) := by
      by_cases hr : resp.allocateErrors = []
      · rw [pending_keep (p := p) hx' hx (by rw [hre]; simp [hr]), hab, hse, List.append_nil]
        simp [hr]
      · rw [pending_refused (by rw [hre]; simp [hr]), if_pos hr]
    refine t.of_step ?_ (fun hi hn' n => ?_)
    · rw [hpe]
      show AggOf E (if resp.allocateErrors.length > 0 then none else v.agg) _
      by_cases hr : resp.allocateErrors = []
      · rw [if_neg (by simp [hr]), if_neg (by simp [hr])]; exact g2
      · rw [if_pos (List.length_pos_iff.mpr hr), if_pos hr]; rfl
    · have h3 := g3 (fun n => ints_of_pending (hmono hi) n) (fun n => pending_nonneg (hmono' hn') n) n
      have h4 := newAsked_nonneg (cfg := cfg) (k := k) hn' n
      have h5 : amount (pending cfg k (ev :: h)) n ≤
          amount (if (some (p, v) : Slot1 D) = none ∨ o ≠ [] then [] else pending cfg k h) n := by
        rw [hpe]
        split
        · rw [amount_nil]
          split
          · exact Int.le_refl 0
          · exact pending_nonneg (hmono' hn') n
        · exact Int.le_refl _
      rw [hse]
      by_cases hpp : pending cfg k h = []
      · have : o = [] := by by_contra hoo; exact g1 hoo hpp
        have e0 : tokensOf o n = 0 := by rw [this]; rfl
        have e1 : tokensOf ([] : List (QReq D)) n = 0 := rfl
        rw [this]
        have : (if ¬ Created k ev h ∧ pending cfg k h = [] then tokensOf ([] : List (QReq D)) n else 0) = 0 := by split <;> rfl
        rw [this]; omega
      · rw [if_neg (fun hc => hpp hc.2)]; omega
  | clear =>
    refine t.of_step (by rw [pending_gone hx']; rfl) (fun hi hn' n => ?_)
    rw [pending_gone hx', hse, amount_nil]
    have h4 := newAsked_nonneg (cfg := cfg) (k := k) hn' n
    have h5 := pending_nonneg (cfg := cfg) (k := k) (hmono' hn') n
    have : (if ¬ Created k ev h ∧ pending cfg k h = [] then tokensOf ([] : List (QReq D)) n else 0) = 0 := by split <;> rfl
    rw [this]
    show (0 : Int) + 0 ≤ _
    omega

section
variable (hm : Mono E.clk) (hf : 0 < E.extraFuel) (hpos : 0 < cfg.numEntries)
include hm hf hpos

/-- The accounts of every reached state. -/
theorem Reach.tok (r : Reach E cfg h s) : ∃ s0 inAll, s = stateOf cfg inAll s0 ∧ RInv E cfg h s0 inAll ∧
    (NoCollision cfg.H h → ∀ k, Tok E cfg k h (view s0.N k)) := by
  induction r with
  | @init s d h0 =>
    obtain ⟨s0, b, hst, hi⟩ := (Reach.init h0).inv hm hf hpos
    refine ⟨s0, b, hst, hi, fun _ k => ⟨?_, fun _ _ n => Int.le_refl _⟩⟩
    have hid := hi.id k
    cases hv : view s0.N k with
    | none => rfl
    | some y => rw [hv] at hid; cases hid
  | @call h s d c s' out fl r hs ih =>
    obtain ⟨s0, b, rfl, hi, ht⟩ := ih
    obtain ⟨s1, b', o, rfl, h3, _, h6, hr⟩ := hi.step hm hf hpos hs
    refine ⟨s1, b', rfl, hr, fun hnc k => ?_⟩
    have ho : ∀ k, ∀ q ∈ outAt k o, allocateQuotaSig cfg.H q = k := fun k => (h6.at k).outSig hnc.tail (hi.base k)
    have hse := sent_outAt (ev := evOf c (stateOf cfg b s0) (stateOf cfg b' s1, out, fl)) h3 ho k
    refine Tok.step (inAll := b) (nid := s0.nid) (ht hnc.tail k) (hi.base k) (hi.id k) (hr.id k) ?_ ?_
    · intro p v hv
      obtain ⟨e, he, _, rfl, _⟩ := (view_some hi.inv.keys).mp hv
      exact (hi.inv.elem e he).2.2.2.1
    · rw [hse]; exact h6.at k

/-- C72, the part that holds: the tokens sent for a signature, and those still held for it, are
covered by the tokens its callers asked for, together with the requests sent again because a refresh
was due while no operation was pending. -/
theorem C72_covered_partial (r : Reach E cfg h s) (hnc : NoCollision cfg.H h) (k : Bytes)
    (hint : ∀ q ∈ requests h, ∀ n, ∀ v ∈ quotaReported [q.op] n, IsInt v)
    (hnn : ∀ q ∈ requests h, ∀ n, 0 ≤ amount [q.op] n) (n : Bytes) :
    tokensOf (sentAll cfg.H k h) n + amount (heldOf cfg k s).toList n ≤
      amount (asked cfg k h) n + tokensOf (resent cfg k h) n := by
  obtain ⟨s0, b, rfl, hi, ht⟩ := r.tok hm hf hpos
  have t := ht hnc k
  have hc := t.covered hint hnn n
  have hheld : heldOf cfg k (stateOf cfg b s0) = (aggAt (view s0.N k)).map (fun a => a.toProto cfg.U) := by
    simp only [heldOf, stateOf, cacheOf, view, findKey]
    cases List.find? (fun e => e.key == k) s0.N with
    | none => rfl
    | some e => rfl
  have hh := t.holds
  rw [hheld]
  cases hx : aggAt (view s0.N k) with
  | none =>
    rw [hx] at hh
    rw [show pending cfg k h = [] from hh, amount_nil] at hc
    exact hc
  | some a =>
    rw [hx] at hh
    have := (sum_of_aggOf (cfg := cfg) hh).amount (ints_of_pending hint) n
    simp only [Option.map_some, Option.toList_some]
    omega

/-- C72: without refreshes of idle signatures, no more tokens are sent than were asked for. -/
theorem C72_not_resent_partial (r : Reach E cfg h s) (hnc : NoCollision cfg.H h) (k : Bytes)
    (hint : ∀ q ∈ requests h, ∀ n, ∀ v ∈ quotaReported [q.op] n, IsInt v)
    (hnn : ∀ q ∈ requests h, ∀ n, 0 ≤ amount [q.op] n) (hre : resent cfg k h = []) (n : Bytes) :
    tokensOf (sentAll cfg.H k h) n ≤ amount (asked cfg k h) n := by
  have h1 := C72_covered_partial hm hf hpos r hnc k hint hnn n
  rw [hre, show tokensOf ([] : List (QReq D)) n = 0 from rfl] at h1
  have h2 : 0 ≤ amount (heldOf cfg k s).toList n := by
    obtain ⟨s0, b, rfl, hi, ht⟩ := r.tok hm hf hpos
    have hheld : heldOf cfg k (stateOf cfg b s0) = (aggAt (view s0.N k)).map (fun a => a.toProto cfg.U) := by
      simp only [heldOf, stateOf, cacheOf, view, findKey]
      cases List.find? (fun e => e.key == k) s0.N with
      | none => rfl
      | some e => rfl
    have hh := (ht hnc k).holds
    rw [hheld]
    cases hx : aggAt (view s0.N k) with
    | none => exact Int.le_refl 0
    | some a =>
      rw [hx] at hh
      have := (sum_of_aggOf (cfg := cfg) hh).amount (ints_of_pending hint) n
      have := pending_nonneg (cfg := cfg) (k := k) hnn n
      simp only [Option.map_some, Option.toList_some]
      omega
  omega

end

/-- The accounts of the calls that show C72 false: 17 tokens sent, 12 asked for and 5 sent again. -/
example : ∃ (h : Hist Int) (s : State Int), Reach exEnv exCfg h s ∧ NoCollision exCfg.H h ∧
    (sentAll exCfg.H (exSig 1) h).map tokens = [5, 5, 7] ∧ (resent exCfg (exSig 1) h).map tokens = [5] ∧
    asked exCfg (exSig 1) h = [(exQ 1 5).op, (exQ 1 7).op] := by
  obtain ⟨h, s, _, hr, h2, h3⟩ := run_case (E := exEnv) (cfg := exCfg) 2 exCalls
    (fun h _ => SeenApart exCfg.H h ∧ (sentAll exCfg.H (exSig 1) h).map tokens = [5, 5, 7] ∧
      (resent exCfg (exSig 1) h).map tokens = [5] ∧ asked exCfg (exSig 1) h = [(exQ 1 5).op, (exQ 1 7).op]) (by decide +kernel)
  exact ⟨h, s, hr, noCollision_of _ _ h2, h3⟩

/-- Calls after which nothing was sent again: both requests carry tokens that were asked for. -/
example : ∃ (h : Hist Int) (s : State Int), Reach exEnv exCfg h s ∧ NoCollision exCfg.H h ∧
    (sentAll exCfg.H (exSig 1) h).map tokens = [5, 7] ∧ resent exCfg (exSig 1) h = [] ∧
    asked exCfg (exSig 1) h = [(exQ 1 5).op, (exQ 1 7).op] ∧
    (∀ q ∈ requests h, q = exQ 1 5 ∨ q = exQ 1 7) := by
  obtain ⟨h, s, _, hr, h2, h3, h4, h5, h6⟩ := run_case (E := exEnv) (cfg := exCfg) 2
    ([.quota (exQ 1 5), .cacheResponse (exQ 1 5) (exYes 1), .quota (exQ 1 7)] ++ List.replicate 12 .flush)
    (fun h _ => SeenApart exCfg.H h ∧ (sentAll exCfg.H (exSig 1) h).map tokens = [5, 7] ∧
      resent exCfg (exSig 1) h = [] ∧ asked exCfg (exSig 1) h = [(exQ 1 5).op, (exQ 1 7).op] ∧
      (requests h).all (fun q => decide (q = exQ 1 5 ∨ q = exQ 1 7)) = true) (by decide +kernel)
  exact ⟨h, s, hr, noCollision_of _ _ h2, h3, h4, h5, by simpa using h6⟩

end Verif.Quota
