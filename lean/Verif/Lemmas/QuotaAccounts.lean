import Verif.Props.QuotaAggregator
import Verif.Spec.QuotaTokens
/-
What was granted is what was added to an entry and what made one; how often something may be lost.
-/
set_option linter.unusedSectionVars false
namespace Verif.Quota
open Lru

variable {D : Type} {E : Env} {cfg : AggConfig} {h : Hist D} {s s' : State D} {d : Nat} {out : Out}
  {fl : List (AllocateQuotaRequest D)}

/-- The operation of a `Quota` call of signature `k` answered positively. -/
def grantedBy (H : Bytes → Bytes) (k : Bytes) (ev : Event D) : List (QuotaOperation D) :=
  match ev.call, ev.out.response with
  | .quota r, some p => if ev.out.status = .ok ∧ allocateQuotaSig H r = k ∧ p.allocateErrors = [] then [r.op] else []
  | _, _ => []

/-- All of them. -/
def grantedOps (H : Bytes → Bytes) (k : Bytes) (h : Hist D) : List (QuotaOperation D) := h.flatMap (grantedBy H k)

/-- The number of negative responses stored for `k`. -/
def refusals (H : Bytes → Bytes) (k : Bytes) (h : Hist D) : Nat := h.countP (refuses H k)

variable (hm : Mono E.clk) (hf : 0 < E.extraFuel) (hpos : 0 < cfg.numEntries)
include hm hf hpos

/-- Only a valid `Quota` call of the signature makes its entry, and is answered positively. -/
theorem created_by (r : Reach E cfg h s) {c : Call D} (hs : step E cfg (d + 1) c s = .ok (s', out, fl))
    (hnc : NoCollision cfg.H (evOf c s (s', out, fl) :: h)) (k : Bytes) (hc : Created k (evOf c s (s', out, fl)) h) :
    ∃ q, c = .quota q ∧ allocateQuotaSig cfg.H q = k ∧ out = ⟨.ok, some .default⟩ := by
  obtain ⟨inAll, nid, x, x', _, f, f', hx, hx', hn, hk, _, _⟩ := at_key hm hf hpos r hs hnc k
  generalize sent cfg.H k (evOf c s (s', out, fl)) = o at hk
  have bgc : ∀ {o1 p v}, BgAt E cfg inAll s.base.tick s'.base.tick x o1 (some (p, v)) → ident k h = some p := by
    intro o1 p v hb
    obtain ⟨v0, rfl, _⟩ := hb.some_cases
    exact hx
  cases hk with
  | bg hb h1 h2 =>
    exfalso
    cases hxx : x' with
    | none => rw [hxx] at hx'; exact hc.1 hx'
    | some y =>
      obtain ⟨p, v⟩ := y
      subst hxx
      exact not_created hx' (bgc hb) hc
  | create hv hk hb h1 h2 h3 => exact ⟨_, rfl, hk, rfl⟩
  | hit hv hk hb => exact absurd hc (not_created hx' (bgc hb))
  | respond hk hb => exact absurd hc (not_created hx' (bgc hb))
  | clear => exact absurd hx' hc.1

/-- A response comes with the status OK. -/
theorem response_ok (r : Reach E cfg h s) (q : AllocateQuotaRequest D) (hs : step E cfg (d + 1) (.quota q) s = .ok (s', out, fl))
    (hp : out.response ≠ none) : out.status = .ok := by
  by_cases hv : Valid cfg q
  · exact (C44_quota_serves hm hf hpos r q hv hs).1
  · rw [C44_invalid_rejected q hv] at hs
    cases hs
    exact absurd rfl hp

/-- What was granted was added to an entry or made one. -/
theorem granted_split (r : Reach E cfg h s) (hnc : NoCollision cfg.H h) (k : Bytes) :
    (grantedOps cfg.H k h).Perm (absorbed cfg k h ++ (made k h).map (·.op)) := by
  induction r with
  | init h0 => exact List.Perm.refl _
  | @call h s d c s' out fl r hs ih =>
    have ih := ih hnc.tail
    simp only [grantedOps, List.flatMap_cons, absorbed, made, List.map_append]
    have key : (grantedBy cfg.H k (evOf c s (s', out, fl))).Perm
        (absorbedBy cfg k (evOf c s (s', out, fl)) h ++ (madeBy k (evOf c s (s', out, fl)) h).map (·.op)) := by
      by_cases hc : Created k (evOf c s (s', out, fl)) h
      · obtain ⟨q, rfl, h1, h2⟩ := created_by hm hf hpos r hs hnc k hc
        have e1 : absorbedBy cfg k (evOf (.quota q) s (s', out, fl)) h = [] := by
          unfold absorbedBy; simp only [evOf, h2]; rw [if_neg (fun e => e.2.1 hc)]
        have e2 : madeBy k (evOf (.quota q) s (s', out, fl)) h = [q] := by
          unfold madeBy; simp only [evOf]; rw [if_pos hc]
        have e3 : grantedBy cfg.H k (evOf (.quota q) s (s', out, fl)) = [q.op] := by
          unfold grantedBy; simp only [evOf, h2]; rw [if_pos ⟨trivial, h1, rfl⟩]
        rw [e1, e2, e3]
        exact List.Perm.refl _
      · rw [madeBy_none hc, List.map_nil, List.append_nil]
        refine List.Perm.of_eq ?_
        unfold grantedBy absorbedBy
        cases c with
        | quota q =>
          simp only [evOf]
          cases hp : out.response with
          | none => rfl
          | some p =>
            have hst := response_ok hm hf hpos r q hs (by rw [hp]; simp)
            simp only [hst, true_and]
            congr 1
            have hc' : ¬ Created k (⟨.quota q, out, fl, s.base.tick, s'.base.tick, entriesOf s'⟩ : Event D) h := hc
            simp only [hc', not_false_eq_true, true_and]
        | _ => rfl
    refine (key.append ih).trans ?_
    generalize absorbedBy cfg k _ h = A
    generalize (madeBy k _ h).map (·.op) = B
    generalize absorbed cfg k h = A'
    generalize (made k h).map _ = B'
    refine List.perm_append_comm.trans ?_
    simp only [List.append_assoc]
    refine List.Perm.append_left _ ?_
    refine (List.perm_append_comm_assoc _ _ _).trans (List.Perm.append_left _ ?_)
    exact List.Perm.refl _

/-- Something is lost at most once per negative response and once per entry. -/
theorem losses_le (r : Reach E cfg h s) (hnc : NoCollision cfg.H h) (k : Bytes) :
    losses cfg.H k h + (if ident k h = none then 0 else 1) ≤ refusals cfg.H k h + (made k h).length := by
  induction r with
  | init h0 => exact Nat.le_refl _
  | @call h s d c s' out fl r hs ih =>
    have ih := ih hnc.tail
    have hcr := created_by hm hf hpos r hs hnc k
    change _ ≤ refusals cfg.H k (evOf c s (s', out, fl) :: h) + (made k (evOf c s (s', out, fl) :: h)).length
    change losses cfg.H k (evOf c s (s', out, fl) :: h) + (if ident k (evOf c s (s', out, fl) :: h) = none then 0 else 1) ≤ _
    simp only [losses, refusals, made, List.countP_cons, List.length_append] at ih ⊢
    have hmade : Created k (evOf c s (s', out, fl)) h → (madeBy k (evOf c s (s', out, fl)) h).length = 1 := by
      intro hc
      obtain ⟨q, rfl, h1, h2⟩ := hcr hc
      unfold madeBy; simp only [evOf]; rw [if_pos hc]; rfl
    have hloss : Loses cfg.H k (evOf c s (s', out, fl)) h →
        refuses cfg.H k (evOf c s (s', out, fl)) = true ∨ Destroyed k (evOf c s (s', out, fl)) h := by
      rintro (⟨q, p, h1, h2, h3⟩ | hd)
      · left; unfold refuses; rw [h1]; exact decide_eq_true ⟨h2, h3⟩
      · exact .inr hd
    generalize evOf c s (s', out, fl) = ev at *
    clear hcr hnc
    have hid : ident k (ev :: h) = none ∨ ident k (ev :: h) = ident k h ∨ Created k ev h := by
      by_cases h1 : ident k (ev :: h) = none
      · exact .inl h1
      · by_cases h2 : ident k (ev :: h) = ident k h
        · exact .inr (.inl h2)
        · exact .inr (.inr ⟨h1, h2⟩)
    have hle : (if Loses cfg.H k ev h then 1 else 0) ≤ (if refuses cfg.H k ev = true then 1 else 0) + if Destroyed k ev h then 1 else 0 := by
      split
      · rename_i hl
        rcases hloss hl with h1 | h1
        · rw [if_pos h1]; omega
        · rw [if_pos h1]; omega
      · omega
    by_cases hd : Destroyed k ev h
    · rw [if_pos hd] at hle
      rw [if_neg hd.1] at ih
      rcases hid with h1 | h1 | h1
      · rw [if_pos h1]; omega
      · exact absurd h1 hd.2
      · have := hmade h1
        rw [if_neg h1.1]; omega
    · rw [if_neg hd] at hle
      rcases hid with h1 | h1 | h1
      · rw [if_pos h1]; split at ih <;> omega
      · rw [h1]; omega
      · have := hmade h1
        rw [if_neg h1.1]; split at ih <;> omega

end Verif.Quota
