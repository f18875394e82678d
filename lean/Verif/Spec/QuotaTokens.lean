import Verif.Spec.QuotaAggregator
/-
The tokens asked for, sent and sent again, defined from the history of calls alone.
-/
namespace Verif.Quota
open Lru
variable {D : Type}

/-- The operations of all valid `Quota` calls of signature `k`. -/
def asked (cfg : AggConfig) (k : Bytes) : Hist D → List (QuotaOperation D)
  | [] => []
  | ev :: h => asked cfg k h ++
    match ev.call with
    | .quota r => if Valid cfg r ∧ allocateQuotaSig cfg.H r = k then [r.op] else []
    | _ => []

/-- The call stored a negative response for `k`. -/
def refuses (H : Bytes → Bytes) (k : Bytes) (ev : Event D) : Bool :=
  match ev.call with
  | .cacheResponse r resp => decide (allocateQuotaSig H r = k ∧ resp.allocateErrors ≠ [])
  | _ => false

/-- The operations added to the entry of `k` since it was made, a request was last sent for it, or a
negative response was last stored for it. -/
def pending (cfg : AggConfig) (k : Bytes) : Hist D → List (QuotaOperation D)
  | [] => []
  | ev :: h =>
    if ident k (ev :: h) = none ∨ Created k ev h ∨ refuses cfg.H k ev = true then []
    else if sent cfg.H k ev ≠ [] then absorbedBy cfg k ev h
    else pending cfg k h ++ absorbedBy cfg k ev h

/-- The requests sent for an entry that was there already while no operation was pending. -/
def resent (cfg : AggConfig) (k : Bytes) : Hist D → List (AllocateQuotaRequest D)
  | [] => []
  | ev :: h => resent cfg k h ++ if ¬ Created k ev h ∧ pending cfg k h = [] then sent cfg.H k ev else []

/-- Since `h1`, something was sent for `k`, or what was held for it was lost. -/
def Settled (H : Bytes → Bytes) (k : Bytes) (h1 h : Hist D) : Prop :=
  ∃ ev before, ev :: before <:+ h ∧ h1 <:+ before ∧ (sent H k ev ≠ [] ∨ Loses H k ev before)

end Verif.Quota

namespace Verif.Quota
open Lru
variable {D : Type}

/-- The calls `cs` one after the other: what each returns and passes to the flush callback. -/
def calls (E : Env) (cfg : AggConfig) (d : Nat) : List (Call D) → State D →
    Res (List (Out × List (AllocateQuotaRequest D)) × State D)
  | [], s => .ok ([], s)
  | c :: cs, s => do
    let (s', out, fl) ← step E cfg (d + 1) c s
    let (outs, s'') ← calls E cfg d cs s'
    .ok ((out, fl) :: outs, s'')

/-- The signatures for which calls ask for quota. -/
def signatures (H : Bytes → Bytes) (cs : List (Call D)) : List Bytes :=
  cs.filterMap (fun c => match c with | .quota r => some (allocateQuotaSig H r) | _ => none)

end Verif.Quota
