import Verif.Lemmas.Distribution
import Mathlib.Data.Real.Basic
import Mathlib.Data.List.Forall2
import Mathlib.Analysis.SpecialFunctions.Log.Base
/-
Exact-arithmetic reading of `double`, and the statistics of a list of samples.
-/
namespace Verif.Dist

/-- `double` read as the real numbers: no NaN, no infinities, no rounding.  `toInt32` truncates
towards zero and is undefined outside the `int` range. -/
noncomputable instance : DoubleOps ℝ where
  zero := 0
  one := 1
  epsilon := 1 / 100000
  add := (· + ·)
  sub := (· - ·)
  mul := (· * ·)
  div := (· / ·)
  abs := fun x => |x|
  log2 := Real.logb 2
  lt := fun a b => by classical exact decide (a < b)
  le := fun a b => by classical exact decide (a ≤ b)
  eq := fun a b => by classical exact decide (a = b)
  isNaN := fun _ => false
  ofInt := fun i => (i : ℝ)
  toInt32 := fun x =>
    let t : Int := if 0 ≤ x then ⌊x⌋ else ⌈x⌉
    if InI32 t then some t else none

/-- The finite bucket boundaries of a layout, in increasing order. -/
noncomputable def bounds : BucketOption ℝ → List ℝ
  | .unset => []
  | .linear n w o => (List.range (n.toNat + 1)).map fun i : Nat => o + (i : ℝ) * w
  | .exponential n g s => (List.range (n.toNat + 1)).map fun i : Nat => s * g ^ i
  | .explicit bs => bs

/-- Layouts accepted by `Init*` on a fresh message (explicit: at least one bound). -/
def ValidLayout : BucketOption ℝ → Prop
  | .unset => False
  | .linear n w _ => 0 < n ∧ n ≤ 2147483645 ∧ 0 < w
  | .exponential n g s => 0 < n ∧ n ≤ 2147483645 ∧ 1 < g ∧ 0 < s
  | .explicit bs => bs ≠ [] ∧ bs.Pairwise (· < ·)

/-- The bucket a value belongs to: the number of boundaries that are `≤ x`.  0 is the underflow
bucket, `(bounds b).length` the overflow bucket. -/
noncomputable def bucketOf (b : BucketOption ℝ) (x : ℝ) : Nat := by
  classical exact ((bounds b).filter fun t => decide (t ≤ x)).length

/-- Two layouts of one kind, with the same number of buckets, whose parameters are pairwise `near`. -/
def SameLayout {D : Type} (near : D → D → Prop) : BucketOption D → BucketOption D → Prop
  | .linear n w o, .linear n' w' o' => n = n' ∧ near w w' ∧ near o o'
  | .exponential n g s, .exponential n' g' s' => n = n' ∧ near g g' ∧ near s s'
  | .explicit bs, .explicit bs' => List.Forall₂ near bs bs'
  | _, _ => False

/-- Arithmetic mean. -/
noncomputable def meanOf (xs : List ℝ) : ℝ := xs.sum / xs.length
/-- Sum of squared deviations from the mean. -/
noncomputable def ssdOf (xs : List ℝ) : ℝ := (xs.map fun x => (x - meanOf xs) ^ 2).sum

/-- `d` describes the samples `xs` (in a layout `b`). -/
def Describes (d : Distribution ℝ) (b : BucketOption ℝ) (xs : List ℝ) : Prop :=
  d.buckets = b ∧ d.count = xs.length ∧
  d.bucketCounts.length = (bounds b).length + 1 ∧
  (∀ i < d.bucketCounts.length, d.bucketCounts[i]? = some ((xs.filter fun x => decide (bucketOf b x = i)).length : Int)) ∧
  (xs ≠ [] → d.mean = meanOf xs ∧ d.ssd = ssdOf xs ∧
    (d.minimum ∈ xs ∧ ∀ x ∈ xs, d.minimum ≤ x) ∧ (d.maximum ∈ xs ∧ ∀ x ∈ xs, x ≤ d.maximum))

end Verif.Dist
