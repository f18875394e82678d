import Verif.Model.Proto
/-
Model of `/repo/utils/distribution_helper.cc`.
-/
namespace Verif

/-- The operations on `double` the library uses (distribution_helper.cc:42-180).  There are no laws: every theorem stated for an
arbitrary instance holds in particular for IEEE-754 doubles (with NaN, infinities, rounding). -/
class DoubleOps (D : Type) where
  zero : D
  one : D
  /-- the literal `1e-5` -/
  epsilon : D
  add : D → D → D
  sub : D → D → D
  mul : D → D → D
  div : D → D → D
  abs : D → D
  log2 : D → D
  /-- `<`, `<=`, `==` (all false on NaN) -/
  lt : D → D → Bool
  le : D → D → Bool
  eq : D → D → Bool
  isNaN : D → Bool
  /-- conversion of an integer -/
  ofInt : Int → D
  /-- `static_cast<int>(x)`: truncation; `none` when the result does not fit (undefined behaviour) -/
  toInt32 : D → Option Int

namespace Dist
open DoubleOps
variable {D : Type} [DoubleOps D]

/-- `std::min(a, b)` (distribution_helper.cc:61, 295): `(b < a) ? b : a`. -/
def stdMin (a b : D) : D := if lt b a then b else a
/-- `std::max(a, b)` (distribution_helper.cc:62, 296): `(a < b) ? b : a`. -/
def stdMax (a b : D) : D := if lt a b then b else a

/-- `UpdateGeneralStatictics`, utils/distribution_helper.cc:42-66. -/
def updateGeneral (value : D) (d : Distribution D) : Res (Distribution D) :=
  if d.count = 0 then
    .ok { d with count := 1, maximum := value, minimum := value, mean := value, ssd := zero }
  else do
    let count1 ← addI64 d.count 1
    let newMean := div (add (mul (ofInt d.count) d.mean) value) (ofInt count1)
    .ok { d with
      ssd := add d.ssd (mul (sub value d.mean) (sub value newMean))
      count := count1
      minimum := stdMin value d.minimum
      maximum := stdMax value d.maximum
      mean := newMean }

/-- `set_bucket_counts(i, bucket_counts(i) + 1)`, distribution_helper.cc:145-146, 164-165, 178-179. -/
def bumpBucket (i : Int) (d : Distribution D) : Res (Distribution D) :=
  if i < 0 then .error .outOfBounds
  else match d.bucketCounts[i.toNat]? with
    | none => .error .outOfBounds
    | some c => do
      let c' ← addI64 c 1
      .ok { d with bucketCounts := d.bucketCounts.set i.toNat c' }

/-- `static_cast<int>`, distribution_helper.cc:139, 161. -/
def castInt (x : D) : Res Int :=
  match toInt32 x with
  | some i => .ok i
  | none => .error .badCast

/-- Index computed by `UpdateExponentialBucketCount`, utils/distribution_helper.cc:134-144. -/
def exponentialIndex (n : Int) (growth scale value : D) : Res Int :=
  if le scale value then do
    let q ← castInt (div (log2 (div value scale)) (log2 growth))
    let i ← addI32 1 q
    let last ← addI32 n 1
    .ok (if i > last then last else i)
  else .ok 0

/-- Index computed by `UpdateLinearBucketCount`, utils/distribution_helper.cc:149-162. -/
def linearIndex (n : Int) (width offset value : D) : Res Int :=
  let upper := add offset (mul (ofInt n) width)
  if lt value offset || isNaN value then .ok 0
  else if le upper value then addI32 n 1
  else do
    let q ← castInt (div (sub value offset) width)
    addI32 1 q

/-- `std::upper_bound` (distribution_helper.cc:176) on a random access range (libstdc++'s binary search): the position of the
first element greater than `value` if the range is sorted.  `len` bounds the search range
`[first, first + len)`. -/
def upperBound (bounds : List D) (value : D) (first len : Nat) : Nat :=
  if len = 0 then first
  else
    let half := len / 2
    match bounds[first + half]? with
    | none => first          -- not reached: first + half < bounds.length
    | some m =>
      if lt value m then upperBound bounds value first half
      else upperBound bounds value (first + half + 1) (len - half - 1)
termination_by len

/-- Index computed by `UpdateExplicitBucketCount`, utils/distribution_helper.cc:168-177. -/
def explicitIndex (bounds : List D) (value : D) : Res Int :=
  match bounds with
  | [] => .error .outOfBounds                         -- bounds.Get(0)
  | b0 :: _ => .ok (if le b0 value then (upperBound bounds value 0 bounds.length : Int) else 0)

/-- `InitExponential`, utils/distribution_helper.cc:184-208 (`Resize` keeps a prefix, pads with 0). -/
def resize (l : List Int) (n : Int) : List Int :=
  l.take n.toNat ++ List.replicate (n.toNat - l.length) 0

def initExponential (n : Int) (growth scale : D) (d : Distribution D) : Res (Status × Distribution D) :=
  if n ≤ 0 then .ok (.invalidArgument, d)
  else if le growth one then .ok (.invalidArgument, d)
  else if le scale zero then .ok (.invalidArgument, d)
  else do
    let size ← addI32 n 2
    .ok (.ok, { d with buckets := .exponential n growth scale, bucketCounts := resize d.bucketCounts size })

/-- `InitLinear`, utils/distribution_helper.cc:210-229. -/
def initLinear (n : Int) (width offset : D) (d : Distribution D) : Res (Status × Distribution D) :=
  if n ≤ 0 then .ok (.invalidArgument, d)
  else if le width zero then .ok (.invalidArgument, d)
  else do
    let size ← addI32 n 2
    .ok (.ok, { d with buckets := .linear n width offset, bucketCounts := resize d.bucketCounts size })

/-- `std::is_sorted`, distribution_helper.cc:233. -/
def isSorted : List D → Bool
  | a :: b :: t => !(lt b a) && isSorted (b :: t)
  | _ => true

/-- `std::adjacent_find(...) != end`, distribution_helper.cc:236. -/
def hasAdjacentEqual : List D → Bool
  | a :: b :: t => eq a b || hasAdjacentEqual (b :: t)
  | _ => false

/-- `InitExplicit`, utils/distribution_helper.cc:231-248.  `mutable_explicit_buckets()` keeps the
bounds of an already explicit layout, and the loop appends to them. -/
def initExplicit (bounds : List D) (d : Distribution D) : Res (Status × Distribution D) :=
  if !isSorted bounds then .ok (.invalidArgument, d)
  else if hasAdjacentEqual bounds then .ok (.invalidArgument, d)
  else
    let old := match d.buckets with
      | .explicit bs => bs
      | _ => []
    .ok (.ok, { d with buckets := .explicit (old ++ bounds),
                       bucketCounts := resize d.bucketCounts (bounds.length + 1) })

/-- Bucket index for a sample, by layout (the three `Update…BucketCount` functions, distribution_helper.cc:134-180). -/
def bucketIndex (b : BucketOption D) (value : D) : Res Int :=
  match b with
  | .exponential n g s => exponentialIndex n g s value
  | .linear n w o => linearIndex n w o value
  | .explicit bs => explicitIndex bs value
  | .unset => .error .outOfBounds

/-- `AddSample`, utils/distribution_helper.cc:250-270. -/
def addSample (value : D) (d : Distribution D) : Res (Status × Distribution D) :=
  match d.buckets with
  | .unset => .ok (.invalidArgument, d)
  | b => do
    let d1 ← updateGeneral value d
    let i ← bucketIndex b value
    let d2 ← bumpBucket i d1
    .ok (.ok, d2)

/-- `IsCloseEnough`, utils/distribution_helper.cc:68-71. -/
def isCloseEnough (x y : D) : Bool := le (abs (sub x y)) (mul epsilon (abs x))

/-- `BucketsApproximatelyEqual`, utils/distribution_helper.cc:76-132. -/
def bucketsApproxEqual (a b : BucketOption D) : Bool :=
  match a, b with
  | .linear n w o, .linear n' w' o' => n == n' && isCloseEnough w w' && isCloseEnough o o'
  | .exponential n g s, .exponential n' g' s' => n == n' && isCloseEnough g g' && isCloseEnough s s'
  | .explicit bs, .explicit bs' =>
    bs.length == bs'.length && (bs.zip bs').all fun p => isCloseEnough p.1 p.2
  | _, _ => false

/-- The bucket loop of `Merge`, utils/distribution_helper.cc:303-305. -/
def addCounts : List Int → List Int → Res (List Int)
  | [], _ => .ok []
  | t, [] => .ok t
  | t :: ts, f :: fs => do
    let c ← addI64 t f
    let r ← addCounts ts fs
    .ok (c :: r)

/-- `Merge(from, to)`, utils/distribution_helper.cc:272-307: status and new `*to`. -/
def merge («from» to : Distribution D) : Res (Status × Distribution D) :=
  if !bucketsApproxEqual «from».buckets to.buckets then .ok (.invalidArgument, to)
  else if «from».bucketCounts.length ≠ to.bucketCounts.length then .ok (.invalidArgument, to)
  else if «from».count ≤ 0 then .ok (.ok, to)
  else if to.count ≤ 0 then .ok (.ok, «from»)
  else do
    let count ← addI64 to.count «from».count
    let mean := div (add (mul (ofInt to.count) to.mean) (mul (ofInt «from».count) «from».mean)) (ofInt count)
    let ssd := add (add (add to.ssd «from».ssd)
        (mul (mul (ofInt to.count) (sub mean to.mean)) (sub mean to.mean)))
        (mul (mul (ofInt «from».count) (sub mean «from».mean)) (sub mean «from».mean))
    let counts ← addCounts to.bucketCounts «from».bucketCounts
    .ok (.ok, { to with
      count := count
      minimum := stdMin «from».minimum to.minimum
      maximum := stdMax «from».maximum to.maximum
      mean := mean
      ssd := ssd
      bucketCounts := counts })

/-- A default-constructed message, as passed to distribution_helper.h:34-52. -/
def empty : Distribution D := ⟨0, zero, zero, zero, zero, [], .unset⟩

/-- A sequence of `AddSample` calls (distribution_helper.cc:250-270), each of which must succeed. -/
def addSamples (d : Distribution D) (xs : List D) : Res (Distribution D) :=
  xs.foldlM (fun d x => do
    let r ← addSample x d
    .ok r.2) d

end Dist
end Verif
