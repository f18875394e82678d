import Verif.Model.Proto
/-
Model of `/repo/src/signature.cc` and `/repo/utils/md5.cc`.
-/
namespace Verif

/-! ### The MD5 wrapper (utils/md5.h, utils/md5.cc) -/

/-- `class MD5`: OpenSSL's context is represented by the bytes fed so far; `digest` is set once
finalized.  The compression function itself is the parameter `H` below. -/
structure MD5 where
  fed : Bytes
  digest : Option Bytes
  deriving DecidableEq

namespace MD5

/-- Constructor, utils/md5.cc:22. -/
def init : MD5 := ⟨[], none⟩

/-- `Update(const void*, size_t)`, utils/md5.cc:24-29 (asserts it is not finalized). -/
def update (m : MD5) (data : Bytes) : Res MD5 :=
  match m.digest with
  | none => .ok { m with fed := m.fed ++ data }
  | some _ => .error .assertFail

/-- `Digest()`, utils/md5.cc:31-37. -/
def finish (H : Bytes → Bytes) (m : MD5) : Bytes × MD5 :=
  match m.digest with
  | some d => (d, m)
  | none => (H m.fed, { m with digest := some (H m.fed) })

/-- A lower-case hex digit, as printed by md5.cc:44. -/
def hexDigit (n : Nat) : UInt8 := if n < 10 then (48 + n).toUInt8 else (87 + n).toUInt8

/-- `DebugString`, utils/md5.cc:39-48. -/
def debugString (digest : Bytes) : Res Bytes :=
  if digest.length = 16 then
    .ok (digest.flatMap fun b => [hexDigit (b.toNat / 16), hexDigit (b.toNat % 16)])
  else .error .assertFail

end MD5

/-! ### Ordered containers -/

/-- `std::string` comparison `<` (bytewise, unsigned), the order of the maps in signature.cc:38, 87, 119. -/
def bytesLt : Bytes → Bytes → Bool
  | [], [] => false
  | [], _ :: _ => true
  | _ :: _, [] => false
  | a :: as, b :: bs => if a < b then true else if b < a then false else bytesLt as bs

/-- `std::map::insert` (the range constructor in signature.cc:38): the map is a list in key order; an existing key keeps its value. -/
def stdMapInsert {α : Type} (k : Bytes) (v : α) : List (Bytes × α) → List (Bytes × α)
  | [] => [(k, v)]
  | (k', v') :: t =>
    if bytesLt k k' then (k, v) :: (k', v') :: t
    else if bytesLt k' k then (k', v') :: stdMapInsert k v t
    else (k', v') :: t

/-- `std::map::operator[](k) = v` (signature.cc:91-92): an existing key is overwritten. -/
def stdMapAssign {α : Type} (k : Bytes) (v : α) : List (Bytes × α) → List (Bytes × α)
  | [] => [(k, v)]
  | (k', v') :: t =>
    if bytesLt k k' then (k, v) :: (k', v') :: t
    else if bytesLt k' k then (k', v') :: stdMapAssign k v t
    else (k, v) :: t

/-- `std::set::insert`, signature.cc:121. -/
def stdSetInsert (k : Bytes) : List Bytes → List Bytes
  | [] => [k]
  | k' :: t =>
    if bytesLt k k' then k :: k' :: t
    else if bytesLt k' k then k' :: stdSetInsert k t
    else k' :: t

/-! ### Signatures.  Each `…Bytes` is the sequence of bytes fed to the hasher; the signature is
the hash `H` of it.  `kDelimiter` is one NUL byte (src/signature.cc:32-33). -/

def delim : Bytes := [0]

/-- `UpdateHashLabels`, src/signature.cc:36-48. -/
def labelsBytes (labels : Labels) : Bytes :=
  let ordered := labels.foldl (fun m kv => stdMapInsert kv.1 kv.2 m) []
  ordered.flatMap fun kv => delim ++ kv.1 ++ delim ++ kv.2

/-- Bytes hashed by `GenerateReportOperationSignature`, src/signature.cc:56-65. -/
def reportOperationBytes {D : Type} (op : Operation D) : Bytes :=
  op.consumerId ++ delim ++ op.operationName ++ labelsBytes op.labels

/-- Bytes hashed by `GenerateReportMetricValueSignature`, src/signature.cc:67-72. -/
def metricValueBytes {D : Type} (v : MetricValue D) : Bytes := labelsBytes v.labels

/-- The `metric_value_set_map` of src/signature.cc:87-93. -/
def checkMetricMap {D : Type} (sets : List (MetricValueSet D)) :
    List (Bytes × List (MetricValue D)) :=
  sets.foldl (fun m s => stdMapAssign s.name s.values m) []

/-- Bytes hashed by `GenerateCheckRequestSignature`, src/signature.cc:74-107. -/
def checkRequestBytes {D : Type} (r : CheckRequest D) : Bytes :=
  let op := r.op
  op.operationName ++ delim ++ op.consumerId ++ delim ++ labelsBytes op.labels ++
    ((checkMetricMap op.metricValueSets).flatMap fun s =>
      delim ++ s.1 ++ s.2.flatMap fun v => metricValueBytes v) ++ delim

/-- Bytes hashed by `GenerateAllocateQuotaRequestSignature`, src/signature.cc:109-129. -/
def allocateQuotaBytes {D : Type} (r : AllocateQuotaRequest D) : Bytes :=
  let op := r.op
  op.methodName ++ delim ++ op.consumerId ++
    ((op.quotaMetrics.foldl (fun m s => stdSetInsert s.name m) []).flatMap fun n => delim ++ n)

/-- The four signature functions, signature.cc:56-129, for an arbitrary hash `H` (MD5 in the code). -/
def reportOperationSig {D : Type} (H : Bytes → Bytes) (op : Operation D) : Bytes :=
  H (reportOperationBytes op)
def metricValueSig {D : Type} (H : Bytes → Bytes) (v : MetricValue D) : Bytes :=
  H (metricValueBytes v)
def checkRequestSig {D : Type} (H : Bytes → Bytes) (r : CheckRequest D) : Bytes :=
  H (checkRequestBytes r)
def allocateQuotaSig {D : Type} (H : Bytes → Bytes) (r : AllocateQuotaRequest D) : Bytes :=
  H (allocateQuotaBytes r)

end Verif
