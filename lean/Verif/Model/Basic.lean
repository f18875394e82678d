/-
Shared vocabulary of the model: outcomes, machine integers, byte strings, statuses.
-/
namespace Verif

/-- Ways in which a modelled call can fail to return normally.  None of these is a value the
C++ code returns: they are undefined behaviour, an aborted process, an escaping exception, a
thread that blocks on a mutex it already holds, or a call that has not returned within the
given number of steps. -/
inductive Fault where
  /-- signed integer overflow (undefined behaviour) -/
  | signedOverflow
  /-- access outside an array / repeated field (undefined behaviour) -/
  | outOfBounds
  /-- float to int conversion out of range (undefined behaviour) -/
  | badCast
  /-- a failed `assert` / `GOOGLE_DCHECK` -/
  | assertFail
  /-- dereference of a dead or end iterator / freed object -/
  | useAfterFree
  /-- linking a list node that is already linked (corrupts the ring) -/
  | listCorrupt
  /-- calling an empty `std::function` -/
  | badFunctionCall
  /-- locking a non-recursive mutex the thread already owns -/
  | deadlock
  /-- `std::future_error`: setting the value of a promise that has no shared state any more -/
  | futureError
  /-- not returned within the given number of steps -/
  | outOfFuel
  deriving DecidableEq, Repr

/-- Result of a modelled call; stands for no line of the code. -/
abbrev Res (α : Type) := Except Fault α

deriving instance DecidableEq for Except

/-- Byte strings (`std::string`, protobuf `string`/`bytes`), as in signature.h:31-58. -/
abbrev Bytes := List UInt8

/-- The status codes used by the library (`google/protobuf/stubs/status.h`, not in /repo; used
through `StatusCode`, e.g. money_utils.cc:20-22). Messages are not modelled. -/
inductive Status where
  | ok | cancelled | unknown | invalidArgument | deadlineExceeded | notFound | alreadyExists
  | permissionDenied | resourceExhausted | failedPrecondition | aborted | outOfRange
  | unimplemented | internal | unavailable | dataLoss | unauthenticated
  deriving DecidableEq, Repr

/-- `INT64_MIN`, `INT64_MAX`, `INT32_MIN`, `INT32_MAX` (money_utils.cc:97-121,
service_control_client_impl.cc:398). -/
abbrev int64Min : Int := -9223372036854775808
abbrev int64Max : Int := 9223372036854775807
abbrev int32Min : Int := -2147483648
abbrev int32Max : Int := 2147483647

/-- Values an `int64_t` (`int32_t`) can hold. -/
abbrev InI64 (x : Int) : Prop := int64Min ≤ x ∧ x ≤ int64Max
abbrev InI32 (x : Int) : Prop := int32Min ≤ x ∧ x ≤ int32Max


/-- `int64_t` addition, as in distribution_helper.cc:304 and operation_aggregator.cc:89: overflow is undefined
behaviour. -/
def addI64 (a b : Int) : Res Int := if InI64 (a + b) then .ok (a + b) else .error .signedOverflow
/-- `int32_t` addition, as in money_utils.cc:72: overflow is undefined behaviour. -/
def addI32 (a b : Int) : Res Int := if InI32 (a + b) then .ok (a + b) else .error .signedOverflow

/-- Reduction to `[-2^63, 2^63)` / `[-2^31, 2^31)`: what a two's complement machine computes. -/
def wrap64 (x : Int) : Int := (x + 9223372036854775808) % 18446744073709551616 - 9223372036854775808
def wrap32 (x : Int) : Int := (x + 2147483648) % 4294967296 - 2147483648

/-- Two readings of signed addition: `strict` (overflow is undefined behaviour, what the C++
standard says) and `wrapping` (what `-fwrapv` or an unlucky optimiser-free build computes). -/
structure SignedAdd where
  i32 : Int → Int → Res Int
  i64 : Int → Int → Res Int

def SignedAdd.strict : SignedAdd := ⟨addI32, addI64⟩
def SignedAdd.wrapping : SignedAdd := ⟨fun a b => .ok (wrap32 (a + b)), fun a b => .ok (wrap64 (a + b))⟩

end Verif
