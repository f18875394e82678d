import Verif.Model.Basic
/-
What the sample transport is meant to do.
-/
namespace Verif.Http

/-- The HTTP codes with a status of their own, from the cases of `ConvertHttpCodeToStatus`. -/
def specific : List (Int × Status) :=
  [(400, .invalidArgument), (401, .unauthenticated), (403, .permissionDenied), (404, .notFound), (409, .aborted),
   (416, .outOfRange), (429, .resourceExhausted), (499, .cancelled), (501, .unimplemented), (503, .unavailable),
   (504, .deadlineExceeded)]

/-- The status for any other code. -/
def general (code : Int) : Status :=
  if code / 100 = 2 then .ok else if code / 100 = 4 then .failedPrecondition else if code / 100 = 5 then .internal else .unknown

/-- The status meant for a code. -/
def meant (code : Int) : Status := (specific.lookup code).getD (general code)

end Verif.Http
