import Verif.Model.Proto
/-
The sample transport, `/repo/sample/transport/http_transport.cc` and `http_transport.h`.

libcurl is a parameter: what the server sees of a request, and how the transfer ends, is all that is
modelled of it.  Serialization and parsing of messages are parameters.  `Check` and `Report` run on
a detached thread; the model is the body of that thread, whose last action is the one call of
`on_done`.  Messages in statuses and the output on `std::cout` are not modelled.
-/
namespace Verif.Http

/-- One `case` of a `switch` (http_transport.cc:40-77): its label, the status assigned, and whether a `break` follows. -/
structure Case where
  label : Int
  status : Status
  breaks : Bool

/-- The cases of `ConvertHttpCodeToStatus`, http_transport.cc:40-65, in order. -/
def cases : List Case :=
  [⟨400, .invalidArgument, false⟩, ⟨403, .permissionDenied, false⟩, ⟨404, .notFound, false⟩, ⟨409, .aborted, false⟩,
   ⟨416, .outOfRange, false⟩, ⟨429, .resourceExhausted, false⟩, ⟨499, .cancelled, false⟩, ⟨504, .deadlineExceeded, false⟩,
   ⟨501, .unimplemented, false⟩, ⟨503, .unavailable, false⟩, ⟨401, .unauthenticated, false⟩]

/-- The `default` case, http_transport.cc:66-77; `status` is the value so far. -/
def defaultCase (code : Int) (_status : Status) : Status :=
  if 200 ≤ code ∧ code < 300 then .ok
  else if 400 ≤ code ∧ code < 500 then .failedPrecondition
  else if 500 ≤ code ∧ code < 600 then .internal
  else .unknown

/-- Execute the statements of a `switch` (http_transport.cc:40-77) from a case on: fall through until a `break`. -/
def fallThrough (code : Int) : List Case → Status → Status
  | [], s => defaultCase code s
  | c :: cs, _ => if c.breaks then c.status else fallThrough code cs c.status

/-- `ConvertHttpCodeToStatus`, http_transport.cc:37-80; `Status status;` is OK. -/
def convert (code : Int) : Status :=
  fallThrough code (cases.dropWhile fun c => c.label != code) .ok

/-- What libcurl reads of a `const char*` from `std::string::data()` or `c_str()` when it is given no
length: the bytes before the first zero. -/
def cString (b : Bytes) : Bytes := b.takeWhile (· != 0)

/-- How `curl_easy_perform` ends: whether with `CURLE_OK`, the code `CURLINFO_RESPONSE_CODE` gives, and
the bytes passed to `ResultBodyCallback` (http_transport.cc:82-90). -/
structure Transfer where
  ok : Bool
  code : Int
  body : Bytes

/-- A request on the wire, as set up in http_transport.cc:98-118. -/
structure Sent where
  url : Bytes
  auth : Bytes
  body : Bytes
  deriving DecidableEq

/-- `SendHttp`, http_transport.cc:92-131: the request made, the returned status and `*response_body`.
Line http_transport.cc:126 declares a new variable, so the converted code is dropped. -/
def sendHttp (net : Sent → Transfer) (url auth requestBody : Bytes) : Sent × Status × Bytes :=
  let sent : Sent := ⟨cString url, cString auth, cString requestBody⟩
  let t := net sent
  let status := Status.ok
  if t.ok then (sent, status, t.body)
  else
    let _status := convert t.code
    (sent, status, t.body)

/-- The strings of a `LibCurlTransport`, http_transport.h:61-63. -/
structure Transport where
  checkUrl : Bytes
  reportUrl : Bytes
  auth : Bytes

/-- The bytes of a string. -/
def bytes (s : String) : Bytes := s.toUTF8.toList

/-- The constructor, http_transport.h:40-48. -/
def Transport.new (serverUrl serviceName token : Bytes) : Transport where
  checkUrl := serverUrl ++ bytes "/v1/services/" ++ serviceName ++ bytes ":check"
  reportUrl := serverUrl ++ bytes "/v1/services/" ++ serviceName ++ bytes ":report"
  auth := bytes "Authorization: Bearer " ++ token

/-- The body of the threads started by `Check` and `Report`, http_transport.cc:142-158 and 169-184:
the request made, the status given to `on_done`, and the response object.  `parse` is
`ParseFromString`: whether it succeeds, and what the response is afterwards. -/
def exchange {Req Resp : Type} (net : Sent → Transfer) (serialize : Req → Bytes) (parse : Bytes → Resp → Bool × Resp)
    (url auth : Bytes) (request : Req) (response : Resp) : Sent × Status × Resp :=
  let (sent, status, body) := sendHttp net url auth (serialize request)
  if status = .ok then
    let (good, response) := parse body response
    if good then (sent, status, response) else (sent, .invalidArgument, response)
  else (sent, status, response)

/-- `Check`, http_transport.cc:135-160. -/
def Transport.check {Req Resp : Type} (t : Transport) (net : Sent → Transfer) (serialize : Req → Bytes)
    (parse : Bytes → Resp → Bool × Resp) (request : Req) (response : Resp) : Sent × Status × Resp :=
  exchange net serialize parse t.checkUrl t.auth request response

/-- `Report`, http_transport.cc:162-186. -/
def Transport.report {Req Resp : Type} (t : Transport) (net : Sent → Transfer) (serialize : Req → Bytes)
    (parse : Bytes → Resp → Bool × Resp) (request : Req) (response : Resp) : Sent × Status × Resp :=
  exchange net serialize parse t.reportUrl t.auth request response

end Verif.Http
