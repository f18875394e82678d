import Verif.Model.HttpSample
import Verif.Spec.HttpSample
import Verif.Props.Client
/-
C61, C79: the sample transport.
-/
namespace Verif.Http

/-- Without a `break` every code ends in the default case. -/
theorem fallThrough_default (code : Int) : ∀ (cs : List Case) (s : Status), (∀ c ∈ cs, c.breaks = false) →
    fallThrough code cs s = defaultCase code s
  | [], _, _ => rfl
  | c :: cs, s, h => by
    rw [fallThrough, h c List.mem_cons_self]
    simp only [Bool.false_eq_true, if_false]
    rw [fallThrough_default code cs _ fun x hx => h x (List.mem_cons_of_mem _ hx)]
    rfl

theorem convert_general (code : Int) : convert code = general code := by
  have h : convert code = defaultCase code .ok := by
    refine fallThrough_default code _ _ fun c hc => ?_
    have : c ∈ cases := (List.dropWhile_sublist _).subset hc
    revert c
    intro c _ hc
    fin_cases hc <;> rfl
  rw [h, defaultCase, general]
  have e2 : (200 ≤ code ∧ code < 300) ↔ code / 100 = 2 := by omega
  have e4 : (400 ≤ code ∧ code < 500) ↔ code / 100 = 4 := by omega
  have e5 : (500 ≤ code ∧ code < 600) ↔ code / 100 = 5 := by omega
  simp only [e2, e4, e5]

/-- C61 is false: no code with a status of its own is converted to it. -/
theorem C61_false_codes : ∀ x ∈ specific, convert x.1 ≠ x.2 := by
  intro x hx
  rw [convert_general]
  revert x
  decide

/-- C61, the part that holds: codes are converted to the status meant except for the specific ones,
which get the general status of their class; no code is taken for a success that is not one. -/
theorem C61_convert_partial (code : Int) :
    (specific.lookup code = none → convert code = meant code) ∧
    (specific.lookup code ≠ none → convert code = .failedPrecondition ∨ convert code = .internal) ∧
    (convert code = .ok ↔ meant code = .ok) := by
  rw [convert_general]
  have hlook : ∀ s, specific.lookup code = some s → (code, s) ∈ specific := by
    intro s h
    generalize specific = l at h ⊢
    induction l with
    | nil => cases h
    | cons x l ih =>
      rw [List.lookup] at h
      split at h
      · rename_i e
        rw [beq_iff_eq] at e
        cases h; rw [e]; exact List.mem_cons_self
      · exact List.mem_cons_of_mem _ (ih h)
  have hspec : ∀ x ∈ specific, (general x.1 = .failedPrecondition ∨ general x.1 = .internal) ∧ x.2 ≠ .ok := by decide
  cases hl : specific.lookup code with
  | none => exact ⟨fun _ => by rw [meant, hl]; rfl, fun h => absurd rfl h, by rw [meant, hl]; rfl⟩
  | some s =>
    have hs := hspec _ (hlook s hl)
    refine ⟨fun h => (by cases h), fun _ => hs.1, ?_⟩
    rw [meant, hl]
    simp only [Option.getD_some]
    refine ⟨fun h => ?_, fun h => absurd h hs.2⟩
    rcases hs.1 with h' | h' <;> (simp only at h'; rw [h] at h'; cases h')

/-- C61 is false: whatever happens to the transfer, `SendHttp` reports success. -/
theorem C61_false_transfer (net : Sent → Transfer) (url auth body : Bytes) : (sendHttp net url auth body).2.1 = .ok := by
  rw [sendHttp]
  dsimp only
  split <;> rfl

/-- C61, what the callers are told: OK if the bytes received parse, whether or not the transfer
failed, and INVALID_ARGUMENT otherwise. -/
theorem C61_status_partial {Req Resp : Type} (t : Transport) (net : Sent → Transfer) (serialize : Req → Bytes)
    (parse : Bytes → Resp → Bool × Resp) (request : Req) (response : Resp) :
    ∃ sent, (t.check net serialize parse request response =
      (sent, if (parse (net sent).body response).1 then .ok else .invalidArgument, (parse (net sent).body response).2)) ∧
    ∃ sent', t.report net serialize parse request response =
      (sent', if (parse (net sent').body response).1 then .ok else .invalidArgument, (parse (net sent').body response).2) := by
  have key : ∀ url, exchange net serialize parse url t.auth request response =
      (⟨cString url, cString t.auth, cString (serialize request)⟩,
        if (parse (net ⟨cString url, cString t.auth, cString (serialize request)⟩).body response).1 then .ok else .invalidArgument,
        (parse (net ⟨cString url, cString t.auth, cString (serialize request)⟩).body response).2) := by
    intro url
    rw [exchange]
    have h1 := C61_false_transfer net url t.auth (serialize request)
    have h2 : sendHttp net url t.auth (serialize request) = (⟨cString url, cString t.auth, cString (serialize request)⟩, .ok,
        (net ⟨cString url, cString t.auth, cString (serialize request)⟩).body) := by
      rw [sendHttp]; dsimp only; split <;> rfl
    rw [h2]
    dsimp only
    rw [if_pos rfl]
    split <;> rfl
  exact ⟨_, key _, _, key _⟩

/-- C61 is false: a check refused by the server, or not sent at all, is reported as passed.  With
`CURLOPT_FAILONERROR` (http_transport.cc:118) libcurl delivers no body for such a transfer, and an
empty string parses to the default message. -/
theorem C61_false_check {Req : Type} (t : Transport) (net : Sent → Transfer) (serialize : Req → Bytes)
    (parse : Bytes → CheckResponse → Bool × CheckResponse) (hparse : ∀ p, parse [] p = (true, ⟨[], []⟩))
    (hfail : ∀ s, (net s).ok = false → (net s).body = []) (hnet : ∀ s, (net s).ok = false) (request : Req) (p : CheckResponse) :
    ∃ sent, t.check net serialize parse request p = (sent, .ok, ⟨[], []⟩) := by
  obtain ⟨sent, h, _⟩ := C61_status_partial t net serialize parse request p
  refine ⟨sent, ?_⟩
  rw [h, hfail sent (hnet sent), hparse]
  rfl

/-- Such a network and parser. -/
example : ∃ (net : Sent → Transfer) (parse : Bytes → CheckResponse → Bool × CheckResponse), (∀ p, parse [] p = (true, ⟨[], []⟩)) ∧
    (∀ s, (net s).ok = false → (net s).body = []) ∧ ∀ s, (net s).ok = false ∧ (net s).code = 403 :=
  ⟨fun _ => ⟨false, 403, []⟩, fun b _ => (b.isEmpty, ⟨[], []⟩), fun _ => rfl, fun _ _ => rfl, fun _ => ⟨rfl, rfl⟩⟩

/-- What the sample transport tells the client about such a check. -/
def exRefused : Client.Answer := ⟨.ok, ⟨[], []⟩, Quota.exNo⟩

/-- The consequence: with the sample transport and a server that refuses every request (403), the
first check is let through, and the next one is let through from the cache. -/
theorem C61_false_cached : ∃ s : Client.Client Int, Client.Reach Client.exK s ∧
    (∃ net serialize parse sent, (∀ x, (net x).code = 403 ∧ (net x).ok = false ∧ (net x).body = []) ∧
      (Transport.new (bytes "https://s") (bytes "n") (bytes "t")).check (Req := CheckRequest Int) (Resp := CheckResponse) net
        serialize parse (Check.exReq 1 5) ⟨[], []⟩ = (sent, exRefused.status, exRefused.check)) ∧
    s.trace = [.called 0 (Client.exCheck 1 5) true, .sent 0 (some 0) (Client.exCheck 1 5),
      .completed 0 (some 0) (Client.exCheck 1 5) exRefused, .done 0 (Client.exCheck 1 5) .ok (.check ⟨[], []⟩) (some 0),
      .called 1 (Client.exCheck 1 5) true, .done 1 (Client.exCheck 1 5) .ok (.check ⟨[], []⟩) none] := by
  obtain ⟨s, r, h⟩ := Client.run_case (K := Client.exK)
    [.call (Client.exCheck 1 5) .default, .complete 0 exRefused, .call (Client.exCheck 1 5) .default]
    (fun s => s.trace = [.called 0 (Client.exCheck 1 5) true, .sent 0 (some 0) (Client.exCheck 1 5),
      .completed 0 (some 0) (Client.exCheck 1 5) exRefused, .done 0 (Client.exCheck 1 5) .ok (.check ⟨[], []⟩) (some 0),
      .called 1 (Client.exCheck 1 5) true, .done 1 (Client.exCheck 1 5) .ok (.check ⟨[], []⟩) none]) (by decide +kernel)
  refine ⟨s, r, ?_, h⟩
  obtain ⟨sent, hs⟩ := C61_false_check (Transport.new (bytes "https://s") (bytes "n") (bytes "t")) (fun _ => ⟨false, 403, []⟩)
    (fun _ : CheckRequest Int => []) (fun b _ => (b.isEmpty, ⟨[], []⟩)) (fun _ => rfl) (fun _ _ => rfl) (fun _ => rfl)
    (Check.exReq 1 5) ⟨[], []⟩
  exact ⟨_, _, _, sent, fun _ => ⟨rfl, rfl, rfl⟩, hs⟩

/-! ### C79: what the server gets -/

theorem cString_iff (b : Bytes) : cString b = b ↔ (0 : UInt8) ∉ b := by
  rw [cString]
  induction b with
  | nil => simp
  | cons x b ih =>
    rw [List.takeWhile_cons]
    by_cases hx : x = 0
    · simp [hx]
    · rw [if_pos (by simpa using hx)]
      simp [ih, Ne.symm hx]

theorem cString_eq {b : Bytes} (h : (0 : UInt8) ∉ b) : cString b = b := (cString_iff b).2 h

/-- C79, the part that holds: a serialized request, URL and token without a zero byte arrive whole. -/
theorem C79_sent_partial {Req Resp : Type} (serverUrl serviceName token : Bytes) (net : Sent → Transfer) (serialize : Req → Bytes)
    (parse : Bytes → Resp → Bool × Resp) (request : Req) (response : Resp)
    (h : (0 : UInt8) ∉ serverUrl ++ serviceName ++ token ++ serialize request) :
    ((Transport.new serverUrl serviceName token).check net serialize parse request response).1 =
      ⟨serverUrl ++ bytes "/v1/services/" ++ serviceName ++ bytes ":check", bytes "Authorization: Bearer " ++ token, serialize request⟩ ∧
    ((Transport.new serverUrl serviceName token).report net serialize parse request response).1 =
      ⟨serverUrl ++ bytes "/v1/services/" ++ serviceName ++ bytes ":report", bytes "Authorization: Bearer " ++ token, serialize request⟩ := by
  simp only [List.mem_append, not_or] at h
  obtain ⟨⟨⟨h1, h2⟩, h3⟩, h4⟩ := h
  have b1 : (0 : UInt8) ∉ bytes "/v1/services/" := by decide +kernel
  have b2 : (0 : UInt8) ∉ bytes ":check" := by decide +kernel
  have b3 : (0 : UInt8) ∉ bytes ":report" := by decide +kernel
  have b4 : (0 : UInt8) ∉ bytes "Authorization: Bearer " := by decide +kernel
  have key : ∀ url auth, (exchange net serialize parse url auth request response).1 =
      ⟨cString url, cString auth, cString (serialize request)⟩ := by
    intro url auth
    rw [exchange]
    have : sendHttp net url auth (serialize request) = (⟨cString url, cString auth, cString (serialize request)⟩, .ok,
        (net ⟨cString url, cString auth, cString (serialize request)⟩).body) := by
      rw [sendHttp]; dsimp only; split <;> rfl
    rw [this]
    dsimp only
    rw [if_pos rfl]
    split <;> rfl
  constructor
  · rw [Transport.check, key, cString_eq h4, cString_eq (by simp [Transport.new, *]), cString_eq (by simp [Transport.new, *])]
    rfl
  · rw [Transport.report, key, cString_eq h4, cString_eq (by simp [Transport.new, *]), cString_eq (by simp [Transport.new, *])]
    rfl

/-- C79 is false: a serialized request with a zero byte, such as one with an integer metric value 0 or
a double value, never arrives whole. -/
theorem C79_false_truncated {Req Resp : Type} (t : Transport) (net : Sent → Transfer) (serialize : Req → Bytes)
    (parse : Bytes → Resp → Bool × Resp) (request : Req) (response : Resp) (h : (0 : UInt8) ∈ serialize request) :
    (t.check net serialize parse request response).1.body.length < (serialize request).length ∧
    (t.report net serialize parse request response).1.body.length < (serialize request).length := by
  have key : ∀ url auth, (exchange net serialize parse url auth request response).1 =
      ⟨cString url, cString auth, cString (serialize request)⟩ := by
    intro url auth
    rw [exchange]
    have : sendHttp net url auth (serialize request) = (⟨cString url, cString auth, cString (serialize request)⟩, .ok,
        (net ⟨cString url, cString auth, cString (serialize request)⟩).body) := by
      rw [sendHttp]; dsimp only; split <;> rfl
    rw [this]
    dsimp only
    rw [if_pos rfl]
    split <;> rfl
  have hlt : (cString (serialize request)).length < (serialize request).length := by
    rcases Nat.lt_or_ge (cString (serialize request)).length (serialize request).length with hl | hl
    · exact hl
    · exfalso
      have hp : cString (serialize request) = serialize request := (List.takeWhile_prefix _).eq_of_length_le hl
      exact (cString_iff _).1 hp h
  rw [Transport.check, Transport.report, key, key]
  exact ⟨hlt, hlt⟩

/-- Two such requests. -/
example : (0 : UInt8) ∉ bytes "https://s" ++ bytes "n" ++ bytes "t" ++ [10, 1, 115] ∧ (0 : UInt8) ∈ ([10, 2, 24, 0] : Bytes) := by
  decide +kernel

end Verif.Http
