import Verif.Model.Threads
/-
Which transport carries a request when calls bring transports of their own (the example 2.3 of service_control_client.h:240-258).
-/
namespace Verif.Threads
open Client
variable {D : Type} [DoubleOps D]

/-- The states of a client under every schedule, with the transport argument of every call so far, by number of the call: the overloads with a
transport (service_control_client_impl.cc:191, 252, 330), those with a done callback alone (service_control_client_impl.cc:226, 302, 350) and those
that wait (service_control_client_impl.cc:232, 309, 356), which use the default one. -/
inductive Given (K : Setup) (stops : Bool) : Sys D → List Transport → Prop
  | new {c} : Client.new K = .ok c → Given K stops (Sys.new c) []
  | call {s ts l1 t l2} (c : Call D) (tr : Transport) : Given K stops s ts → s.threads = l1 ++ t :: l2 → Free t → s.dying = false →
      Given K stops { s with
        c := { s.c.log (.called s.c.calls c (present K c tr)) with calls := s.c.calls + 1 }
        threads := l1 ++ (.start s.c.calls c (present K c tr) :: t) :: l2 } (ts ++ [tr])
  | sync {s ts l1 t l2} (c : Call D) : Given K stops s ts → s.threads = l1 ++ t :: l2 → Free t → s.dying = false →
      Given K stops { s with
        c := { s.c.log (.called s.c.calls c (present K c .default)) with calls := s.c.calls + 1 }
        syncs := s.syncs ++ [s.c.calls]
        frames := s.frames ++ [(s.c.calls, true)]
        threads := l1 ++ (.start s.c.calls c (present K c .default) :: .wait s.c.calls :: t) :: l2 } (ts ++ [.default])
  | other {s s' ts} : Given K stops s ts → Step K stops s s' → s'.c.calls = s.c.calls → Given K stops s' ts

/-- A transport: that of the options of the client, or the one given with a call. -/
inductive Carrier where
  | default
  | own (i : Nat)
  deriving DecidableEq, Repr

/-- The transport a request is given to: flush callbacks use the one of the options (service_control_client_impl.cc:141, 165, 179), calls the argument
(service_control_client_impl.cc:207, 270, 342), which is the one of the options if none was given (service_control_client_impl.cc:229, 305, 353). -/
def carrier (ts : List Transport) : Ev D → Option Carrier
  | .sent _ none _ => some .default
  | .sent _ (some i) _ =>
    match ts[i]? with
    | some (.given _) => some (.own i)
    | _ => some .default
  | _ => none

end Verif.Threads
