import Verif.Model.Concurrency
/-
What it means for calls made by many threads to behave like calls made one at a time.
-/
namespace Verif.Conc
variable {σ C O R L : Type}

/-- The items removed so far and those of one more step. -/
def addTo (P : Prog σ C O R L) (b : List R) : Option R → List R
  | some r => bufferAdd P.merge b r
  | none => b

/-- Some steps of the code of one call, with nothing else going on: from `l` with state `s` and
removed items `b` to `l'`, `s'`, `b'`. -/
inductive Runs (P : Prog σ C O R L) : L → σ → List R → L → σ → List R → Prop
  | refl (l s b) : Runs P l s b l s b
  | step {l s b l' s' b' l'' s'' emit} : Runs P l s b l' s' b' → P.exec l' s' = .next l'' s'' emit →
      Runs P l s b l'' s'' (addTo P b' emit)

/-- Call `c` made in state `s` with nothing else going on returns `o`, removes `items` and leaves
the state `s'`. -/
inductive Alone (P : Prog σ C O R L) (c : C) (s : σ) : O → List R → σ → Prop
  | early {o} : P.early c = some o → Alone P c s o [] s
  | run {l s' items o} : P.early c = none → Runs P (P.start c) s [] l s' items → P.exec l s' = .done o →
      Alone P c s o items s'

/-- A completed call: its number, what was called, the result and the items it removed. -/
structure Entry (C O R : Type) where
  id : Nat
  call : C
  out : O
  items : List R

/-- Calls made one after the other, starting in state `s₀` and ending in state `s`. -/
inductive Serial (P : Prog σ C O R L) (s₀ : σ) : List (Entry C O R) → σ → Prop
  | nil : Serial P s₀ [] s₀
  | snoc {log s e s'} : Serial P s₀ log s → Alone P e.call s e.out e.items s' → Serial P s₀ (log ++ [e]) s'

/-- The items call `i` handed to `FlushOut`, in order. -/
def flushed (i : Nat) (tr : List (Ev C O R)) : List R :=
  tr.filterMap fun | .flush j r _ => if j = i then some r else none | _ => none

/-- The items call `i` passed to the flush callback, in order. -/
def delivered (i : Nat) (tr : List (Ev C O R)) : List R :=
  tr.filterMap fun | .flush j r true => if j = i then some r else none | _ => none

/-- The calls in the order in which they acquired the cache lock. -/
def entered (tr : List (Ev C O R)) : List Nat :=
  tr.filterMap fun | .enter i => some i | _ => none

/-- The numbers of the calls made, in order. -/
def invoked (tr : List (Ev C O R)) : List Nat :=
  tr.filterMap fun | .inv i _ _ => some i | _ => none

/-- Call `i` had returned when call `j` was made. -/
def Before (tr : List (Ev C O R)) (i j : Nat) : Prop :=
  ∃ pre post u c o, tr = pre ++ Ev.inv j u c :: post ∧ Ev.ret i o ∈ pre

/-- The numbers of these calls. -/
def ids (log : List (Entry C O R)) : List Nat := log.map (·.id)

/-- Those of the calls that need the cache lock. -/
def locking (P : Prog σ C O R L) (log : List (Entry C O R)) : List (Entry C O R) :=
  log.filter fun e => (P.early e.call).isNone

/-- The numbers of the calls that returned, in order. -/
def returned (tr : List (Ev C O R)) : List Nat :=
  tr.filterMap fun | .ret i _ => some i | _ => none

/-- What the threads have seen is explained by making the calls `log` one after the other, which
ends in state `s`. -/
structure Linear (P : Prog σ C O R L) (s₀ : σ) (g : State σ C O R L) (log : List (Entry C O R)) (s : σ) : Prop where
  serial : Serial P s₀ log s
  /-- each call is explained once -/
  once : (ids log).Nodup
  /-- by the call that was made -/
  made : ∀ e ∈ log, ∃ t, Ev.inv e.id t e.call ∈ g.trace
  /-- in the order in which the calls acquired the cache lock; one of them may still have it -/
  locked : entered g.trace = ids (locking P log) ∨ g.cacheLock ≠ none ∧ ∃ i, entered g.trace = ids (locking P log) ++ [i]
  /-- which respects the order of calls that did not overlap -/
  order : log.Pairwise fun e e' => ¬ Before g.trace e'.id e.id
  /-- a call that returned gave the result and flushed the items it gives and flushes when made alone -/
  results : ∀ i o, Ev.ret i o ∈ g.trace → ∃ e ∈ log, e.id = i ∧ e.out = o ∧ flushed i g.trace = e.items
  /-- and a call still flushing has flushed some of them -/
  partly : ∀ i, flushed i g.trace ≠ [] → ∃ e ∈ log, e.id = i ∧ flushed i g.trace <+: e.items
  /-- the cache is as if the calls had been made one after the other -/
  state : g.cacheLock = none → g.st = s

/-- The thread is between taking and releasing the cache lock. -/
def Pc.Crit : Pc L O → Prop
  | .locked | .inside _ | .leaving _ | .unlocking _ => True
  | _ => False

/-- The thread is between taking and releasing the callback lock. -/
def Pc.Cb : Pc L O → Prop
  | .calling _ _ | .called _ _ => True
  | _ => False

end Verif.Conc
