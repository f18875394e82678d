import Verif.Model.RemovedItems
/-
Threads calling one aggregator.  The locking pattern of the public methods of the three aggregators
(`/repo/src/cache_removed_items_handler.h`, used at `/repo/src/check_aggregator_impl.cc:107-110`,
`179-182`, `215-218`, `241-244`, `/repo/src/report_aggregator_impl.cc:94-97`, `159-162`, `172-175`
and `/repo/src/quota_aggregator_impl.cc:126-129`, `194-197`, `230-233`, `245-248`) at the
granularity of single lock operations, single accesses of `stack_buffer_` and single steps of the
code between them.

Sequentially consistent interleaving of the steps of all threads; `std::mutex` is not recursive, so
that a thread which waits for a mutex it holds waits for ever.  The code that runs under
`cache_mutex_` is any deterministic program (`Prog`), given by its single steps.
-/
namespace Verif.Conc

/-- What one step of the code under the cache lock does (e.g. report_aggregator_impl.cc:99-121). -/
inductive Move (σ L O R : Type) where
  /-- go on at `l`; the protected state becomes `s`; `emit` is passed to `AddRemovedItem` -/
  | next (l : L) (s : σ) (emit : Option R)
  /-- return `o` -/
  | done (o : O)
  /-- undefined behaviour -/
  | fault

/-- The part of an aggregator's methods that differs from method to method, around and inside the pattern of
cache_removed_items_handler.h:41-48. -/
structure Prog (σ C O R L : Type) where
  /-- The result of a call that returns before taking the lock (a wrong service name, no cache, …);
  it depends on fields that never change after construction. -/
  early : C → Option O
  /-- The start of the code that runs under the lock. -/
  start : C → L
  exec : L → σ → Move σ L O R
  /-- `MergeItem`; `merge item old`. -/
  merge : R → R → Option R
  /-- What the flush callback does with an item: the calls of the same aggregator it makes. -/
  react : R → Option C

/-- Where a thread is in a method (cache_removed_items_handler.h:41-48, 87-91, 104-109, 132-137). -/
inductive Pc (L O : Type) where
  /-- before the checks and the `MutexLock` constructor -/
  | begin
  /-- `cache_mutex_` taken, the `Swapper` not yet constructed -/
  | locked
  /-- between the constructor and the destructor of the `Swapper` -/
  | inside (l : L)
  /-- the result is known, the destructor of the `Swapper` is next -/
  | leaving (o : O)
  /-- `stack_buffer_` is reset, the destructor of the `MutexLock` is next -/
  | unlocking (o : O)
  /-- in `~StackBuffer`, before the item at position `k` -/
  | flushing (o : O) (k : Nat)
  /-- in `FlushOut` for the item at position `k`, `callback_mutex_` taken -/
  | calling (o : O) (k : Nat)
  /-- in `FlushOut`; the callback was called, or not if there is none -/
  | called (o : O) (k : Nat)

/-- A method in progress (one stack frame of e.g. check_aggregator_impl.cc:90): the number of the call, its arguments and the place. -/
structure Frame (C L O : Type) where
  id : Nat
  call : C
  pc : Pc L O

/-- What can be observed of an execution: calls of aggregator_interface.h:34-182 and of the flush callback
(cache_removed_items_handler.h:135). -/
inductive Ev (C O R : Type) where
  /-- call number `id` is made by thread `t` -/
  | inv (id t : Nat) (c : C)
  /-- it acquires the cache lock -/
  | enter (id : Nat)
  /-- it hands an item to `FlushOut`; `b` tells whether a callback was set and called -/
  | flush (id : Nat) (r : R) (b : Bool)
  | ret (id : Nat) (o : O)
  /-- `SetFlushCallback` with a callback or with null -/
  | setCallback (b : Bool)

/-- The state of an aggregator (cache_removed_items_handler.h:118-130 and `cache_mutex_`,
quota_aggregator_impl.h:195-198) and the threads. -/
structure State (σ C O R L : Type) where
  /-- what `cache_mutex_` protects -/
  st : σ
  /-- the thread holding `cache_mutex_` -/
  cacheLock : Option Nat
  /-- the thread holding `callback_mutex_` -/
  cbLock : Option Nat
  /-- `stack_buffer_` (cache_removed_items_handler.h:130): the call whose buffer it points to -/
  buf : Option Nat
  /-- `flush_callback_` is set -/
  callback : Bool
  /-- `items_` of the stack buffer of each call (cache_removed_items_handler.h:118) -/
  items : Nat → List R
  /-- the methods a thread is executing, innermost first -/
  threads : Nat → List (Frame C L O)
  /-- number of calls so far -/
  calls : Nat
  trace : List (Ev C O R)

variable {σ C O R L : Type}

/-- Replace the value at `i`; stands for no line of the code. -/
def upd {α : Type} (f : Nat → α) (i : Nat) (a : α) : Nat → α := fun j => if j = i then a else f j

/-- An aggregator in state `s` that nobody has called yet (cache_removed_items_handler.h:52). -/
def State.new (s : σ) : State σ C O R L :=
  ⟨s, none, none, none, false, fun _ => [], fun _ => [], 0, []⟩

/-- `AddRemovedItem`, cache_removed_items_handler.h:66-70: to the buffer `stack_buffer_` points to, wherever that is. -/
def addRemoved (P : Prog σ C O R L) (g : State σ C O R L) (emit : Option R) : Nat → List R :=
  match emit, g.buf with
  | some r, some i => upd g.items i (bufferAdd P.merge (g.items i) r)
  | _, _ => g.items

/-- Thread `t` moves its innermost method on; stands for no line of the code. -/
def State.goto (g : State σ C O R L) (t : Nat) (f : Frame C L O) (fs : List (Frame C L O)) (pc : Pc L O) :
    State σ C O R L :=
  { g with threads := upd g.threads t (⟨f.id, f.call, pc⟩ :: fs) }

/-- Thread `t` calls the aggregator (aggregator_interface.h:34-182). -/
def State.invoke (g : State σ C O R L) (t : Nat) (c : C) : State σ C O R L :=
  { g with
    threads := upd g.threads t (⟨g.calls, c, .begin⟩ :: g.threads t)
    calls := g.calls + 1
    trace := g.trace ++ [.inv g.calls t c] }

/-- Something observable happens; stands for no line of the code. -/
def State.log (g : State σ C O R L) (e : Ev C O R) : State σ C O R L := { g with trace := g.trace ++ [e] }

/-- One step of thread `t` in the method it is executing. -/
inductive Work (P : Prog σ C O R L) (t : Nat) : State σ C O R L → State σ C O R L → Prop
  /-- a method that needs no lock -/
  | early {g f fs o} : g.threads t = f :: fs → f.pc = .begin → P.early f.call = some o →
      Work P t g (g.goto t f fs (.flushing o 0))
  /-- `MutexLock lock(cache_mutex_)` -/
  | lock {g f fs} : g.threads t = f :: fs → f.pc = .begin → P.early f.call = none → g.cacheLock = none →
      Work P t g (({ g with cacheLock := some t }.goto t f fs .locked).log (.enter f.id))
  /-- the constructor of `Swapper`, cache_removed_items_handler.h:104-107 -/
  | swap {g f fs} : g.threads t = f :: fs → f.pc = .locked →
      Work P t g ({ g with buf := some f.id }.goto t f fs (.inside (P.start f.call)))
  | next {g f fs l l' s' emit} : g.threads t = f :: fs → f.pc = .inside l → P.exec l g.st = .next l' s' emit →
      Work P t g ({ g with st := s', items := addRemoved P g emit }.goto t f fs (.inside l'))
  | done {g f fs l o} : g.threads t = f :: fs → f.pc = .inside l → P.exec l g.st = .done o →
      Work P t g (g.goto t f fs (.leaving o))
  /-- the destructor of `Swapper`, cache_removed_items_handler.h:109 -/
  | unswap {g f fs o} : g.threads t = f :: fs → f.pc = .leaving o →
      Work P t g ({ g with buf := none }.goto t f fs (.unlocking o))
  /-- the destructor of `MutexLock` -/
  | unlock {g f fs o} : g.threads t = f :: fs → f.pc = .unlocking o →
      Work P t g ({ g with cacheLock := none }.goto t f fs (.flushing o 0))
  /-- `FlushOut`, cache_removed_items_handler.h:133 -/
  | cbLock {g f fs o k} : g.threads t = f :: fs → f.pc = .flushing o k → k < (g.items f.id).length →
      g.cbLock = none → Work P t g ({ g with cbLock := some t }.goto t f fs (.calling o k))
  /-- `FlushOut`, cache_removed_items_handler.h:134-136; the callback may call the aggregator -/
  | callback {g f fs o k r} : g.threads t = f :: fs → f.pc = .calling o k → (g.items f.id)[k]? = some r →
      Work P t g
        (let g' := (g.goto t f fs (.called o k)).log (.flush f.id r g.callback)
         match g.callback, P.react r with
         | true, some c => g'.invoke t c
         | _, _ => g')
  /-- the end of `FlushOut` -/
  | cbUnlock {g f fs o k} : g.threads t = f :: fs → f.pc = .called o k →
      Work P t g ({ g with cbLock := none }.goto t f fs (.flushing o (k + 1)))
  | ret {g f fs o k} : g.threads t = f :: fs → f.pc = .flushing o k → (g.items f.id).length ≤ k →
      Work P t g ({ g with threads := upd g.threads t fs }.log (.ret f.id o))

/-- One step of the whole: a thread works, a thread that is in no method makes a call, or sets the
flush callback (`InternalSetFlushCallback`, cache_removed_items_handler.h:61-64, taken as one step). -/
inductive Step (P : Prog σ C O R L) : State σ C O R L → State σ C O R L → Prop
  | work {g g'} (t : Nat) : Work P t g g' → Step P g g'
  | call {g} (t : Nat) (c : C) : g.threads t = [] → Step P g (g.invoke t c)
  | setCallback {g} (b : Bool) : g.cbLock = none → Step P g ({ g with callback := b }.log (.setCallback b))

/-- The states of an aggregator created in state `s₀`, under every schedule. -/
inductive Reach (P : Prog σ C O R L) (s₀ : σ) : State σ C O R L → Prop
  | new : Reach P s₀ (State.new s₀)
  | step {g g'} : Reach P s₀ g → Step P g g' → Reach P s₀ g'

end Verif.Conc
