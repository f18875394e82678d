import Verif.Model.LruCache
/-
Pointer-level model of `/repo/utils/simple_lru_cache_inl.h`: the elements live on a heap and are
chained through their `next` and `prev` fields; `table_` and `defer_` are maps from keys to element
addresses; `new` and `delete` are explicit.  `Model/LruCache.lean` describes the same code with lists
in place of the chains; `Props/LruPointers.lean` proves that the two agree.

Statements are modelled one by one, with every field read and written in the order of the code.  An
access through a null pointer or to a deleted element is `Fault.useAfterFree`; so is a second
`delete`.  Reading the data fields of `head_`, which the code never does, is `Fault.listCorrupt`.
The rings of `defer_` are walked with a step bound larger than the number of elements ever made.

Simplifications: those of `Model/LruCache.lean` except the representation of the chains.
-/
namespace Verif.Lru.Ptr

/-- What an `Elem*` can point to: `&head_` (inl.h:539) or an element made by `new` (inl.h:759). -/
inductive Loc where
  | head
  | elem (i : Nat)
  deriving DecidableEq, Repr

/-- The data fields of `SimpleLRUCacheElem`, inl.h:155-161. -/
structure Cell (β : Type) where
  key : Bytes
  ptr : Nat
  val : β
  pin : Int
  units : Nat
  lastUse : Int
  deriving DecidableEq, Repr

/-- Fields of `SimpleLRUCacheBase`, inl.h:530-541, and the heap of elements. -/
structure PCache (β : Type) where
  /-- the element at an address; `none` if there is none (not yet made, or deleted) -/
  cell : Nat → Option (Cell β)
  /-- the field `next` (inl.h:159) of every element; `none` is `nullptr` -/
  next : Loc → Option Loc
  /-- the field `prev` (inl.h:160) of every element -/
  prev : Loc → Option Loc
  table : List (Bytes × Nat)
  defer : List (Bytes × Nat)
  units : Int
  pinnedUnits : Int
  maxUnits : Int
  maxIdle : Int
  lru : Bool
  /-- next fresh address -/
  nextId : Nat

/-- As `World` (`Model/LruCache.lean`): the cache, the number of clock readings (inl.h:77-81) and the deleter's state. -/
structure PWorld (σ β : Type) where
  cache : PCache β
  tick : Nat
  ext : σ

/-- `RemoveElement` (inl.h:498, 1064-1085). -/
abbrev PDeleter (σ β : Type) := Cell β → PWorld σ β → Res (PWorld σ β)

section
variable {σ β : Type}

/-- Constructor, inl.h:580-591. -/
def PCache.new (totalUnits : Int) : PCache β :=
  { cell := fun _ => none,
    next := fun l => if l = .head then some .head else none,
    prev := fun l => if l = .head then some .head else none,
    table := [], defer := [], units := 0, pinnedUnits := 0, maxUnits := totalUnits,
    maxIdle := -1, lru := true, nextId := 0 }

/-- `SimpleCycleTimer::Now()`, inl.h:77-81. -/
def PWorld.now (E : Env) (w : PWorld σ β) : Int := E.clk w.tick
/-- One clock reading consumed (inl.h:77-81). -/
def PWorld.ticked (w : PWorld σ β) : PWorld σ β := { w with tick := w.tick + 1 }

/-! ### Memory -/

/-- Using a pointer to an element (inl.h:154-190): it must not be null and the element must exist. -/
def deref (x : Option Loc) (p : PCache β) : Res Loc :=
  match x with
  | none => .error .useAfterFree
  | some .head => .ok .head
  | some (.elem i) => if (p.cell i).isSome then .ok (.elem i) else .error .useAfterFree

/-- `x->next`, inl.h:159. -/
def getNext (x : Option Loc) (p : PCache β) : Res (Option Loc) := do .ok (p.next (← deref x p))
/-- `x->prev`, inl.h:160. -/
def getPrev (x : Option Loc) (p : PCache β) : Res (Option Loc) := do .ok (p.prev (← deref x p))
/-- `x->next = v`, inl.h:159. -/
def setNext (x v : Option Loc) (p : PCache β) : Res (PCache β) := do
  let l ← deref x p
  .ok { p with next := Function.update p.next l v }
/-- `x->prev = v`, inl.h:160. -/
def setPrev (x v : Option Loc) (p : PCache β) : Res (PCache β) := do
  let l ← deref x p
  .ok { p with prev := Function.update p.prev l v }
/-- The data fields of `*x` (inl.h:155-161), with the address. -/
def load (x : Option Loc) (p : PCache β) : Res (Nat × Cell β) :=
  match x with
  | none => .error .useAfterFree
  | some .head => .error .listCorrupt
  | some (.elem i) =>
    match p.cell i with
    | none => .error .useAfterFree
    | some c => .ok (i, c)
/-- Assignment to a data field of an element (inl.h:155-161). -/
def store (i : Nat) (c : Cell β) (p : PCache β) : PCache β :=
  { p with cell := Function.update p.cell i (some c) }
/-- `delete e`, inl.h:553. -/
def free (i : Nat) (p : PCache β) : Res (PCache β) :=
  match p.cell i with
  | none => .error .useAfterFree
  | some _ => .ok { p with cell := Function.update p.cell i none }

/-- `find` in `table_` or `defer_`, as in inl.h:677, 697, 777, 837, 854. -/
def assoc (k : Bytes) (t : List (Bytes × Nat)) : Option Nat := (t.find? (fun x => x.1 == k)).map (·.2)
/-- `erase` in `table_` or `defer_`, as in inl.h:716, 840, 879. -/
def erase (k : Bytes) (t : List (Bytes × Nat)) : List (Bytes × Nat) := t.filter (fun x => !(x.1 == k))
/-- `m[k] = e`, as in inl.h:718, 764, 858; new keys come last. -/
def assign (k : Bytes) (i : Nat) (t : List (Bytes × Nat)) : List (Bytes × Nat) :=
  if (assoc k t).isSome then t.map (fun x => if x.1 == k then (k, i) else x) else t ++ [(k, i)]

/-! ### Chains -/

/-- `IsLinked`, inl.h:167-173. -/
def isLinked (E : Env) (i : Nat) (p : PCache β) : Res Bool := do
  let n ← getNext (some (.elem i)) p
  let q ← getPrev (some (.elem i)) p
  assertThat E (n.isNone = q.isNone)
  .ok n.isSome

/-- `Unlink`, inl.h:175-181. -/
def unlink (E : Env) (i : Nat) (p : PCache β) : Res (PCache β) := do
  if ← isLinked E i p then
    -- prev->next = next
    let p ← setNext (← getPrev (some (.elem i)) p) (← getNext (some (.elem i)) p) p
    -- next->prev = prev
    let p ← setPrev (← getNext (some (.elem i)) p) (← getPrev (some (.elem i)) p) p
    let p ← setPrev (some (.elem i)) none p
    setNext (some (.elem i)) none p
  else .ok p

/-- `Link`, inl.h:183-188. -/
def link (i : Nat) (hd : Loc) (p : PCache β) : Res (PCache β) := do
  -- next = head->next
  let p ← setNext (some (.elem i)) (← getNext (some hd) p) p
  -- prev = head
  let p ← setPrev (some (.elem i)) (some hd) p
  -- next->prev = this
  let p ← setPrev (← getNext (some (.elem i)) p) (some (.elem i)) p
  -- prev->next = this
  setNext (← getPrev (some (.elem i)) p) (some (.elem i)) p

/-! ### Operations -/

/-- `IsOverfullInternal()`, inl.h:568-570. -/
abbrev PCache.overfull (c : PCache β) : Prop := c.units > c.maxUnits

/-- `Discard`, inl.h:549-554. -/
def discard (E : Env) (del : PDeleter σ β) (i : Nat) (w : PWorld σ β) : Res (PWorld σ β) := do
  let (_, c) ← load (some (.elem i)) w.cache
  assertThat E (c.pin = 0)
  let w ← del c { w with cache := { w.cache with units := w.cache.units - c.units } }
  let p ← free i w.cache
  .ok { w with cache := p }

/-- The insertion into `defer_` of `Remove(Elem*)`, inl.h:853-863. -/
def deferElem (i : Nat) (k : Bytes) (p : PCache β) : Res (PCache β) :=
  match assoc k p.defer with
  | none => do
    let p ← setNext (some (.elem i)) (some (.elem i)) p
    let p ← setPrev (some (.elem i)) (some (.elem i)) p
    .ok { p with defer := assign k i p.defer }
  | some h => link i (.elem h) p

/-- `Remove(Elem*)`, inl.h:846-867. -/
def removeElem (E : Env) (del : PDeleter σ β) (i : Nat) (w : PWorld σ β) : Res (PWorld σ β) := do
  let p ← unlink E i w.cache
  let (_, c) ← load (some (.elem i)) p
  if c.pin > 0 then
    let p ← deferElem i c.key { p with pinnedUnits := p.pinnedUnits - c.units }
    .ok { w with cache := p }
  else discard E del i { w with cache := p }

/-- `Remove(const Key&)`, inl.h:836-843. -/
def remove (E : Env) (del : PDeleter σ β) (k : Bytes) (w : PWorld σ β) : Res (PWorld σ β) :=
  match assoc k w.cache.table with
  | none => .ok w
  | some i => removeElem E del i { w with cache := { w.cache with table := erase k w.cache.table } }

/-- The body of the `while` of `GarbageCollect`, inl.h:874-882. -/
def gcStep (E : Env) (del : PDeleter σ β) (i : Nat) (c : Cell β) (w : PWorld σ β) :
    Res (PWorld σ β) :=
  if c.pin = 0 then
    match assoc c.key w.cache.table with
    | none => .error (if E.dbg then .assertFail else .useAfterFree)
    | some j => do
      assertThat E (j = i)
      let p ← unlink E i { w.cache with table := erase c.key w.cache.table }
      discard E del i { w with cache := p }
  else .ok w

/-- The loop of `GarbageCollect`, inl.h:872-884. -/
def gcLoop (E : Env) (del : PDeleter σ β) : Nat → Option Loc → PWorld σ β → Res (PWorld σ β)
  | 0, e, w => if w.cache.overfull ∧ e ≠ some .head then .error .outOfFuel else .ok w
  | n + 1, e, w =>
    if w.cache.overfull ∧ e ≠ some .head then do
      let prev ← getPrev e w.cache
      let (i, c) ← load e w.cache
      let w ← gcStep E del i c w
      gcLoop E del n prev w
    else .ok w

/-- `GarbageCollect`, inl.h:870-885. -/
def garbageCollect (E : Env) (del : PDeleter σ β) (w : PWorld σ β) : Res (PWorld σ β) :=
  gcLoop E del (w.cache.table.length + E.extraFuel) (w.cache.prev .head) w

/-- The loop of `DiscardIdle`, inl.h:900-928. -/
def idleLoop (E : Env) (del : PDeleter σ β) (threshold : Int) :
    Nat → Option Loc → Int → PWorld σ β → Res (PWorld σ β)
  | 0, e, _, w => if e ≠ some .head then .error .outOfFuel else .ok w
  | n + 1, e, last, w =>
    if e ≠ some .head then do
      let (_, c) ← load e w.cache
      if c.lastUse < threshold then
        assertThat E (last ≤ c.lastUse + 1)
        let prev ← getPrev e w.cache
        assertThat E (c.pin = 0 ∨ w.cache.lru = false)
        let w ← remove E del c.key w
        idleLoop E del threshold n prev c.lastUse w
      else .ok w
    else .ok w

/-- `DiscardIdle`, inl.h:891-929. -/
def discardIdle (E : Env) (del : PDeleter σ β) (maxIdle : Int) (w : PWorld σ β) : Res (PWorld σ β) :=
  if maxIdle < 0 then .ok w
  else idleLoop E del (w.now E - maxIdle) (w.cache.table.length + E.extraFuel)
    (w.cache.prev .head) 0 w.ticked

/-- `RemoveExpiredEntries`, inl.h:411-413. -/
def removeExpired (E : Env) (del : PDeleter σ β) (w : PWorld σ β) : Res (PWorld σ β) :=
  if w.cache.maxIdle ≥ 0 then discardIdle E del w.cache.maxIdle w else .ok w

/-- `SetTimeout`, inl.h:594-629; `cycles` as in `Model/LruCache.lean`. -/
def setTimeout (E : Env) (del : PDeleter σ β) (cycles : Option Int) (lru : Bool) (w : PWorld σ β) :
    Res (PWorld σ β) :=
  match cycles with
  | none => .ok { w with cache := { w.cache with lru := lru, maxIdle := -1 } }
  | some c =>
    if w.cache.maxIdle ≥ 0 ∧ lru ≠ w.cache.lru then do
      assertThat E False
      .ok w
    else
      discardIdle E del c { w with cache := { w.cache with lru := lru, maxIdle := c } }

/-- `SetMaxSize`, inl.h:299-302. -/
def setMaxSize (E : Env) (del : PDeleter σ β) (n : Int) (w : PWorld σ β) : Res (PWorld σ β) :=
  garbageCollect E del { w with cache := { w.cache with maxUnits := n } }

/-- The pinning part of `LookupWithOptions`, inl.h:677-690; returns the value pointer. -/
def pinKey (E : Env) (upd : Bool) (k : Bytes) (p : PCache β) : Res (PCache β × Option Nat) :=
  match assoc k p.table with
  | none => .ok (p, none)
  | some i => do
    let (_, c) ← load (some (.elem i)) p
    let p ← if c.pin = 0 then
        let p := { p with pinnedUnits := p.pinnedUnits + c.units }
        if p.lru = true ∧ upd = true then unlink E i p else .ok p
      else .ok p
    .ok (store i { c with pin := c.pin + 1 } p, some c.ptr)

/-- `LookupWithOptions`, inl.h:673-691. -/
def lookup (E : Env) (del : PDeleter σ β) (upd : Bool) (k : Bytes) (w : PWorld σ β) :
    Res (PWorld σ β × Option Nat) := do
  let w ← removeExpired E del w
  let (p, r) ← pinKey E upd k w.cache
  .ok ({ w with cache := p }, r)

/-- The search of a deferred list, inl.h:702-705. -/
def searchDeferred (h v : Nat) (p : PCache β) : Nat → Option Loc → Res (Option Loc)
  | 0, _ => .error .outOfFuel
  | n + 1, e =>
    if e ≠ some (.elem h) then do
      let (_, c) ← load e p
      if c.ptr ≠ v then searchDeferred h v p n (← getPrev e p) else .ok e
    else .ok e

/-- A new head for a deferred list whose head `i` goes away, inl.h:711-721. -/
def unhead (h i : Nat) (k : Bytes) (p : PCache β) : Res (PCache β) :=
  if i = h then do
    let p := { p with defer := erase k p.defer }
    let q ← getPrev (some (.elem i)) p
    if q ≠ some (.elem i) then do
      let (j, c) ← load q p
      .ok { p with defer := assign c.key j p.defer }
    else .ok p
  else .ok p

/-- Taking element `i` off `defer_` when it was the last pin, inl.h:711-723. -/
def undefer (E : Env) (del : PDeleter σ β) (h i : Nat) (k : Bytes) (w : PWorld σ β) :
    Res (PWorld σ β) := do
  let p ← unhead h i k w.cache
  let p ← unlink E i p
  discard E del i { w with cache := p }

/-- The deferred part of `ReleaseWithOptions`, inl.h:697-724; `none` if the value is not there. -/
def releaseDeferred (E : Env) (del : PDeleter σ β) (k : Bytes) (v : Nat) (w : PWorld σ β) :
    Res (Option (PWorld σ β)) :=
  match assoc k w.cache.defer with
  | none => .ok none
  | some h => do
    let e ← searchDeferred h v w.cache (w.cache.nextId + 1) (← getPrev (some (.elem h)) w.cache)
    let (i, c) ← load e w.cache
    if c.ptr = v then
      assertThat E (c.pin > 0)
      let w := { w with cache := store i { c with pin := c.pin - 1 } w.cache }
      if c.pin - 1 = 0 then do
        let w ← undefer E del h i k w
        .ok (some w)
      else .ok (some w)
    else .ok none

/-- The rest of `ReleaseWithOptions`, inl.h:727-748. -/
def releaseTable (E : Env) (del : PDeleter σ β) (upd : Bool) (k : Bytes) (v : Nat) (w : PWorld σ β) :
    Res (PWorld σ β) :=
  match assoc k w.cache.table with
  | none => .error (if E.dbg then .assertFail else .useAfterFree)
  | some i => do
    let (_, c) ← load (some (.elem i)) w.cache
    assertThat E (c.ptr = v)
    assertThat E (c.pin > 0)
    let touch : Bool := w.cache.lru && upd
    let c1 : Cell β := { c with lastUse := if touch then w.now E else c.lastUse, pin := c.pin - 1 }
    let w := if touch then w.ticked else w
    let p := store i c1 w.cache
    if c1.pin = 0 then do
      let p ← if touch then link i .head p else .ok p
      let w := { w with cache := { p with pinnedUnits := p.pinnedUnits - c1.units } }
      if w.cache.overfull then remove E del k w else .ok w
    else .ok { w with cache := p }

/-- `ReleaseWithOptions`, inl.h:694-749. -/
def release (E : Env) (del : PDeleter σ β) (upd : Bool) (k : Bytes) (v : Nat) (w : PWorld σ β) :
    Res (PWorld σ β) := do
  match ← releaseDeferred E del k v w with
  | some w => .ok w
  | none => releaseTable E del upd k v w

/-- `InsertPinned` after the removal of the old entry, inl.h:758-769. -/
def addPinned (E : Env) (k : Bytes) (v : Nat) (x : β) (units : Nat) (w : PWorld σ β) :
    Res (PWorld σ β) := do
  let i := w.cache.nextId
  let p : PCache β := { w.cache with
    cell := Function.update w.cache.cell i
      (some { key := k, ptr := v, val := x, pin := 1, units := units, lastUse := w.now E }),
    next := Function.update w.cache.next (.elem i) none,
    prev := Function.update w.cache.prev (.elem i) none,
    nextId := i + 1,
    units := w.cache.units + units,
    pinnedUnits := w.cache.pinnedUnits + units,
    table := assign k i w.cache.table }
  let p ← if p.lru = false then link i .head p else .ok p
  .ok { w with tick := w.tick + 1, cache := p }

/-- `InsertPinned`, inl.h:752-771. -/
def insertPinned (E : Env) (del : PDeleter σ β) (k : Bytes) (v : Nat) (x : β) (units : Nat)
    (w : PWorld σ β) : Res (PWorld σ β) := do
  let w ← remove E del k w
  let w ← addPinned E k v x units w
  garbageCollect E del w

/-- The loop over a deferred list in `UpdateSize`, inl.h:793-800. -/
def resizeDeferred (h : Nat) (v : Option Nat) (units : Nat) :
    Nat → Option Loc → PCache β → Res (PCache β)
  | 0, _, _ => .error .outOfFuel
  | n + 1, e, p => do
    let (i, c) ← load e p
    let p := if v = none ∨ v = some c.ptr then
        store i { c with units := units } { p with units := p.units - c.units + units }
      else p
    let e ← getPrev e p
    if e ≠ some (.elem h) then resizeDeferred h v units n e p else .ok p

/-- `UpdateSize` when the entry is in the table, inl.h:780-789. -/
def resizeTable (i : Nat) (c : Cell β) (units : Nat) (p : PCache β) : PCache β :=
  store i { c with units := units } { p with
    units := p.units - c.units + units,
    pinnedUnits := if c.pin > 0 then p.pinnedUnits - c.units + units else p.pinnedUnits }

/-- `UpdateSize` when it is not, inl.h:791-803. -/
def resizeOther (k : Bytes) (v : Option Nat) (units : Nat) (p : PCache β) : Res (PCache β) :=
  match assoc k p.defer with
  | none => .ok p
  | some h => resizeDeferred h v units (p.nextId + 1) (some (.elem h)) p

/-- `UpdateSize` before the garbage collection, inl.h:776-804. -/
def resize (k : Bytes) (v : Option Nat) (units : Nat) (p : PCache β) : Res (PCache β) :=
  match assoc k p.table with
  | none => resizeOther k v units p
  | some i => do
    let (_, c) ← load (some (.elem i)) p
    if v = none ∨ v = some c.ptr then .ok (resizeTable i c units p) else resizeOther k v units p

/-- `UpdateSize`, inl.h:774-806. -/
def updateSize (E : Env) (del : PDeleter σ β) (k : Bytes) (v : Option Nat) (units : Nat)
    (w : PWorld σ β) : Res (PWorld σ β) := do
  let p ← resize k v units w.cache
  garbageCollect E del { w with cache := p }

/-- Traversal order of `table_` (inl.h:634, 652). -/
def tableOrder (E : Env) (t : List (Bytes × Nat)) : List Nat := (E.order.ord Nat t).map (·.2)

/-- `RemoveAll`, inl.h:632-638. -/
def removeAll (E : Env) (del : PDeleter σ β) (w : PWorld σ β) : Res (PWorld σ β) := do
  let w ← (tableOrder E w.cache.table).foldlM (fun w i => removeElem E del i w) w
  .ok { w with cache := { w.cache with table := [] } }

/-- The loop of `RemoveUnpinned`, inl.h:642-646. -/
def unpinnedLoop (E : Env) (del : PDeleter σ β) : Nat → Option Loc → PWorld σ β → Res (PWorld σ β)
  | 0, e, w => if e ≠ some .head then .error .outOfFuel else .ok w
  | n + 1, e, w =>
    if e ≠ some .head then do
      let next ← getNext e w.cache
      let (_, c) ← load e w.cache
      let w ← if c.pin = 0 then remove E del c.key w else .ok w
      unpinnedLoop E del n next w
    else .ok w

/-- `RemoveUnpinned`, inl.h:641-647. -/
def removeUnpinned (E : Env) (del : PDeleter σ β) (w : PWorld σ β) : Res (PWorld σ β) :=
  unpinnedLoop E del (w.cache.table.length + E.extraFuel) (w.cache.next .head) w

/-- `Clear`, inl.h:650-670. -/
def clear (E : Env) (del : PDeleter σ β) (w : PWorld σ β) : Res (PWorld σ β) := do
  let w ← (tableOrder E w.cache.table).foldlM (fun w i => discard E del i w) w
  assertThat E (w.cache.defer = [])
  .ok { w with cache := { w.cache with
    table := [],
    next := Function.update w.cache.next .head (some .head),
    prev := Function.update w.cache.prev .head (some .head),
    units := 0, pinnedUnits := 0 } }

/-- The client writes through a value pointer (`value`, inl.h:156) it holds. -/
def setVal (v : Nat) (x : β) (w : PWorld σ β) : PWorld σ β :=
  { w with cache := { w.cache with
      cell := fun i => (w.cache.cell i).map (fun c => if c.ptr == v then { c with val := x } else c) } }

/-- The loop of `InDeferredTable`, inl.h:827-830. -/
def inDeferred (h : Nat) (v : Option Nat) (p : PCache β) : Nat → Option Loc → Res Bool
  | 0, _ => .error .outOfFuel
  | n + 1, e => do
    let (_, c) ← load e p
    if v = none ∨ v = some c.ptr then .ok true
    else
      let e ← getPrev e p
      if e ≠ some (.elem h) then inDeferred h v p n e else .ok false

/-- `InDeferredTable`, inl.h:820-833. -/
def PCache.inDeferredTable (p : PCache β) (k : Bytes) (v : Option Nat) : Res Bool :=
  match assoc k p.defer with
  | none => .ok false
  | some h => inDeferred h v p (p.nextId + 1) (some (.elem h))

/-- `StillInUse`, inl.h:809-818. -/
def PCache.stillInUse (p : PCache β) (k : Bytes) (v : Option Nat) : Res Bool :=
  match assoc k p.table with
  | none => p.inDeferredTable k v
  | some i => do
    let (_, c) ← load (some (.elem i)) p
    if v = none ∨ v = some c.ptr then .ok true else p.inDeferredTable k v

/-- The inner loop of `CountDeferredEntries`, inl.h:940-944. -/
def countRing (h : Nat) (p : PCache β) : Nat → Option Loc → Nat × Int → Res (Nat × Int)
  | 0, _, _ => .error .outOfFuel
  | n + 1, e, (num, size) => do
    let (_, c) ← load e p
    let e ← getPrev e p
    if e ≠ some (.elem h) then countRing h p n e (num + 1, size + c.units)
    else .ok (num + 1, size + c.units)

/-- `CountDeferredEntries`, inl.h:932-946: `DeferredEntries()` and `DeferredSize()`. -/
def PCache.countDeferred (p : PCache β) : Res (Nat × Int) :=
  p.defer.foldlM (fun acc x => countRing x.2 p (p.nextId + 1) (some (.elem x.2)) acc) (0, 0)

end
end Verif.Lru.Ptr
