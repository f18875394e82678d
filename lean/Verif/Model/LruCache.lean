import Verif.Model.OperationAggregator
import Mathlib.Data.List.Sort
/-
Model of `/repo/utils/simple_lru_cache_inl.h` (and the declarations in `simple_lru_cache.h`).

Representation.
* `nodes` is the contents of `table_`, kept in the order of the LRU ring: an element whose
  `linked` flag is set is on the ring, and the ring, read from `head_.next` (most recent) to
  `head_.prev` (least recent), is the list of the linked elements of `nodes` in list order.  The
  position of an element that is not linked is immaterial.
* `defer` is the contents of `defer_`, all per-key rings together; the code's order inside those
  rings "makes no semantic difference" (inl.h:700-701) and is not modelled.
* an element has an `id` (the address of the `Elem`), a `ptr` (the address of the `Value`) and the
  contents `val` of the value, which clients may change through the pointer (`setVal`).
* loops walk the ring with a saved cursor exactly as the code does; a cursor that designates an
  element no longer in the table is `Fault.useAfterFree`.

Simplifications: `units_`, `pinned_units_` and pin counts are unbounded integers; keys are byte
strings compared by equality (the only instantiation used); `IsOverfull()` is not overridden.
-/
namespace Verif.Lru

/-- Everything the code takes from its environment: `SimpleCycleTimer` (inl.h:74-87), `assert`, the hash table
(inl.h:523). -/
structure Env where
  /-- the `i`-th reading of `SimpleCycleTimer::Now()` (inl.h:77-81), in microseconds -/
  clk : Nat → Int
  /-- `NDEBUG` is not defined -/
  dbg : Bool
  /-- loops over the ring may take this many steps more than there were elements on entry -/
  extraFuel : Nat
  /-- iteration order of the hash table -/
  order : UMapOrder

/-- `SimpleLRUCacheElem`, inl.h:154-190. -/
structure Elem (β : Type) where
  id : Nat
  key : Bytes
  ptr : Nat
  val : β
  pin : Int
  units : Nat
  lastUse : Int
  linked : Bool
  deriving DecidableEq, Repr

/-- Fields of `SimpleLRUCacheBase`, inl.h:530-541. -/
structure Cache (β : Type) where
  nodes : List (Elem β)
  defer : List (Elem β)
  units : Int
  pinnedUnits : Int
  maxUnits : Int
  maxIdle : Int
  lru : Bool
  /-- next fresh `Elem` address -/
  nextId : Nat
  deriving DecidableEq, Repr

/-- The cache, the number of clock readings (`SimpleCycleTimer::Now()`, inl.h:77-81) so far, and whatever state the deleter acts on. -/
structure World (σ β : Type) where
  cache : Cache β
  tick : Nat
  ext : σ
  deriving DecidableEq, Repr

/-- `RemoveElement` (inl.h:498, 1064-1085): may change the world, including the cache itself. -/
abbrev Deleter (σ β : Type) := Elem β → World σ β → Res (World σ β)

/-- Constructor, inl.h:580-591. -/
def Cache.new {β : Type} (totalUnits : Int) : Cache β :=
  { nodes := [], defer := [], units := 0, pinnedUnits := 0, maxUnits := totalUnits,
    maxIdle := -1, lru := true, nextId := 0 }

section
variable {σ β : Type}

/-- `SimpleCycleTimer::Now()`, inl.h:77-81. -/
def World.now (E : Env) (w : World σ β) : Int := E.clk w.tick
/-- One clock reading consumed (inl.h:77-81). -/
def World.ticked (w : World σ β) : World σ β := { w with tick := w.tick + 1 }

/-- `table_.find(k)`, as in inl.h:677, 730, 777, 837. -/
def findKey (k : Bytes) (l : List (Elem β)) : Option (Elem β) := l.find? (fun e => e.key == k)
/-- Dereferencing an `Elem*` (inl.h:154-161). -/
def findId (i : Nat) (l : List (Elem β)) : Option (Elem β) := l.find? (fun e => e.id == i)
/-- Removal of the element from the table (`table_.erase`, inl.h:840, 879) and, if linked, from the ring
(`Unlink`, inl.h:175-181). -/
def dropId (i : Nat) (l : List (Elem β)) : List (Elem β) := l.filter (fun e => !(e.id == i))
/-- Assignment through an `Elem*`, as in inl.h:687, 709, 736-738, 785. -/
def setElem (e' : Elem β) (l : List (Elem β)) : List (Elem β) :=
  l.map (fun e => if e.id == e'.id then e' else e)

/-- `head_.prev` (inl.h:871, 895): the least recent element of the ring (`none` for `&head_`). -/
def ringLast (l : List (Elem β)) : Option Nat := ((l.filter (·.linked)).getLast?).map (·.id)
/-- `head_.next`, inl.h:642. -/
def ringFirst (l : List (Elem β)) : Option Nat := ((l.filter (·.linked)).head?).map (·.id)
/-- `e->prev` (inl.h:160, 873, 922): the neighbour towards the most recent end. -/
def ringPrev (i : Nat) (l : List (Elem β)) : Option Nat := ringLast (l.takeWhile (fun e => !(e.id == i)))
/-- `e->next` (inl.h:159, 643): the neighbour towards the least recent end. -/
def ringNext (i : Nat) (l : List (Elem β)) : Option Nat :=
  ringFirst ((l.dropWhile (fun e => !(e.id == i))).drop 1)

/-- `IsOverfullInternal()`, inl.h:568-570. -/
abbrev Cache.overfull (c : Cache β) : Prop := c.units > c.maxUnits

/-- A failed `assert` (as in inl.h:550, 731-734, 877-878) stops a debug build and is ignored by a release build. -/
def assertThat (E : Env) (p : Prop) [Decidable p] : Res Unit :=
  if E.dbg && !decide p then .error .assertFail else .ok ()

/-- `Discard`, inl.h:549-554 (the element is already off the table and ring). -/
def discard (E : Env) (del : Deleter σ β) (e : Elem β) (w : World σ β) : Res (World σ β) := do
  assertThat E (e.pin = 0)
  del e { w with cache := { w.cache with units := w.cache.units - e.units } }

/-- `Remove(Elem*)`, inl.h:846-867, after the element was erased from the table. -/
def removeElem (E : Env) (del : Deleter σ β) (e : Elem β) (w : World σ β) : Res (World σ β) :=
  if e.pin > 0 then
    .ok { w with cache := { w.cache with
      pinnedUnits := w.cache.pinnedUnits - e.units,
      defer := { e with linked := true } :: w.cache.defer } }
  else discard E del e w

/-- `Remove(const Key&)`, inl.h:836-843. -/
def remove (E : Env) (del : Deleter σ β) (k : Bytes) (w : World σ β) : Res (World σ β) :=
  match findKey k w.cache.nodes with
  | none => .ok w
  | some e =>
    removeElem E del e { w with cache := { w.cache with nodes := dropId e.id w.cache.nodes } }

/-- The body of the `while` of `GarbageCollect`, inl.h:873-882: erase and discard if unpinned. -/
def gcStep (E : Env) (del : Deleter σ β) (e : Elem β) (w : World σ β) : Res (World σ β) :=
  if e.pin = 0 then
    match findKey e.key w.cache.nodes with
    | none => .error (if E.dbg then .assertFail else .useAfterFree)
    | some e' => do
      assertThat E (e'.id = e.id)
      discard E del e { w with cache := { w.cache with nodes := dropId e.id w.cache.nodes } }
  else .ok w

/-- The loop of `GarbageCollect`, inl.h:872-884; `cur` is the variable `e`. -/
def gcLoop (E : Env) (del : Deleter σ β) : Nat → Option Nat → World σ β → Res (World σ β)
  | _, none, w => .ok w
  | 0, some _, w => if w.cache.overfull then .error .outOfFuel else .ok w
  | n + 1, some i, w =>
    if w.cache.overfull then
      match findId i w.cache.nodes with
      | none => .error .useAfterFree
      | some e =>
        if e.linked then do
          let p := ringPrev i w.cache.nodes
          let w' ← gcStep E del e w
          gcLoop E del n p w'
        else .error .useAfterFree
    else .ok w

/-- `GarbageCollect`, inl.h:870-885. -/
def garbageCollect (E : Env) (del : Deleter σ β) (w : World σ β) : Res (World σ β) :=
  gcLoop E del (w.cache.nodes.length + E.extraFuel) (ringLast w.cache.nodes) w

/-- The loop of `DiscardIdle`, inl.h:895-928; `last` only matters in debug builds. -/
def idleLoop (E : Env) (del : Deleter σ β) (threshold : Int) :
    Nat → Option Nat → Int → World σ β → Res (World σ β)
  | _, none, _, w => .ok w
  | 0, some _, _, _ => .error .outOfFuel
  | n + 1, some i, last, w =>
    match findId i w.cache.nodes with
    | none => .error .useAfterFree
    | some e =>
      if e.linked then
        if e.lastUse < threshold then do
          assertThat E (last ≤ e.lastUse + 1)
          let p := ringPrev i w.cache.nodes
          assertThat E (e.pin = 0 ∨ w.cache.lru = false)
          let w' ← remove E del e.key w
          idleLoop E del threshold n p e.lastUse w'
        else .ok w
      else .error .useAfterFree

/-- `DiscardIdle`, inl.h:891-929. -/
def discardIdle (E : Env) (del : Deleter σ β) (maxIdle : Int) (w : World σ β) : Res (World σ β) :=
  if maxIdle < 0 then .ok w
  else idleLoop E del (w.now E - maxIdle) (w.cache.nodes.length + E.extraFuel)
    (ringLast w.cache.nodes) 0 w.ticked

/-- `RemoveExpiredEntries`, inl.h:411-413. -/
def removeExpired (E : Env) (del : Deleter σ β) (w : World σ β) : Res (World σ β) :=
  if w.cache.maxIdle ≥ 0 then discardIdle E del w.cache.maxIdle w else .ok w

/-- `SetTimeout`, inl.h:594-629.  `cycles` is the argument converted to cycles: `none` if it is
negative or infinite, otherwise truncated and saturated to `int64_t` (that double computation is
left to the caller). -/
def setTimeout (E : Env) (del : Deleter σ β) (cycles : Option Int) (lru : Bool) (w : World σ β) :
    Res (World σ β) :=
  match cycles with
  | none => .ok { w with cache := { w.cache with lru := lru, maxIdle := -1 } }
  | some c =>
    if w.cache.maxIdle ≥ 0 ∧ lru ≠ w.cache.lru then do
      assertThat E False
      .ok w
    else
      discardIdle E del c { w with cache := { w.cache with lru := lru, maxIdle := c } }

/-- `SetMaxSize`, inl.h:299-302. -/
def setMaxSize (E : Env) (del : Deleter σ β) (n : Int) (w : World σ β) : Res (World σ β) :=
  garbageCollect E del { w with cache := { w.cache with maxUnits := n } }

/-- The pinning part of `LookupWithOptions`, inl.h:677-690; `upd` is
`options.update_eviction_order()`. -/
def pinKey (upd : Bool) (k : Bytes) (w : World σ β) : World σ β × Option (Elem β) :=
  match findKey k w.cache.nodes with
  | none => (w, none)
  | some e =>
    let e' : Elem β := { e with
      pin := e.pin + 1,
      linked := if e.pin = 0 ∧ w.cache.lru = true ∧ upd = true then false else e.linked }
    let pu := if e.pin = 0 then w.cache.pinnedUnits + e.units else w.cache.pinnedUnits
    ({ w with cache := { w.cache with nodes := setElem e' w.cache.nodes, pinnedUnits := pu } },
      some e')

/-- `LookupWithOptions`, inl.h:673-691.  The returned element stands for the value pointer. -/
def lookup (E : Env) (del : Deleter σ β) (upd : Bool) (k : Bytes) (w : World σ β) :
    Res (World σ β × Option (Elem β)) := do
  let w ← removeExpired E del w
  .ok (pinKey upd k w)

/-- `ReleaseWithOptions` on a deferred value, inl.h:697-724. -/
def releaseDeferred (E : Env) (del : Deleter σ β) (e : Elem β) (w : World σ β) :
    Res (World σ β) := do
  assertThat E (e.pin > 0)
  if e.pin - 1 = 0 then
    discard E del { e with pin := e.pin - 1 }
      { w with cache := { w.cache with defer := dropId e.id w.cache.defer } }
  else
    .ok { w with cache := { w.cache with defer := setElem { e with pin := e.pin - 1 } w.cache.defer } }

/-- The ring part of `ReleaseWithOptions`: `e->Link(&head_)`, inl.h:741.  Linking an element
that is already linked breaks the ring. -/
def linkFront (e : Elem β) (c : Cache β) : Res (Cache β) :=
  if e.linked then .error .listCorrupt
  else .ok { c with nodes := { e with linked := true } :: dropId e.id c.nodes }

/-- `ReleaseWithOptions` on a value in the table, inl.h:727-748. -/
def releaseTable (E : Env) (del : Deleter σ β) (upd : Bool) (k : Bytes) (p : Nat) (e : Elem β)
    (w : World σ β) : Res (World σ β) := do
  assertThat E (e.ptr = p)
  assertThat E (e.pin > 0)
  let touch : Bool := w.cache.lru && upd
  let e1 : Elem β := { e with
    lastUse := if touch then w.now E else e.lastUse, pin := e.pin - 1 }
  let w1 := if touch then w.ticked else w
  if e1.pin = 0 then do
    let c ← if touch then linkFront e1 w1.cache
            else .ok { w1.cache with nodes := setElem e1 w1.cache.nodes }
    let w2 : World σ β := { w1 with cache := { c with pinnedUnits := c.pinnedUnits - e.units } }
    if w2.cache.overfull then remove E del k w2 else .ok w2
  else .ok { w1 with cache := { w1.cache with nodes := setElem e1 w1.cache.nodes } }

/-- `ReleaseWithOptions`, inl.h:694-749. -/
def release (E : Env) (del : Deleter σ β) (upd : Bool) (k : Bytes) (p : Nat) (w : World σ β) :
    Res (World σ β) :=
  match w.cache.defer.find? (fun e => e.key == k && e.ptr == p) with
  | some e => releaseDeferred E del e w
  | none =>
    match findKey k w.cache.nodes with
    | none => .error (if E.dbg then .assertFail else .useAfterFree)
    | some e => releaseTable E del upd k p e w

/-- `InsertPinned` after the removal of the old entry, inl.h:758-770, up to the garbage
collection. -/
def addPinned (E : Env) (k : Bytes) (p : Nat) (v : β) (units : Nat) (w : World σ β) : World σ β :=
  { w with
    tick := w.tick + 1,
    cache := { w.cache with
      units := w.cache.units + units,
      pinnedUnits := w.cache.pinnedUnits + units,
      nextId := w.cache.nextId + 1,
      nodes := { id := w.cache.nextId, key := k, ptr := p, val := v, pin := 1, units := units,
                 lastUse := w.now E, linked := !w.cache.lru } :: w.cache.nodes } }

/-- `InsertPinned`, inl.h:752-771. -/
def insertPinned (E : Env) (del : Deleter σ β) (k : Bytes) (p : Nat) (v : β) (units : Nat)
    (w : World σ β) : Res (World σ β) := do
  let w ← remove E del k w
  garbageCollect E del (addPinned E k p v units w)

/-- `Insert`, inl.h:366-369. -/
def insert (E : Env) (del : Deleter σ β) (k : Bytes) (p : Nat) (v : β) (units : Nat)
    (w : World σ β) : Res (World σ β) := do
  let w ← insertPinned E del k p v units w
  release E del true k p w

/-- `UpdateSize` before the garbage collection, inl.h:776-804; `p = none` for a null pointer. -/
def resize (k : Bytes) (p : Option Nat) (units : Nat) (c : Cache β) : Cache β :=
  match (findKey k c.nodes).filter (fun e => p == none || p == some e.ptr) with
  | some e =>
    { c with
      units := c.units - e.units + units,
      pinnedUnits := if e.pin > 0 then c.pinnedUnits - e.units + units else c.pinnedUnits,
      nodes := setElem { e with units := units } c.nodes }
  | none =>
    let hit : Elem β → Bool := fun e => e.key == k && (p == none || p == some e.ptr)
    { c with
      units := c.units - ((c.defer.filter hit).map (fun e => (e.units : Int))).sum
        + ((c.defer.filter hit).map (fun _ => (units : Int))).sum,
      defer := c.defer.map (fun e => if hit e then { e with units := units } else e) }

/-- `UpdateSize`, inl.h:774-806. -/
def updateSize (E : Env) (del : Deleter σ β) (k : Bytes) (p : Option Nat) (units : Nat)
    (w : World σ β) : Res (World σ β) :=
  garbageCollect E del { w with cache := resize k p units w.cache }

/-- Traversal order of `table_` (inl.h:634, 652): a function of the contents in the order of their insertion.  No
two non-empty traversals of one cache see the same elements, so this allows every sequence of orders. -/
def tableOrder (E : Env) (l : List (Elem β)) : List (Elem β) :=
  (E.order.ord (Elem β) ((l.insertionSort (fun a b => a.id ≤ b.id)).map (fun e => (e.key, e)))).map (·.2)

/-- `RemoveAll`, inl.h:632-638.  The loop calls `Remove(Elem*)` on entries that are still in the
table; the table is cleared at the end. -/
def removeAll (E : Env) (del : Deleter σ β) (w : World σ β) : Res (World σ β) := do
  let w ← (tableOrder E w.cache.nodes).foldlM (fun w e => removeElem E del e w) w
  .ok { w with cache := { w.cache with nodes := [] } }

/-- The loop of `RemoveUnpinned`, inl.h:642-646. -/
def unpinnedLoop (E : Env) (del : Deleter σ β) : Nat → Option Nat → World σ β → Res (World σ β)
  | _, none, w => .ok w
  | 0, some _, _ => .error .outOfFuel
  | n + 1, some i, w =>
    match findId i w.cache.nodes with
    | none => .error .useAfterFree
    | some e =>
      if e.linked then do
        let nx := ringNext i w.cache.nodes
        let w' ← if e.pin = 0 then remove E del e.key w else .ok w
        unpinnedLoop E del n nx w'
      else .error .useAfterFree

/-- `RemoveUnpinned`, inl.h:641-647. -/
def removeUnpinned (E : Env) (del : Deleter σ β) (w : World σ β) : Res (World σ β) :=
  unpinnedLoop E del (w.cache.nodes.length + E.extraFuel) (ringFirst w.cache.nodes) w

/-- `Clear`, inl.h:650-670. -/
def clear (E : Env) (del : Deleter σ β) (w : World σ β) : Res (World σ β) := do
  let w ← (tableOrder E w.cache.nodes).foldlM (fun w e => discard E del e w) w
  assertThat E (w.cache.defer = [])
  .ok { w with cache := { w.cache with nodes := [], units := 0, pinnedUnits := 0 } }

/-- The client writes through a value pointer (`value`, inl.h:156) it holds. -/
def setVal (p : Nat) (v : β) (w : World σ β) : World σ β :=
  { w with cache := { w.cache with
      nodes := w.cache.nodes.map (fun e => if e.ptr == p then { e with val := v } else e),
      defer := w.cache.defer.map (fun e => if e.ptr == p then { e with val := v } else e) } }

/-- `StillInUse` / `InDeferredTable`, inl.h:809-833. -/
def Cache.stillInUse (c : Cache β) (k : Bytes) (p : Option Nat) : Bool :=
  ((findKey k c.nodes).filter (fun e => p == none || p == some e.ptr)).isSome ||
  c.defer.any (fun e => e.key == k && (p == none || p == some e.ptr))

/-- `Size()`, inl.h:416. -/
def Cache.size (c : Cache β) : Int := c.units
/-- `Entries()`, inl.h:420. -/
def Cache.entries (c : Cache β) : Nat := c.nodes.length
/-- `PinnedSize()`, inl.h:429. -/
def Cache.pinnedSize (c : Cache β) : Int := c.pinnedUnits
/-- `DeferredSize()` (`CountDeferredEntries`), inl.h:932-953. -/
def Cache.deferredSize (c : Cache β) : Int := (c.defer.map (fun e => (e.units : Int))).sum
/-- `DeferredEntries()`, inl.h:955-960. -/
def Cache.deferredEntries (c : Cache β) : Nat := c.defer.length
/-- `GetLastUseTime` / `GetInsertionTime`, inl.h:970-989. -/
def Cache.lastUseTime (c : Cache β) (k : Bytes) : Int :=
  match findKey k c.nodes with
  | none => -1
  | some e => e.lastUse

end
end Verif.Lru
