import Verif.Model.LruPointers
/-
Model of the `const_iterator` of the generic cache, of `AgeOfLRUItemInMicroseconds` and of `DebugOutput`
(utils/simple_lru_cache_inl.h).
-/
namespace Verif.Lru

section
variable {β : Type}

/-- `SimpleLRUCacheConstIterator`, inl.h:107-150.  `rest` is what `it_` has yet to pass of the table,
`[]` being `end_`; `view` is `external_view_` and `last_use_` (`none` until first assigned). -/
structure Iter (β : Type) where
  rest : List (Elem β)
  view : Option (Bytes × Nat × Int)

/-- The assignments of inl.h:1027-1030 and 1039-1042, made unless `it_` is at the end. -/
def Iter.look (i : Iter β) : Iter β :=
  match i.rest with
  | [] => i
  | e :: _ => { i with view := some (e.key, e.ptr, e.lastUse) }

/-- `begin()`, inl.h:473-475 with the constructor, inl.h:1023-1032. -/
def Cache.begin (E : Env) (c : Cache β) : Iter β := Iter.look ⟨tableOrder E c.nodes, none⟩

/-- `end()`, inl.h:476-478. -/
def Cache.end : Iter β := Iter.look ⟨[], none⟩

/-- `operator++`, inl.h:1034-1044; incrementing the end of a table is undefined behaviour. -/
def Iter.next (i : Iter β) : Res (Iter β) :=
  match i.rest with
  | [] => .error .useAfterFree
  | _ :: l => .ok (Iter.look ⟨l, i.view⟩)

/-- `operator==` (inl.h:135-138) of two iterators of one table: they compare positions. -/
def Iter.same (i j : Iter β) : Bool := i.rest.length == j.rest.length

/-- The loop `for (it = begin(); it != end(); ++it)` of a client (inl.h:471-478): what `*it` and
`last_use_time()` show in each round.  `fuel` bounds the rounds. -/
def Iter.loop : Nat → Iter β → Res (List (Option (Bytes × Nat × Int)))
  | 0, _ => .error .outOfFuel
  | n + 1, i =>
    if i.same Cache.end then .ok []
    else do
      let j ← i.next
      let l ← Iter.loop n j
      .ok (i.view :: l)

/-- `int64_t` multiplication (inl.h:965): overflow is undefined behaviour. -/
def mulI64 (a b : Int) : Res Int := if InI64 (a * b) then .ok (a * b) else .error .signedOverflow

/-- `AgeOfLRUItemInMicroseconds`, inl.h:961-967.  `kSecToUsec` and `Frequency()` are 1000000 (inl.h:65, 83).
The difference of two clock readings is not checked for overflow: readings are times since 1970. -/
def Cache.ageOfLru (now : Int) (c : Cache β) : Res Int :=
  match (c.nodes.filter (·.linked)).getLast? with
  | none => .ok 0
  | some e => do
    let x ← mulI64 1000000 (now - e.lastUse)
    .ok (x.tdiv 1000000)

end

namespace Ptr
section
variable {β : Type}

/-- `AgeOfLRUItemInMicroseconds` (inl.h:961-967) as it follows `head_.prev`. -/
def PCache.ageOfLru (now : Int) (p : PCache β) : Res Int :=
  if p.prev .head = some .head then .ok 0
  else do
    let (_, c) ← load (p.prev .head) p
    let x ← mulI64 1000000 (now - c.lastUse)
    .ok (x.tdiv 1000000)

/-- A call of `DebugIterator(k, value, pin_count, last_timestamp, is_deferred, output)`, inl.h:500-502, which
a class derived from the cache overrides to write what it likes to `output`. -/
structure Shown where
  key : Bytes
  ptr : Nat
  pin : Int
  lastUse : Int
  deferred : Bool
  deriving DecidableEq, Repr

/-- The arguments of inl.h:1002 and 1010. -/
def Cell.shown (c : Cell β) (deferred : Bool) : Shown := ⟨c.key, c.ptr, c.pin, c.lastUse, deferred⟩

/-- The inner loop of `DebugOutput`, inl.h:1009-1012. -/
def debugRing (h : Nat) (p : PCache β) : Nat → Option Loc → List Shown → Res (List Shown)
  | 0, _, _ => .error .outOfFuel
  | n + 1, e, out => do
    let (_, c) ← load e p
    let e ← getPrev e p
    if e ≠ some (.elem h) then debugRing h p n e (out ++ [c.shown true]) else .ok (out ++ [c.shown true])

/-- `DebugOutput`, inl.h:991-1014: the calls of `DebugIterator`.  The text written around them is not
modelled. -/
def PCache.debugOutput (E : Env) (p : PCache β) : Res (List Shown) := do
  let out ← (tableOrder E p.table).foldlM (fun out i => do
    let (_, c) ← load (some (.elem i)) p
    .ok (out ++ [c.shown false])) []
  (E.order.ord Nat p.defer).foldlM (fun out x => debugRing x.2 p (p.nextId + 1) (some (.elem x.2)) out) out

end
end Ptr
end Verif.Lru
