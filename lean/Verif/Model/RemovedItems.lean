import Verif.Model.LruCache
/-
Model of `/repo/src/cache_removed_items_handler.h`: items removed from the cache are collected in a
stack buffer while the cache lock is held and handed to the flush callback afterwards.
The calls of the flush callback made by a method are part of the method's result; what the
callback does is up to the client (see `Model/Client.lean`).
-/
namespace Verif

/-- `stack_buffer_` (cache_removed_items_handler.h:130): null, or the items of the buffer it points to. -/
abbrev Slot (R : Type) := Option (List R)

/-- `StackBuffer::Add`, cache_removed_items_handler.h:93-98; `merge item old` is `MergeItem(item, &old)`, giving the new
contents of `old` if it returns true. -/
def bufferAdd {R : Type} (merge : R → R → Option R) (items : List R) (item : R) : List R :=
  match items.getLast? with
  | none => items ++ [item]
  | some old =>
    match merge item old with
    | none => items ++ [item]
    | some m => items.dropLast ++ [m]

/-- `AddRemovedItem`, cache_removed_items_handler.h:66-70. -/
def addRemovedItem {R : Type} (merge : R → R → Option R) (item : R) (s : Slot R) : Slot R :=
  s.map (fun items => bufferAdd merge items item)

/-- `MergeItem` of the base class, cache_removed_items_handler.h:76-78. -/
def noMerge {R : Type} (_ _ : R) : Option R := none

/-- `~StackBuffer` and `FlushOut`, cache_removed_items_handler.h:87-91 and 132-137: the calls of the flush callback. -/
def flushOut {R : Type} (callback : Bool) (items : List R) : List R := if callback then items else []

/-- The state of an aggregator: its cache (`cache_`, null if caching is disabled), the number of
clock readings so far, and whether a flush callback is set. -/
structure AggState (β : Type) where
  cache : Option (Lru.Cache β)
  tick : Nat
  callback : Bool
  deriving DecidableEq

/-- The pattern of every method that may remove entries, cache_removed_items_handler.h:41-48: a stack buffer, the cache
lock, the swapper; on return the swapper resets `stack_buffer_`, the lock is released and the
buffer is flushed.  `none` for methods called without a cache. -/
def withBuffer {R β α : Type} (s : AggState β) (noCache : α)
    (body : Lru.World (Slot R) β → Res (Lru.World (Slot R) β × α)) :
    Res (AggState β × α × List R) :=
  match s.cache with
  | none => .ok (s, noCache, [])
  | some c => do
    let (w, a) ← body { cache := c, tick := s.tick, ext := some [] }
    .ok ({ s with cache := some w.cache, tick := w.tick }, a, flushOut s.callback (w.ext.getD []))

/-- `InternalSetFlushCallback`, cache_removed_items_handler.h:61-64. -/
def AggState.setFlushCallback {β : Type} (s : AggState β) (b : Bool) : AggState β := { s with callback := b }

end Verif
