import Verif.Spec.LruCache
import Verif.Model.LruPointers
/-
Histories of the pointer-level cache, and walks along its chains.
-/
namespace Verif.Lru.Ptr

section
variable {β : Type}

/-- The deleter of the histories: it records the values it is given. -/
def logDel : PDeleter (List Nat) β := fun c w => .ok { w with ext := w.ext ++ [c.ptr] }

/-- One call. -/
def step (E : Env) (c : Call β) (w : PWorld (List Nat) β) : Res (PWorld (List Nat) β × Option Nat) :=
  match c with
  | .insertPinned k p v u => (insertPinned E logDel k p v u w).map (·, none)
  | .lookup upd k => lookup E logDel upd k w
  | .release upd k p => (release E logDel upd k p w).map (·, none)
  | .remove k => (remove E logDel k w).map (·, none)
  | .removeAll => (removeAll E logDel w).map (·, none)
  | .removeUnpinned => (removeUnpinned E logDel w).map (·, none)
  | .clear => (clear E logDel w).map (·, none)
  | .removeExpired => (removeExpired E logDel w).map (·, none)
  | .updateSize k p u => (updateSize E logDel k (some p) u w).map (·, none)
  | .setMaxSize n => (setMaxSize E logDel n w).map (·, none)
  | .write p v => .ok (setVal p v w, none)

/-- Following the field `f` from `a` visits the elements `l` in this order and then arrives at `b`. -/
def Walk (f : Loc → Option Loc) (b : Loc) : Loc → List Nat → Prop
  | a, [] => f a = some b
  | a, i :: l => f a = some (.elem i) ∧ Walk f b (.elem i) l

/-- The record of an element (fields of `SimpleLRUCacheElem`, inl.h:155-161). -/
def Cell.entry (c : Cell β) : Entry β := ⟨c.key, c.ptr, c.val, c.units, c.lastUse⟩

/-- `w` is reached from a new cache by the legal calls `h`; `again` and `limit` as for the cache with lists, the
entries being those on the main chain. -/
inductive Reach (E : Env) : Config → Hist β → PWorld (List Nat) β → Prop
  | init {cfg w} : setTimeout E logDel cfg.cycles cfg.lru
      { cache := PCache.new cfg.maxUnits, tick := 0, ext := [] } = .ok w → Reach E cfg [] w
  | call {cfg h w c w' out} : Reach E cfg h w → Legal cfg.lru h w.ext c →
      step E c w = .ok (w', out) →
      Reach E cfg ({ call := c, out := out, time := w.now E } :: h) w'
  | again {cfg cfg' h w w'} {ids : List Nat} {cells : List (Cell β)} : Reach E cfg h w →
      (∀ k p, held k p h = 0) → (cfg.limit = none ∨ cfg'.limit = none ∨ cfg'.lru = cfg.lru) →
      cfg'.maxUnits = w.cache.maxUnits →
      Walk w.cache.next .head .head ids → ids.map w.cache.cell = cells.map some →
      setTimeout E logDel cfg'.cycles cfg'.lru { w with ext := [] } = .ok w' →
      Reach E cfg' (reinserted (cells.map Cell.entry)) w'
  | limit {cfg cfg' h w w'} : Reach E cfg h w → cfg'.lru = cfg.lru → cfg'.maxUnits = cfg.maxUnits →
      KeepsExpired cfg cfg' h → setTimeout E logDel cfg'.cycles cfg'.lru w = .ok w' →
      Reach E cfg' (limited cfg' (w.now E) h) w'

/-- The elements that exist and hold the value `p`. -/
def holders (w : PWorld (List Nat) β) (p : Nat) : List Nat :=
  (List.range w.cache.nextId).filter (fun i => (w.cache.cell i).any (fun c => c.ptr == p))

/-- The value that a lookup of `k` would find, not counting expiry. -/
def present (w : PWorld (List Nat) β) (k : Bytes) : Option Nat :=
  ((assoc k w.cache.table).bind w.cache.cell).map (·.ptr)

end
end Verif.Lru.Ptr
