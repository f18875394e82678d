import Verif.Model.LruCache
/-
Histories of calls on a cache, and what a client can say about the cache from the history alone:
which pins it holds, which values it inserted, what it inserted last under a key, when a value
was last used.  None of this looks at the cache.
-/
namespace Verif.Lru

/-- The calls a client can make.  `Insert` is `InsertPinned` followed by `Release` (inl.h:366-369),
`ScopedLookup` is `lookup` followed by `release` (inl.h:248-277). -/
inductive Call (β : Type) where
  | insertPinned (k : Bytes) (p : Nat) (v : β) (units : Nat)
  | lookup (upd : Bool) (k : Bytes)
  | release (upd : Bool) (k : Bytes) (p : Nat)
  | remove (k : Bytes)
  | removeAll
  | removeUnpinned
  | clear
  | removeExpired
  | updateSize (k : Bytes) (p : Nat) (units : Nat)
  | setMaxSize (n : Int)
  | write (p : Nat) (v : β)

/-- A completed call: the pointer returned (by a lookup) and the clock at the call. -/
structure Event (β : Type) where
  call : Call β
  out : Option Nat
  time : Int

/-- Most recent event first. -/
abbrev Hist (β : Type) := List (Event β)

section
variable {β : Type}

/-- Number of pins the client holds on value `p` under key `k`. -/
def held (k : Bytes) (p : Nat) : Hist β → Int
  | [] => 0
  | ev :: h =>
    match ev.call with
    | .insertPinned k' p' _ _ => held k p h + if k' = k ∧ p' = p then 1 else 0
    | .lookup _ k' => held k p h + if k' = k ∧ ev.out = some p then 1 else 0
    | .release _ k' p' => held k p h - if k' = k ∧ p' = p then 1 else 0
    | _ => held k p h

/-- The values inserted so far. -/
def insertedPtrs : Hist β → List Nat
  | [] => []
  | ev :: h =>
    match ev.call with
    | .insertPinned _ p _ _ => p :: insertedPtrs h
    | _ => insertedPtrs h

/-- The value last inserted under `k`, unless `k` was removed since. -/
def current (k : Bytes) : Hist β → Option Nat
  | [] => none
  | ev :: h =>
    match ev.call with
    | .insertPinned k' p _ _ => if k' = k then some p else current k h
    | .remove k' => if k' = k then none else current k h
    | .removeAll => none
    | .clear => none
    | .removeUnpinned =>
      match current k h with
      | none => none
      | some p => if held k p h = 0 then none else some p
    | _ => current k h

/-- The key under which `p` was last inserted. -/
def keyOf (p : Nat) : Hist β → Option Bytes
  | [] => none
  | ev :: h =>
    match ev.call with
    | .insertPinned k p' _ _ => if p' = p then some k else keyOf p h
    | _ => keyOf p h

/-- The size of `p` as last announced. -/
def unitsOf (p : Nat) : Hist β → Nat
  | [] => 0
  | ev :: h =>
    match ev.call with
    | .insertPinned _ p' _ u => if p' = p then u else unitsOf p h
    | .updateSize k p' u => if p' = p ∧ keyOf p h = some k then u else unitsOf p h
    | _ => unitsOf p h

/-- Uses of a value: its insertion and, in LRU mode, every release. -/
def touches (lru : Bool) (p : Nat) (ev : Event β) : Bool :=
  match ev.call with
  | .insertPinned _ p' _ _ => p' == p
  | .release _ _ p' => lru && p' == p
  | _ => false

/-- Position in the history of the last use. -/
def stamp (lru : Bool) (p : Nat) : Hist β → Nat
  | [] => 0
  | ev :: h => if touches lru p ev then h.length + 1 else stamp lru p h

/-- Time of the last use. -/
def touchTime (lru : Bool) (p : Nat) : Hist β → Int
  | [] => 0
  | ev :: h => if touches lru p ev then ev.time else touchTime lru p h

/-- The pin protocol: insert only values the cache does not own (`deleted` is what was handed to
the deleter so far), release only pins that are held, write only to pinned values, `Clear` only
without pins, and in LRU mode do not use the option `update_eviction_order = false`. -/
def Legal (lru : Bool) (h : Hist β) (deleted : List Nat) : Call β → Prop
  | .insertPinned _ p _ _ => (insertedPtrs h).count p = deleted.count p
  | .lookup upd _ => lru = true → upd = true
  | .release upd k p => 0 < held k p h ∧ (lru = true → upd = true)
  | .write p _ => ∃ k, 0 < held k p h
  | .clear => ∀ k p, held k p h = 0
  | _ => True

/-- The deleter of the histories: it records the values it is given. -/
def logDel : Deleter (List Nat) β := fun e w => .ok { w with ext := w.ext ++ [e.ptr] }

/-- One call. -/
def step (E : Env) (c : Call β) (w : World (List Nat) β) :
    Res (World (List Nat) β × Option Nat) :=
  match c with
  | .insertPinned k p v u => (insertPinned E logDel k p v u w).map (·, none)
  | .lookup upd k => (lookup E logDel upd k w).map (fun r => (r.1, r.2.map (·.ptr)))
  | .release upd k p => (release E logDel upd k p w).map (·, none)
  | .remove k => (remove E logDel k w).map (·, none)
  | .removeAll => (removeAll E logDel w).map (·, none)
  | .removeUnpinned => (removeUnpinned E logDel w).map (·, none)
  | .clear => (clear E logDel w).map (·, none)
  | .removeExpired => (removeExpired E logDel w).map (·, none)
  | .updateSize k p u => (updateSize E logDel k (some p) u w).map (·, none)
  | .setMaxSize n => (setMaxSize E logDel n w).map (·, none)
  | .write p v => .ok (setVal p v w, none)

/-- Configuration: capacity, idle time (age) limit in cycles if any, eviction mode. -/
structure Config where
  maxUnits : Int
  limit : Option Nat
  lru : Bool

/-- The idle limit as the argument of `SetTimeout`. -/
def Config.cycles (cfg : Config) : Option Int :=
  match cfg.limit with
  | none => none
  | some n => some (Int.ofNat n)

/-- What a cache keeps about an entry. -/
structure Entry (β : Type) where
  key : Bytes
  ptr : Nat
  val : β
  units : Nat
  lastUse : Int

/-- The record of an element (fields of `SimpleLRUCacheElem`, inl.h:155-161). -/
def Elem.entry (e : Elem β) : Entry β := ⟨e.key, e.ptr, e.val, e.units, e.lastUse⟩

/-- The history of a client who inserted these entries, last one first, each at the time recorded in
it, and released each at once. -/
def reinserted : List (Entry β) → Hist β
  | [] => []
  | e :: l => { call := .release true e.key e.ptr, out := none, time := e.lastUse } ::
      { call := .insertPinned e.key e.ptr e.val e.units, out := none, time := e.lastUse } ::
      reinserted l

/-- By time `t` the idle limit of value `p` had passed. -/
def expiredAt (cfg : Config) (h : Hist β) (p : Nat) (t : Int) : Prop :=
  ∃ n, cfg.limit = some n ∧ touchTime cfg.lru p h + n < t

/-- Values that are pinned and were the last ones inserted with their key have not passed the limit of `cfg`,
or have also passed that of `cfg'`.  Nothing is asked of a cache in LRU mode. -/
def KeepsExpired (cfg cfg' : Config) (h : Hist β) : Prop :=
  cfg.lru = false → ∀ k p, current k h = some p → 0 < held k p h → ∀ ev ∈ h, expiredAt cfg h p ev.time →
    expiredAt cfg' h p ev.time

/-- The history after setting the limit: to set one removes what it makes expired. -/
def limited (cfg : Config) (now : Int) (h : Hist β) : Hist β :=
  match cfg.limit with
  | none => h
  | some _ => { call := .removeExpired, out := none, time := now } :: h

/-- `w` is reached from a new cache by the legal calls `h`.  The idle limit can be set anew without
changing the mode (`limit`).  While no pins are held it can be set anew, and if there was or will be
none the eviction mode too (`again`); from then on the cache is one of the new configuration into
which its entries were inserted as `reinserted` says, and the log of deleted values starts afresh. -/
inductive Reach (E : Env) : Config → Hist β → World (List Nat) β → Prop
  | init {cfg w} : setTimeout E logDel cfg.cycles cfg.lru
      { cache := Cache.new cfg.maxUnits, tick := 0, ext := [] } = .ok w → Reach E cfg [] w
  | call {cfg h w c w' out} : Reach E cfg h w → Legal cfg.lru h w.ext c →
      step E c w = .ok (w', out) →
      Reach E cfg ({ call := c, out := out, time := w.now E } :: h) w'
  | again {cfg cfg' h w w'} : Reach E cfg h w → (∀ k p, held k p h = 0) →
      (cfg.limit = none ∨ cfg'.limit = none ∨ cfg'.lru = cfg.lru) → cfg'.maxUnits = w.cache.maxUnits →
      setTimeout E logDel cfg'.cycles cfg'.lru { w with ext := [] } = .ok w' →
      Reach E cfg' (reinserted (w.cache.nodes.map Elem.entry)) w'
  | limit {cfg cfg' h w w'} : Reach E cfg h w → cfg'.lru = cfg.lru → cfg'.maxUnits = cfg.maxUnits →
      KeepsExpired cfg cfg' h → setTimeout E logDel cfg'.cycles cfg'.lru w = .ok w' →
      Reach E cfg' (limited cfg' (w.now E) h) w'

/-- The clock never goes backwards and starts at or after the epoch. -/
structure Mono (clk : Nat → Int) : Prop where
  nonneg : 0 ≤ clk 0
  step : ∀ i, clk i ≤ clk (i + 1)

/-- `MaxSize()`: what was configured last. -/
def maxSizeOf (cfg : Config) : Hist β → Int
  | [] => cfg.maxUnits
  | ev :: h =>
    match ev.call with
    | .setMaxSize n => n
    | _ => maxSizeOf cfg h

/-- Why a call may hand value `p` to the deleter: `size` is `Size()` before the call and `now` the
clock. -/
def Reason (cfg : Config) (h : Hist β) (size now : Int) : Call β → Nat → Prop
  | .insertPinned k _ _ u, p => current k h = some p ∨ maxSizeOf cfg h < size + u
  | .lookup _ _, p => expiredAt cfg h p now
  | .removeExpired, p => expiredAt cfg h p now
  | .release _ k q, p => p = q ∧ held k p h = 1 ∧
      (current k h ≠ some p ∨ maxSizeOf cfg h < size ∨
        (cfg.lru = false ∧ ∃ ev ∈ h, expiredAt cfg h p ev.time))
  | .remove k, p => current k h = some p
  | .updateSize _ _ u, _ => maxSizeOf cfg h < size + u
  | .setMaxSize n, _ => n < size
  | .removeAll, _ => True
  | .removeUnpinned, _ => True
  | .clear, _ => True
  | .write _ _, _ => False

/-- The value that a lookup of `k` would find, not counting expiry. -/
def present (w : World (List Nat) β) (k : Bytes) : Option Nat := (findKey k w.cache.nodes).map (·.ptr)

end
end Verif.Lru
