import Verif.Model.LruPointers
import Verif.Model.CheckAggregator
import Verif.Model.QuotaAggregator
/-
Pointer-level model of the aggregators (`/repo/src/{check,report,quota}_aggregator_impl.cc`): the
cached objects live on a heap of their own, the cache keeps only pointers to them
(`Model/LruPointers.lean`), and `new` and `delete` are explicit.  `Model/{Check,Report,Quota}Aggregator.lean`
describe the same code with the objects stored in the cache; `Props/AggregatorPointers.lean` proves
that the two agree.

Every access to an object goes through its pointer.  An access to an object that has been deleted,
and a second `delete`, is `Fault.useAfterFree`.

Simplifications: those of the models of the aggregators.  The address of a new object is the next
fresh address of the cache's elements; making an object at an address in use is `Fault.listCorrupt`.
Assignments through a pointer with no access to the cache in between are one assignment.
-/
namespace Verif
open Lru Lru.Ptr

/-- The objects an aggregator has made with `new` and not deleted (check_aggregator_impl.cc:197,
report_aggregator_impl.cc:111, quota_aggregator_impl.cc:140), and `stack_buffer_`
(cache_removed_items_handler.h:130). -/
structure Mem (R ν : Type) where
  heap : List (Nat × ν)
  slot : Slot R
  deriving DecidableEq

namespace Mem
variable {R ν : Type}

/-- Reading `*p`, as in check_aggregator_impl.cc:129, report_aggregator_impl.cc:133,
quota_aggregator_impl.cc:262. -/
def get (p : Nat) (m : Mem R ν) : Res ν :=
  match m.heap.find? (fun x => x.1 == p) with
  | some x => .ok x.2
  | none => .error .useAfterFree

/-- Assigning to `*p`, as in check_aggregator_impl.cc:136, quota_aggregator_impl.cc:267. -/
def put (p : Nat) (v : ν) (m : Mem R ν) : Res (Mem R ν) :=
  match m.heap.find? (fun x => x.1 == p) with
  | some _ => .ok { m with heap := m.heap.map (fun x => if x.1 == p then (p, v) else x) }
  | none => .error .useAfterFree

/-- `new`, as in check_aggregator_impl.cc:197, report_aggregator_impl.cc:111, quota_aggregator_impl.cc:140. -/
def alloc (p : Nat) (v : ν) (m : Mem R ν) : Res (Mem R ν) :=
  match m.heap.find? (fun x => x.1 == p) with
  | some _ => .error .listCorrupt
  | none => .ok { m with heap := (p, v) :: m.heap }

/-- `delete p`, as in check_aggregator_impl.cc:228, report_aggregator_impl.cc:133,
quota_aggregator_impl.cc:273. -/
def delete (p : Nat) (m : Mem R ν) : Res (Mem R ν) :=
  match m.heap.find? (fun x => x.1 == p) with
  | some _ => .ok { m with heap := m.heap.filter (fun x => !(x.1 == p)) }
  | none => .error .useAfterFree

/-- `AddRemovedItem`, cache_removed_items_handler.h:66-70. -/
def add (merge : R → R → Option R) (item : R) (m : Mem R ν) : Mem R ν :=
  { m with slot := addRemovedItem merge item m.slot }

end Mem

section
variable {R ν : Type}

/-- The world of an aggregator's cache (`cache_`, check_aggregator_impl.h:236, report_aggregator_impl.h:111,
quota_aggregator_impl.h:198), which keeps pointers only. -/
abbrev PAgg (R ν : Type) := PWorld (Mem R ν) Unit

/-- Reading through a pointer, see `Mem.get` (quota_aggregator_impl.cc:262). -/
def PAgg.get (p : Nat) (w : PAgg R ν) : Res ν := w.ext.get p
/-- Writing through a pointer, see `Mem.put` (quota_aggregator_impl.cc:267). -/
def PAgg.put (p : Nat) (v : ν) (w : PAgg R ν) : Res (PAgg R ν) := do
  let m ← w.ext.put p v
  .ok { w with ext := m }
/-- `new`, see `Mem.alloc` (quota_aggregator_impl.cc:140): the pointer and the world. -/
def PAgg.alloc (v : ν) (w : PAgg R ν) : Res (PAgg R ν × Nat) := do
  let m ← w.ext.alloc w.cache.nextId v
  .ok ({ w with ext := m }, w.cache.nextId)
/-- `delete`, see `Mem.delete` (quota_aggregator_impl.cc:273). -/
def PAgg.delete (p : Nat) (w : PAgg R ν) : Res (PAgg R ν) := do
  let m ← w.ext.delete p
  .ok { w with ext := m }
/-- `AddRemovedItem`, cache_removed_items_handler.h:66-70. -/
def PAgg.add (merge : R → R → Option R) (item : R) (w : PAgg R ν) : PAgg R ν :=
  { w with ext := w.ext.add merge item }

/-- The state of an aggregator, as `AggState` (cache_removed_items_handler.h:118-130), with the objects it has made. -/
structure PAggState (ν : Type) where
  cache : Option (PCache Unit)
  heap : List (Nat × ν)
  tick : Nat
  callback : Bool

/-- As `withBuffer` (cache_removed_items_handler.h:41-48). -/
def withBufferP {α : Type} (s : PAggState ν) (noCache : α) (body : PAgg R ν → Res (PAgg R ν × α)) :
    Res (PAggState ν × α × List R) :=
  match s.cache with
  | none => .ok (s, noCache, [])
  | some c => do
    let (w, a) ← body { cache := c, tick := s.tick, ext := ⟨s.heap, some []⟩ }
    .ok ({ s with cache := some w.cache, heap := w.ext.heap, tick := w.tick }, a,
      flushOut s.callback (w.ext.slot.getD []))

/-- `InternalSetFlushCallback`, cache_removed_items_handler.h:61-64. -/
def PAggState.setFlushCallback (s : PAggState ν) (b : Bool) : PAggState ν := { s with callback := b }

/-- `Insert`, inl.h:366-369. -/
def insertP {σ β : Type} (E : Env) (del : PDeleter σ β) (k : Bytes) (v : Nat) (x : β) (units : Nat)
    (w : PWorld σ β) : Res (PWorld σ β) := do
  let w ← Ptr.insertPinned E del k v x units w
  Ptr.release E del true k v w

/-- The cache a constructor makes (check_aggregator_impl.cc:68-74, report_aggregator_impl.cc:57-65,
quota_aggregator_impl.cc:75-81). -/
def newP (E : Env) (cfg : AggConfig) (del : PDeleter (Mem R ν) Unit) (ms : Int) (lru : Bool) : Res (PAggState ν) :=
  if cfg.numEntries > 0 then do
    let w ← Ptr.setTimeout E del (cfg.timeout ms) lru
      { cache := PCache.new cfg.numEntries, tick := 0, ext := ⟨[], none⟩ }
    .ok { cache := some w.cache, heap := w.ext.heap, tick := w.tick, callback := false }
  else .ok { cache := none, heap := [], tick := 0, callback := false }
end

/-! ### Check -/
namespace Check
variable {D : Type} [DoubleOps D]

/-- The world of the check aggregator's cache (check_aggregator_impl.h:236). -/
abbrev PW (D : Type) := PAgg (CheckRequest D) (Elem D)

/-- `OnCacheEntryDelete`, check_aggregator_impl.cc:226-236. -/
def pOnDelete (cfg : AggConfig) : PDeleter (Mem (CheckRequest D) (Elem D)) Unit := fun c w => do
  let v ← PAgg.get c.ptr w
  match v.agg with
  | none => PAgg.delete c.ptr w
  | some _ => do
    -- `ReturnCheckRequestAndClear`, check_aggregator_impl.cc:44-55
    let w ← PAgg.put c.ptr { v with agg := none } w
    PAgg.delete c.ptr (PAgg.add noMerge (v.returnRequest cfg) w)

/-- Constructor, check_aggregator_impl.cc:57-75. -/
def pNew (E : Env) (cfg : AggConfig) : Res (PAggState (Elem D)) :=
  newP E cfg (pOnDelete cfg) cfg.expirationMs true

/-- `Check`, check_aggregator_impl.cc:90-164. -/
def pCheck (E : Env) (cfg : AggConfig) (r : CheckRequest D) (s : PAggState (Elem D)) :
    Res (PAggState (Elem D) × Out × List (CheckRequest D)) :=
  if r.serviceName ≠ cfg.serviceName then .ok (s, ⟨.invalidArgument, none⟩, [])
  else match r.operation with
  | none => .ok (s, ⟨.invalidArgument, none⟩, [])
  | some o =>
    if o.importance ≠ importanceLow || s.cache.isNone then .ok (s, ⟨.notFound, none⟩, [])
    else withBufferP s ⟨.notFound, none⟩ fun w => do
      let sig := checkRequestSig cfg.H r
      let (w, found) ← Ptr.lookup E (pOnDelete cfg) true sig w
      match found with
      | none => .ok (w, ⟨.notFound, none⟩)
      | some p => do
        let v ← PAgg.get p w
        let (v, t, out) ← checkElem E cfg o v w.tick
        let w ← PAgg.put p v w
        let w ← Ptr.release E (pOnDelete cfg) true sig p { w with tick := t }
        .ok (w, out)

/-- `CacheResponse`, check_aggregator_impl.cc:177-203. -/
def pCacheResponse (E : Env) (cfg : AggConfig) (r : CheckRequest D) (resp : CheckResponse)
    (s : PAggState (Elem D)) : Res (PAggState (Elem D) × Out × List (CheckRequest D)) :=
  withBufferP s ⟨.ok, none⟩ fun w => do
    let sig := checkRequestSig cfg.H r
    let (w, found) ← Ptr.lookup E (pOnDelete cfg) true sig w
    let now := E.clk w.tick
    let w := w.ticked
    match found with
    | some p => do
      let v ← PAgg.get p w
      let w ← PAgg.put p { v with lastCheck := now, response := resp, quotaScale := 0, isFlushing := false } w
      let w ← Ptr.release E (pOnDelete cfg) true sig p w
      .ok (w, ⟨.ok, none⟩)
    | none => do
      let (w, p) ← PAgg.alloc ⟨resp, now, 0, false, none⟩ w
      let w ← insertP E (pOnDelete cfg) sig p () 1 w
      .ok (w, ⟨.ok, none⟩)

/-- `Flush`, check_aggregator_impl.cc:214-224. -/
def pFlush (E : Env) (cfg : AggConfig) (s : PAggState (Elem D)) :
    Res (PAggState (Elem D) × Out × List (CheckRequest D)) :=
  withBufferP s ⟨.ok, none⟩ fun w => do
    let w ← Ptr.removeExpired E (pOnDelete cfg) w
    .ok (w, ⟨.ok, none⟩)

/-- `FlushAll`, check_aggregator_impl.cc:240-250. -/
def pFlushAll (E : Env) (cfg : AggConfig) (s : PAggState (Elem D)) :
    Res (PAggState (Elem D) × Out × List (CheckRequest D)) :=
  withBufferP s ⟨.ok, none⟩ fun w => do
    let w ← Ptr.removeAll E (pOnDelete cfg) w
    .ok (w, ⟨.ok, none⟩)

end Check

/-! ### Report -/
namespace Report
variable {D : Type} [DoubleOps D]

/-- The world of the report aggregator's cache (report_aggregator_impl.h:111). -/
abbrev PW (D : Type) := PAgg (ReportRequest D) (OpAgg D)

/-- `OnCacheEntryDelete`, report_aggregator_impl.cc:124-136. -/
def pOnDelete (cfg : AggConfig) : PDeleter (Mem (ReportRequest D) (OpAgg D)) Unit := fun c w => do
  let v ← PAgg.get c.ptr w
  let request : ReportRequest D := ⟨cfg.serviceName, [v.toProto cfg.U], cfg.serviceConfigId⟩
  let w ← PAgg.delete c.ptr w
  .ok (PAgg.add mergeItem request w)

/-- Constructor, report_aggregator_impl.cc:51-66. -/
def pNew (E : Env) (cfg : AggConfig) : Res (PAggState (OpAgg D)) :=
  newP E cfg (pOnDelete cfg) cfg.flushMs false

/-- The body of the loop of `Report`, report_aggregator_impl.cc:100-120. -/
def pReportOp (E : Env) (cfg : AggConfig) (w : PW D) (o : Operation D) : Res (PW D) := do
  let sig := reportOperationSig cfg.H o
  let (w, found) ← Ptr.lookup E (pOnDelete cfg) true sig w
  match found with
  | some p => do
    let v ← PAgg.get p w
    let a ← v.mergeOperation cfg.H cfg.kinds o
    let w ← PAgg.put p a w
    let big ← PAgg.get p w
    let w ← Ptr.release E (pOnDelete cfg) true sig p w
    if big.tooBig then Ptr.remove E (pOnDelete cfg) sig w else .ok w
  | none => do
    let a ← OpAgg.new cfg.H cfg.kinds o
    let (w, p) ← PAgg.alloc a w
    insertP E (pOnDelete cfg) sig p () 1 w

/-- `Report`, report_aggregator_impl.cc:82-122. -/
def pReport (E : Env) (cfg : AggConfig) (r : ReportRequest D) (s : PAggState (OpAgg D)) :
    Res (PAggState (OpAgg D) × Status × List (ReportRequest D)) :=
  if r.serviceName ≠ cfg.serviceName then .ok (s, .invalidArgument, [])
  else if hasHighImportant r || s.cache.isNone then .ok (s, .notFound, [])
  else withBufferP s .notFound fun w => do
    let w ← r.operations.foldlM (pReportOp E cfg) w
    .ok (w, .ok)

/-- `Flush`, report_aggregator_impl.cc:158-167. -/
def pFlush (E : Env) (cfg : AggConfig) (s : PAggState (OpAgg D)) :
    Res (PAggState (OpAgg D) × Status × List (ReportRequest D)) :=
  withBufferP s .ok fun w => do
    let w ← Ptr.removeExpired E (pOnDelete cfg) w
    .ok (w, .ok)

/-- `FlushAll`, report_aggregator_impl.cc:171-180. -/
def pFlushAll (E : Env) (cfg : AggConfig) (s : PAggState (OpAgg D)) :
    Res (PAggState (OpAgg D) × Status × List (ReportRequest D)) :=
  withBufferP s .ok fun w => do
    let w ← Ptr.removeAll E (pOnDelete cfg) w
    .ok (w, .ok)

end Report

/-! ### Quota -/
namespace Quota
variable {D : Type}

/-- The world of the quota aggregator's cache (quota_aggregator_impl.h:198). -/
abbrev PW (D : Type) := PAgg (AllocateQuotaRequest D) (Elem D)

/-- `OnCacheEntryDelete`, quota_aggregator_impl.cc:261-275; `inAll` is `in_flush_all_`. -/
def pOnDelete (E : Env) (cfg : AggConfig) (inAll : Bool) :
    Nat → PDeleter (Mem (AllocateQuotaRequest D) (Elem D)) Unit
  | 0 => fun _ _ => .error .outOfFuel
  | depth + 1 => fun c w =>
    if inAll then PAgg.delete c.ptr w
    else do
      let v ← PAgg.get c.ptr w
      if shouldDrop E cfg v w.tick then PAgg.delete c.ptr w.ticked
      else do
        let w ← insertP E (pOnDelete E cfg inAll depth) v.sig c.ptr () 1 w.ticked
        let v ← PAgg.get c.ptr w
        if v.inFlight = false ∧ v.agg.isSome = true then do
          let (request, v') := { v with inFlight := true, lastRefresh := E.clk w.tick }.returnRequest cfg
          let w ← PAgg.put c.ptr v' w.ticked
          .ok (PAgg.add noMerge request w)
        else .ok w

/-- The state of a quota aggregator, quota_aggregator_impl.h:187-206. -/
structure PState (D : Type) where
  base : PAggState (Elem D)
  /-- `in_flush_all_` -/
  inFlushAll : Bool

/-- Constructor, quota_aggregator_impl.cc:69-88. -/
def pNew (E : Env) (cfg : AggConfig) (depth : Nat) : Res (PState D) := do
  let b ← newP E cfg (pOnDelete E cfg false depth) cfg.flushMs false
  .ok ⟨b, false⟩

/-- `Quota`, quota_aggregator_impl.cc:107-182. -/
def pQuota (E : Env) (cfg : AggConfig) (depth : Nat) (r : AllocateQuotaRequest D) (s : PState D) :
    Res (PState D × Out × List (AllocateQuotaRequest D)) :=
  if r.serviceName ≠ cfg.serviceName then .ok (s, ⟨.invalidArgument, none⟩, [])
  else if r.allocateOperation = none then .ok (s, ⟨.invalidArgument, none⟩, [])
  else do
    let (b, out, fl) ← withBufferP s.base ⟨.notFound, none⟩ fun w => do
      let del := pOnDelete E cfg s.inFlushAll depth
      let sig := allocateQuotaSig cfg.H r
      let (w, found) ← Ptr.lookup E del true sig w
      match found with
      | none => do
        let (w, p) ← PAgg.alloc ⟨r, .default, sig, E.clk w.tick, true, none⟩ w.ticked
        let w ← insertP E del sig p () 1 w
        let w := PAgg.add noMerge r w
        let v ← PAgg.get p w
        .ok (w, ⟨.ok, some v.response⟩)
      | some p => do
        let v ← PAgg.get p w
        let (v, t, qs) := refresh E cfg v w.tick
        let w := { w with ext := qs.foldl (fun m q => m.add noMerge q) w.ext }
        let v ← if v.positive then v.aggregate E r else .ok v
        let w ← PAgg.put p v w
        let w ← Ptr.release E del true sig p { w with tick := t }
        .ok (w, ⟨.ok, some v.response⟩)
    .ok (⟨b, s.inFlushAll⟩, out, fl)

/-- `CacheResponse`, quota_aggregator_impl.cc:185-206. -/
def pCacheResponse (E : Env) (cfg : AggConfig) (depth : Nat) (r : AllocateQuotaRequest D)
    (resp : AllocateQuotaResponse) (s : PState D) : Res (PState D × Out × List (AllocateQuotaRequest D)) := do
  let (b, out, fl) ← withBufferP s.base ⟨.ok, none⟩ fun w => do
    let del := pOnDelete E cfg s.inFlushAll depth
    let sig := allocateQuotaSig cfg.H r
    let (w, found) ← Ptr.lookup E del true sig w
    match found with
    | none => .ok (w, ⟨.ok, none⟩)
    | some p => do
      let v ← PAgg.get p w
      let w ← PAgg.put p ({ v with inFlight := false }.setResponse resp) w
      let w ← Ptr.release E del true sig p w
      .ok (w, ⟨.ok, none⟩)
  .ok (⟨b, s.inFlushAll⟩, out, fl)

/-- `Flush`, quota_aggregator_impl.cc:229-240. -/
def pFlush (E : Env) (cfg : AggConfig) (depth : Nat) (s : PState D) :
    Res (PState D × Out × List (AllocateQuotaRequest D)) := do
  let (b, out, fl) ← withBufferP s.base ⟨.ok, none⟩ fun w => do
    let w ← Ptr.removeExpired E (pOnDelete E cfg s.inFlushAll depth) w
    .ok (w, ⟨.ok, none⟩)
  .ok (⟨b, s.inFlushAll⟩, out, fl)

/-- `FlushAll`, quota_aggregator_impl.cc:244-257. -/
def pFlushAll (E : Env) (cfg : AggConfig) (depth : Nat) (s : PState D) :
    Res (PState D × Out × List (AllocateQuotaRequest D)) := do
  let (b, out, fl) ← withBufferP s.base ⟨.ok, none⟩ fun w => do
    let w ← Ptr.removeAll E (pOnDelete E cfg true depth) w
    .ok (w, ⟨.ok, none⟩)
  .ok (⟨b, true⟩, out, fl)

end Quota
end Verif
