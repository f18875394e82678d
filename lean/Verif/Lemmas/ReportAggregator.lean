import Verif.Lemmas.LruQuiet
import Verif.Props.OperationAggregator
import Verif.Spec.ReportAggregator
/-
The report aggregator keeps, for every cached signature, the aggregate of a group of accepted
operations.
-/
set_option linter.unusedSectionVars false

namespace Verif.Report
open Lru

variable {D : Type} [DoubleOps D]

/-- What a deleted entry adds to the buffer. -/
def addDel (cfg : AggConfig) (v : OpAgg D) (s : Slot (ReportRequest D)) : Slot (ReportRequest D) :=
  addRemovedItem mergeItem ⟨cfg.serviceName, [v.toProto cfg.U], cfg.serviceConfigId⟩ s

theorem onDelete_eq (cfg : AggConfig) : onDelete (D := D) cfg = valDel (addDel cfg) := rfl

/-- A well-formed buffer. -/
def Wf (cfg : AggConfig) (items : List (ReportRequest D)) : Prop :=
  ∀ r ∈ items, r.serviceName = cfg.serviceName ∧ r.serviceConfigId = cfg.serviceConfigId ∧
    1 ≤ r.operations.length ∧ r.operations.length ≤ 10

def itemOps (items : List (ReportRequest D)) : List (Operation D) := items.flatMap (·.operations)

theorem bufferAdd_spec (cfg : AggConfig) (items : List (ReportRequest D)) (o : Operation D) (hw : Wf cfg items) :
    Wf cfg (bufferAdd mergeItem items ⟨cfg.serviceName, [o], cfg.serviceConfigId⟩) ∧
    itemOps (bufferAdd mergeItem items ⟨cfg.serviceName, [o], cfg.serviceConfigId⟩) = itemOps items ++ [o] := by
  have happ : Wf cfg (items ++ [(⟨cfg.serviceName, [o], cfg.serviceConfigId⟩ : ReportRequest D)]) := by
    intro r hr
    simp only [List.mem_append, List.mem_singleton] at hr
    rcases hr with h | rfl
    · exact hw r h
    · simp
  unfold bufferAdd
  cases hl : items.getLast? with
  | none => exact ⟨happ, by simp [itemOps]⟩
  | some old =>
    have hne : items ≠ [] := by intro h; rw [h] at hl; cases hl
    rw [List.getLast?_eq_some_getLast hne] at hl
    have hold : items.getLast hne = old := by simpa using hl
    have hsplit := List.dropLast_append_getLast hne
    rw [hold] at hsplit
    have hwo := hw old (by rw [← hold]; exact List.getLast_mem hne)
    simp only
    cases hm : mergeItem (⟨cfg.serviceName, [o], cfg.serviceConfigId⟩ : ReportRequest D) old with
    | none => exact ⟨happ, by simp [itemOps]⟩
    | some m =>
      unfold mergeItem at hm
      split at hm
      · cases hm
      · rename_i hno
        cases hm
        simp only [kMaxOperationsToSend, List.length_cons, List.length_nil, not_or, Nat.not_lt] at hno
        refine ⟨?_, ?_⟩
        · intro r hr
          simp only [List.mem_append, List.mem_singleton] at hr
          rcases hr with h | rfl
          · exact hw r ((List.dropLast_sublist _).subset h)
          · refine ⟨?_, ?_, ?_, ?_⟩
            · simp only; split
              · rename_i h; rw [hwo.1]
              · rfl
            · simp only; split
              · rw [hwo.2.1]
              · rfl
            · simp
            · simp only [List.length_append, List.length_cons, List.length_nil]; omega
        · unfold itemOps
          conv => rhs; rw [← hsplit]
          simp [List.flatMap_append]

theorem outOf_spec (cfg : AggConfig) (G : List (Ent (OpAgg D))) : ∀ (items : List (ReportRequest D)), Wf cfg items →
    ∃ items', outOf (addDel cfg) G (some items) = some items' ∧ Wf cfg items' ∧
      itemOps items' = itemOps items ++ G.map (fun x => x.val.toProto cfg.U) := by
  induction G with
  | nil => intro items hw; exact ⟨items, rfl, hw, by simp⟩
  | cons x G ih =>
    intro items hw
    obtain ⟨h1, h2⟩ := bufferAdd_spec cfg items (x.val.toProto cfg.U) hw
    obtain ⟨items', h3, h4, h5⟩ := ih _ h1
    refine ⟨items', h3, h4, ?_⟩
    rw [h5, h2]
    simp

/-- The entry holds the aggregate of the group. -/
structure EntOk (clk : Nat → Int) (cfg : AggConfig) (x : Ent (OpAgg D)) (g : List (Arrival D)) : Prop where
  sum : ∃ m ms, g = m :: ms ∧ OpAgg.aggregate cfg.H cfg.kinds m.op (ms.map (·.op)) = .ok x.val ∧
    x.used = clk m.tick
  sigs : ∀ m ∈ g, reportOperationSig cfg.H m.op = x.key
  small : 2 ≤ g.length → x.val.tooBig = false

structure GI (clk : Nat → Int) (cfg : AggConfig) (arr : List (Arrival D)) (out : List (Group D))
    (outOps : List (Operation D)) (grp : Bytes → List (Arrival D)) (L : List (Ent (OpAgg D))) : Prop where
  sums : List.Forall₂ (Group.Sum cfg) out outOps
  ent : ∀ x ∈ L, EntOk clk cfg x (grp x.key)
  absent : ∀ k, (∀ x ∈ L, x.key ≠ k) → grp k = []
  split : ∀ k, arr.filter (fun a => reportOperationSig cfg.H a.op == k) =
    (out.filter (·.sig == k)).flatMap (·.members) ++ grp k

theorem EntOk.toSum {E : Env} {cfg : AggConfig} {x : Ent (OpAgg D)} {g : List (Arrival D)}
    (h : EntOk E.clk cfg x g) : Group.Sum cfg ⟨x.key, g⟩ (x.val.toProto cfg.U) := by
  obtain ⟨m, ms, hg, ha, _⟩ := h.sum
  refine ⟨m.op, ms.map (·.op), x.val, ?_, ha, rfl, h.sigs⟩
  simp [Group.ops, hg]

theorem GI.nil (E : Env) (cfg : AggConfig) : GI (D := D) E.clk cfg [] [] [] (fun _ => []) [] :=
  ⟨.nil, by simp, by simp, by simp⟩

theorem GI.congr {E : Env} {cfg : AggConfig} {arr : List (Arrival D)} {out : List (Group D)}
    {outOps : List (Operation D)} {grp : Bytes → List (Arrival D)} {L L' : List (Ent (OpAgg D))}
    (h : GI E.clk cfg arr out outOps grp L) (hL : ∀ x, x ∈ L' ↔ x ∈ L) : GI E.clk cfg arr out outOps grp L' :=
  ⟨h.sums, fun x hx => h.ent x ((hL x).mp hx), fun k hk => h.absent k (fun x hx => hk x ((hL x).mpr hx)), h.split⟩

def upd (grp : Bytes → List (Arrival D)) (k : Bytes) (g : List (Arrival D)) : Bytes → List (Arrival D) :=
  fun k' => if k' = k then g else grp k'

theorem GI.evict1 {E : Env} {cfg : AggConfig} {arr : List (Arrival D)} {out : List (Group D)}
    {outOps : List (Operation D)} {grp : Bytes → List (Arrival D)} {x : Ent (OpAgg D)} {K : List (Ent (OpAgg D))}
    (h : GI E.clk cfg arr out outOps grp (x :: K)) (hk : ((x :: K).map (·.key)).Nodup) :
    GI E.clk cfg arr (out ++ [⟨x.key, grp x.key⟩]) (outOps ++ [x.val.toProto cfg.U]) (upd grp x.key []) K := by
  simp only [List.map_cons, List.nodup_cons, List.mem_map, not_exists, not_and] at hk
  refine ⟨?_, ?_, ?_, ?_⟩
  · exact List.rel_append h.sums (.cons (h.ent x (by simp)).toSum .nil)
  · intro y hy
    have : y.key ≠ x.key := fun e => hk.1 y hy e
    simp only [upd, this, if_false]
    exact h.ent y (by simp [hy])
  · intro k hkk
    unfold upd
    split
    · rfl
    · rename_i hne
      refine h.absent k ?_
      intro y hy
      rcases List.mem_cons.mp hy with rfl | hy
      · exact fun e => hne e.symm
      · exact hkk y hy
  · intro k
    rw [h.split k]
    unfold upd
    by_cases hkx : k = x.key
    · subst hkx; simp
    · have : (x.key == k) = false := by simp [Ne.symm hkx]
      simp [hkx, this]

theorem GI.evict {E : Env} {cfg : AggConfig} {arr : List (Arrival D)} (G : List (Ent (OpAgg D))) :
    ∀ {out : List (Group D)} {outOps : List (Operation D)} {grp : Bytes → List (Arrival D)}
    {L K : List (Ent (OpAgg D))}, GI E.clk cfg arr out outOps grp L → (L.map (·.key)).Nodup → (G ++ K).Perm L →
    ∃ grp', GI E.clk cfg arr (out ++ G.map (fun x => ⟨x.key, grp x.key⟩))
      (outOps ++ G.map (fun x => x.val.toProto cfg.U)) grp' K := by
  induction G with
  | nil =>
    intro out outOps grp L K h _ hp
    exact ⟨grp, by simpa using h.congr (fun x => hp.mem_iff)⟩
  | cons x G ih =>
    intro out outOps grp L K h hk hp
    have h1 : GI E.clk cfg arr out outOps grp (x :: (G ++ K)) := h.congr (fun y => hp.mem_iff)
    have hk1 : ((x :: (G ++ K)).map (·.key)).Nodup := ((hp.map _).nodup_iff).mpr hk
    have h2 := h1.evict1 hk1
    have hk2 : ((G ++ K).map (·.key)).Nodup := by
      simp only [List.map_cons, List.nodup_cons] at hk1; exact hk1.2
    obtain ⟨grp', h3⟩ := ih h2 hk2 (List.Perm.refl _)
    refine ⟨grp', ?_⟩
    have hsame : G.map (fun y => (⟨y.key, upd grp x.key [] y.key⟩ : Group D)) =
        G.map (fun y => ⟨y.key, grp y.key⟩) := by
      apply List.map_congr_left
      intro y hy
      have : y.key ≠ x.key := by
        intro e
        simp only [List.map_cons, List.nodup_cons, List.mem_map, not_exists, not_and] at hk1
        exact hk1.1 y (by simp [hy]) e
      simp [upd, this]
    rw [hsame] at h3
    simpa using h3

theorem GI.new {E : Env} {cfg : AggConfig} {arr : List (Arrival D)} {out : List (Group D)}
    {outOps : List (Operation D)} {grp : Bytes → List (Arrival D)} {L : List (Ent (OpAgg D))}
    (h : GI E.clk cfg arr out outOps grp L) (o : Operation D) (a : OpAgg D) (i : Nat)
    (hn : ∀ x ∈ L, x.key ≠ reportOperationSig cfg.H o) (ha : OpAgg.new cfg.H cfg.kinds o = .ok a) :
    GI E.clk cfg (arr ++ [⟨o, i⟩]) out outOps (upd grp (reportOperationSig cfg.H o) [⟨o, i⟩])
      (⟨reportOperationSig cfg.H o, a, E.clk i⟩ :: L) := by
  refine ⟨h.sums, ?_, ?_, ?_⟩
  · intro x hx
    rcases List.mem_cons.mp hx with rfl | hx
    · refine ⟨⟨⟨o, i⟩, [], by simp [upd], ?_, rfl⟩, ?_, ?_⟩
      · simp only [OpAgg.aggregate, ha, List.map_nil, bind, Except.bind, List.foldlM_nil]; rfl
      · intro m hm; simp [upd] at hm; rw [hm]
      · simp [upd]
    · simp only [upd, hn x hx, if_false]; exact h.ent x hx
  · intro k hk
    have h1 : k ≠ reportOperationSig cfg.H o := fun e => hk _ List.mem_cons_self e.symm
    simp only [upd, h1, if_false]
    exact h.absent k (fun x hx => hk x (by simp [hx]))
  · intro k
    rw [List.filter_append, h.split k]
    by_cases hk : reportOperationSig cfg.H o = k
    · subst hk
      simp [upd, h.absent _ hn]
    · simp [upd, Ne.symm hk, hk]

theorem GI.merge {E : Env} {cfg : AggConfig} {arr : List (Arrival D)} {out : List (Group D)}
    {outOps : List (Operation D)} {grp : Bytes → List (Arrival D)} {L : List (Ent (OpAgg D))}
    (h : GI E.clk cfg arr out outOps grp L) (hk : (L.map (·.key)).Nodup) (o : Operation D) (a : OpAgg D) (i : Nat) (now : Int)
    (x : Ent (OpAgg D)) (hx : x ∈ L) (hkx : x.key = reportOperationSig cfg.H o)
    (ha : x.val.mergeOperation cfg.H cfg.kinds o = .ok a) (hbig : a.tooBig = false) :
    GI E.clk cfg (arr ++ [⟨o, i⟩]) out outOps
      (upd grp (reportOperationSig cfg.H o) (grp (reportOperationSig cfg.H o) ++ [⟨o, i⟩]))
      (putL false (reportOperationSig cfg.H o) a now L) := by
  refine ⟨h.sums, ?_, ?_, ?_⟩
  · intro y hy
    unfold putL at hy
    simp only [Bool.false_eq_true, if_false, List.mem_map] at hy
    obtain ⟨z, hz, rfl⟩ := hy
    by_cases hzk : z.key = reportOperationSig cfg.H o
    · have hzx : z = x := by
        have h1 := (findL_some hk (k := reportOperationSig cfg.H o)).mpr ⟨hz, hzk⟩
        have h2 := (findL_some hk (k := reportOperationSig cfg.H o)).mpr ⟨hx, hkx⟩
        rw [h1] at h2; exact Option.some.inj h2
      subst hzx
      simp only [hzk, beq_self_eq_true, if_true]
      obtain ⟨⟨m, ms, hg, hagg, hu⟩, hs, _⟩ := h.ent z hz
      rw [hzk] at hg hs
      refine ⟨⟨m, ms ++ [⟨o, i⟩], ?_, ?_, hu⟩, ?_, fun _ => hbig⟩
      · simp [upd, hg]
      · rw [List.map_append]
        rw [show List.map (fun a : Arrival D => a.op) [⟨o, i⟩] = [o] from rfl, aggregate_snoc, hagg]
        exact ha
      · intro y hy
        simp only [upd, if_true, List.mem_append, List.mem_singleton] at hy
        rcases hy with h' | rfl
        · exact hs y h'
        · rfl
    · simp only [beq_iff_eq, hzk, if_false]
      simp only [upd, hzk, if_false]
      exact h.ent z hz
  · intro k hkk
    have h1 : k ≠ reportOperationSig cfg.H o := by
      intro e
      refine hkk { x with val := a } ?_ (hkx.trans e.symm)
      unfold putL
      simp only [Bool.false_eq_true, if_false, List.mem_map]
      exact ⟨x, hx, by simp [hkx]⟩
    simp only [upd, h1, if_false]
    refine h.absent k (fun y hy e => ?_)
    refine hkk (if y.key == reportOperationSig cfg.H o then { y with val := a } else y) ?_ ?_
    · unfold putL
      simp only [Bool.false_eq_true, if_false, List.mem_map]
      exact ⟨y, hy, rfl⟩
    · split <;> exact e
  · intro k
    rw [List.filter_append, h.split k]
    by_cases hk : reportOperationSig cfg.H o = k
    · subst hk
      simp [upd]
    · simp [upd, Ne.symm hk, hk]

/-- The same when the merged entry leaves the cache at once. -/
theorem GI.mergeOut {E : Env} {cfg : AggConfig} {arr : List (Arrival D)} {out : List (Group D)}
    {outOps : List (Operation D)} {grp : Bytes → List (Arrival D)} {L : List (Ent (OpAgg D))}
    (h : GI E.clk cfg arr out outOps grp L) (o : Operation D) (a : OpAgg D) (i : Nat)
    (x : Ent (OpAgg D)) (hx : x ∈ L) (hkx : x.key = reportOperationSig cfg.H o)
    (ha : x.val.mergeOperation cfg.H cfg.kinds o = .ok a) :
    GI E.clk cfg (arr ++ [⟨o, i⟩]) (out ++ [⟨x.key, grp x.key ++ [⟨o, i⟩]⟩]) (outOps ++ [a.toProto cfg.U])
      (upd grp x.key []) (L.filter (fun y => !(y.key == reportOperationSig cfg.H o))) := by
  refine ⟨?_, ?_, ?_, ?_⟩
  · refine List.rel_append h.sums (.cons ?_ .nil)
    obtain ⟨⟨m, ms, hg, hagg, hu⟩, hs, _⟩ := h.ent x hx
    refine ⟨m.op, ms.map (·.op) ++ [o], a, ?_, ?_, rfl, ?_⟩
    · simp [Group.ops, hg]
    · rw [aggregate_snoc, hagg]; exact ha
    · intro y hy
      simp only [List.mem_append, List.mem_singleton] at hy
      rcases hy with h' | rfl
      · exact hs y h'
      · exact hkx.symm
  · intro y hy
    simp only [List.mem_filter, Bool.not_eq_true', beq_eq_false_iff_ne, ne_eq] at hy
    simp only [upd, hkx, hy.2, if_false]
    exact h.ent y hy.1
  · intro k hkk
    unfold upd
    split
    · rfl
    · rename_i hne
      refine h.absent k (fun y hy e => ?_)
      refine hkk y ?_ e
      simp only [List.mem_filter, Bool.not_eq_true', beq_eq_false_iff_ne, ne_eq]
      exact ⟨hy, fun e' => hne (by rw [← e, e', hkx])⟩
  · intro k
    rw [List.filter_append, h.split k]
    by_cases hk : reportOperationSig cfg.H o = k
    · subst hk
      simp [upd, hkx]
    · have : (x.key == k) = false := by rw [hkx]; simp [hk]
      simp [upd, hkx, Ne.symm hk, hk]

/-! ### One operation -/

theorem merge_error {cfg : AggConfig} {E : Env} {x : Ent (OpAgg D)} {g : List (Arrival D)} (hx : EntOk E.clk cfg x g)
    (o : Operation D) (e : Fault) (h : x.val.mergeOperation cfg.H cfg.kinds o = .error e) : e = .signedOverflow := by
  obtain ⟨m, ms, _, ha, _⟩ := hx.sum
  refine C16_only_overflow cfg.H cfg.kinds m.op (ms.map (·.op) ++ [o]) e ?_
  rw [aggregate_snoc, ha]; exact h

theorem new_error {cfg : AggConfig} (o : Operation D) (e : Fault)
    (h : OpAgg.new cfg.H cfg.kinds o = .error e) : e = .signedOverflow := by
  refine C16_only_overflow cfg.H cfg.kinds o [] e ?_
  unfold OpAgg.aggregate
  rw [h]; rfl

theorem putL_filter (k : Bytes) (v : OpAgg D) (now : Int) (L : List (Ent (OpAgg D))) :
    (putL false k v now L).filter (fun y => !(y.key == k)) = L.filter (fun y => !(y.key == k)) := by
  unfold putL
  simp only [Bool.false_eq_true, if_false]
  induction L with
  | nil => rfl
  | cons y L ih =>
    simp only [List.map_cons]
    by_cases h : y.key = k
    · have h' : (y.key == k) = true := by simp [h]
      simp only [h', if_true, List.filter_cons, Bool.not_true, Bool.false_eq_true, if_false, ih]
    · have h' : (y.key == k) = false := by simp [h]
      simp only [h', if_true, List.filter_cons, Bool.not_false, Bool.false_eq_true, if_false, ih]

theorem putL_find (k : Bytes) (v : OpAgg D) (now : Int) (L : List (Ent (OpAgg D))) (x : Ent (OpAgg D))
    (h : findL k L = some x) : findL k (putL false k v now L) = some { x with val := v } := by
  unfold putL findL at *
  simp only [Bool.false_eq_true, if_false]
  induction L with
  | nil => cases h
  | cons y L ih =>
    simp only [List.map_cons, List.find?_cons] at h ⊢
    by_cases hk : y.key = k
    · have h' : (y.key == k) = true := by simp [hk]
      simp only [h', if_true] at h ⊢
      cases h; rfl
    · have : (y.key == k) = false := by simp [hk]
      simp only [this, Bool.false_eq_true, if_false] at h ⊢
      exact ih h

/-- The state during a call. -/
structure Mid (E : Env) (cfg : AggConfig) (P : Params) (prev : List (Operation D)) (arr : List (Arrival D))
    (out : List (Group D)) (grp : Bytes → List (Arrival D)) (L : List (Ent (OpAgg D)))
    (w : World (Slot (ReportRequest D)) (OpAgg D)) : Prop where
  quiet : Quiet P L w.cache
  gi : ∃ items, w.ext = some items ∧ Wf cfg items ∧ GI E.clk cfg arr out (prev ++ itemOps items) grp L

theorem Mid.evict {E : Env} {cfg : AggConfig} {P : Params} {prev : List (Operation D)} {arr : List (Arrival D)}
    {out : List (Group D)} {grp : Bytes → List (Arrival D)} {L : List (Ent (OpAgg D))}
    {w w' : World (Slot (ReportRequest D)) (OpAgg D)} (h : Mid E cfg P prev arr out grp L w)
    (G K : List (Ent (OpAgg D))) (hp : (G ++ K).Perm L) (he : w'.ext = outOf (addDel cfg) G w.ext) :
    ∃ grp' items, w'.ext = some items ∧ Wf cfg items ∧
      GI E.clk cfg arr (out ++ G.map (fun x => ⟨x.key, grp x.key⟩)) (prev ++ itemOps items) grp' K := by
  obtain ⟨items, h1, h2, h3⟩ := h.gi
  obtain ⟨items', h4, h5, h6⟩ := outOf_spec cfg G items h2
  obtain ⟨grp', h7⟩ := h3.evict G h.quiet.keys hp
  refine ⟨grp', items', by rw [he, h1, h4], h5, ?_⟩
  rw [h6, ← List.append_assoc]
  exact h7

theorem ticksOf_pos {P : Params} (hl : 0 ≤ P.limit) : ticksOf P = 1 := by
  unfold ticksOf; rw [if_pos hl]

theorem putL_used (k : Bytes) (v : OpAgg D) (now : Int) {L : List (Ent (OpAgg D))} {b : Int} (h : ∀ x ∈ L, b ≤ x.used) :
    ∀ x ∈ putL false k v now L, b ≤ x.used := by
  intro x hx
  simp only [putL, Bool.false_eq_true, if_false] at hx
  obtain ⟨y, hy, rfl⟩ := List.mem_map.mp hx
  have := h y hy
  split <;> exact this

theorem reportOp_spec (E : Env) (cfg : AggConfig) {P : Params} (hP : P.lru = false) {prev : List (Operation D)}
    {arr : List (Arrival D)} {out : List (Group D)} {grp : Bytes → List (Arrival D)} {L : List (Ent (OpAgg D))}
    {w : World (Slot (ReportRequest D)) (OpAgg D)} (h : Mid E cfg P prev arr out grp L w) (o : Operation D)
    (hd : E.dbg = true → Sorted L) :
    reportOp E cfg w o = .error .signedOverflow ∨
    ∃ w' L' out' grp' i, reportOp E cfg w o = .ok w' ∧
      Mid E cfg P prev (arr ++ [⟨o, i⟩]) out' grp' L' w' ∧ w.tick ≤ i ∧ (i ≤ w'.tick ∧ (0 ≤ P.limit → i < w'.tick)) ∧
      (Mono E.clk → SortedT E w.tick L → SortedT E w'.tick L') ∧
      (Mono E.clk → ∀ b, b ≤ E.clk w.tick → (∀ x ∈ L, b ≤ x.used) → ∀ x ∈ L', b ≤ x.used) := by
  set sig := reportOperationSig cfg.H o with hsig
  unfold reportOp
  simp only [← hsig, onDelete_eq]
  have hperm := keep_perm P (w.now E) L
  cases hf : findL sig (keepOf P (w.now E) L) with
  | none =>
    obtain ⟨w1, h1, q1, t1, e1⟩ := lookup_quiet_none E (addDel cfg) sig w h.quiet hd hf
    obtain ⟨grp1, items1, hi1, hw1, g1⟩ := h.evict _ _ hperm e1
    rw [h1]
    simp only [bind, Except.bind]
    cases hn : OpAgg.new cfg.H cfg.kinds o with
    | error e => left; rw [new_error o e hn]
    | ok a =>
      right
      simp only
      have hkeys := findL_none.mp hf
      obtain ⟨w2, h2, q2, t2, e2⟩ := insert_quiet E (addDel cfg) sig a w1 q1 hkeys
      obtain ⟨K', hK', hpK, hsub⟩ := ins_perm (cap := P.cap) sig a
        (E.clk (w1.tick + if P.lru then 1 else 0)) (keepOf P (w.now E) L)
      have m1 : Mid E cfg P prev arr _ grp1 (keepOf P (w.now E) L) w1 := ⟨q1, items1, hi1, hw1, g1⟩
      obtain ⟨grp2, items2, hi2, hw2, g2⟩ := m1.evict _ _ hpK e2
      have hnK' : ∀ x ∈ K', x.key ≠ reportOperationSig cfg.H o := fun x hx => hkeys x (hsub.subset hx)
      have g3 := g2.new o a w1.tick hnK' hn
      rw [hP] at hK' q2 t2
      simp only [Bool.false_eq_true, if_false, Nat.add_zero] at hK' q2 t2
      rw [hK'] at q2
      refine ⟨w2, _, _, _, w1.tick, h2, ⟨q2, items2, hi2, hw2, g3⟩, by omega, ⟨by omega, fun _ => by omega⟩, ?_, ?_⟩
      · intro hm hs
        have hs1 : SortedT E w.tick (keepOf P (w.now E) L) := hs.sublist (keep_sublist _ _ _)
        exact ((hs1.sublist hsub).cons hm (t' := w1.tick) (by omega) _ _).later hm (by omega)
      · intro hm b hb hL x hx
        rcases List.mem_cons.mp hx with rfl | hx
        · have : E.clk w.tick ≤ E.clk w1.tick := hm.le (by omega)
          show b ≤ E.clk w1.tick
          omega
        · exact hL x ((keep_sublist _ _ _).subset (hsub.subset hx))
  | some x =>
    obtain ⟨w1, e, h1, hval, t1, e1, hrel⟩ := lookup_quiet_some E (addDel cfg) sig w h.quiet hd x hf
    obtain ⟨grp1, items1, hi1, hw1, g1⟩ := h.evict _ _ hperm e1
    have hkn : ((keepOf P (w.now E) L).map (·.key)).Nodup :=
      h.quiet.keys.sublist ((keep_sublist _ _ _).map _)
    obtain ⟨hxm, hxk⟩ := (findL_some hkn).mp hf
    rw [h1]
    simp only [bind, Except.bind, hval]
    cases hm : x.val.mergeOperation cfg.H cfg.kinds o with
    | error er => left; rw [merge_error (g1.ent x hxm) o er hm]
    | ok a =>
      right
      simp only
      obtain ⟨w3, h3, q3, t3, e3⟩ := hrel a w1.tick (setVal e.ptr a w1) (Or.inl rfl)
      rw [h3]
      rw [hP] at q3 t3
      simp only [Bool.false_eq_true, if_false, Nat.add_zero] at t3
      have hs1 : SortedT E w.tick L → SortedT E w.tick (keepOf P (w.now E) L) := fun hs =>
        hs.sublist (keep_sublist _ _ _)
      simp only
      by_cases hb : a.tooBig = true
      · rw [if_pos hb]
        obtain ⟨w4, h4, q4, t4, e4⟩ := remove_quiet E (addDel cfg) sig w3 q3 _ (putL_find sig a _ _ x hf)
        rw [putL_filter] at q4
        have g3 := g1.mergeOut o a w.tick x hxm (by rw [hxk]) hm
        obtain ⟨items2, hi2, hw2, ho2⟩ := outOf_spec cfg [({ x with val := a } : Ent (OpAgg D))] items1 hw1
        have ho2' : itemOps items2 = itemOps items1 ++ [a.toProto cfg.U] := ho2
        rw [List.append_assoc prev, ← ho2'] at g3
        refine ⟨w4, _, _, _, w.tick, h4, ⟨q4, items2, ?_, hw2, g3⟩, Nat.le_refl _, ⟨by omega, fun hl => by have := ticksOf_pos hl; omega⟩, ?_, ?_⟩
        · rw [e4, e3, ← e1, hi1, hi2]
        · intro hmono hs
          exact ((hs1 hs).sublist List.filter_sublist).later hmono (by omega)
        · intro _ b hb hL y hy
          exact hL y ((keep_sublist _ _ _).subset (List.filter_sublist.subset hy))
      · rw [if_neg hb]
        have g3 := g1.merge hkn o a w.tick (E.clk w1.tick) x hxm hxk hm (by simpa using hb)
        refine ⟨w3, _, _, _, w.tick, rfl, ⟨q3, items1, ?_, hw1, g3⟩, Nat.le_refl _, ⟨by omega, fun hl => by have := ticksOf_pos hl; omega⟩, ?_, ?_⟩
        · rw [e3, ← e1, hi1]
        · intro hmono hs
          exact ((hs1 hs).put hmono (t' := w1.tick) (by omega) _ _ _).later hmono (by omega)
        · intro _ b hb hL y hy
          exact putL_used sig a _ (fun z hz => hL z ((keep_sublist _ _ _).subset hz)) y hy

/-! ### A call -/

/-- The parameters of the cache. -/
def params (cfg : AggConfig) : Params :=
  ⟨cfg.numEntries, match cfg.timeout cfg.flushMs with | none => -1 | some c => c, false⟩

theorem reportOps_spec (E : Env) (cfg : AggConfig) {P : Params} (hP : P.lru = false) {prev : List (Operation D)}
    (hm : E.dbg = true → Mono E.clk) (ops : List (Operation D)) :
    ∀ {arr : List (Arrival D)} {out : List (Group D)} {grp : Bytes → List (Arrival D)} {L : List (Ent (OpAgg D))}
    {w : World (Slot (ReportRequest D)) (OpAgg D)}, Mid E cfg P prev arr out grp L w →
    (Mono E.clk → SortedT E w.tick L) →
    ops.foldlM (reportOp E cfg) w = .error .signedOverflow ∨
    ∃ w' L' out' grp' arr', ops.foldlM (reportOp E cfg) w = .ok w' ∧
      Mid E cfg P prev (arr ++ arr') out' grp' L' w' ∧ w.tick ≤ w'.tick ∧
      List.Forall₂ (fun (a : Arrival D) o => a.op = o ∧ w.tick ≤ a.tick ∧ a.tick ≤ w'.tick ∧ (0 ≤ P.limit → a.tick < w'.tick)) arr' ops ∧
      (Mono E.clk → SortedT E w'.tick L') ∧
      (Mono E.clk → ∀ b, b ≤ E.clk w.tick → (∀ x ∈ L, b ≤ x.used) → ∀ x ∈ L', b ≤ x.used) := by
  induction ops with
  | nil =>
    intro arr out grp L w h hs
    right
    exact ⟨w, L, out, grp, [], rfl, by simpa using h, Nat.le_refl _, .nil, hs, fun _ _ _ hL => hL⟩
  | cons o ops ih =>
    intro arr out grp L w h hs
    rw [List.foldlM_cons]
    rcases reportOp_spec E cfg hP h o (fun hd => (hs (hm hd)).1) with he | ⟨w1, L1, out1, grp1, i, h1, m1, hi, hi', hs1, hy1⟩
    · left; rw [he]; rfl
    · rw [h1]
      rcases ih m1 (fun hmono => hs1 hmono (hs hmono)) with he | ⟨w2, L2, out2, grp2, arr2, h2, m2, ht, hf, hs2, hy2⟩
      · left; exact he
      · right
        refine ⟨w2, L2, out2, grp2, ⟨o, i⟩ :: arr2, h2, by simpa using m2, by omega, ?_, hs2, ?_⟩
        · refine .cons ⟨rfl, hi, by show i ≤ w2.tick; omega, fun hl => by have := hi'.2 hl; show i < w2.tick; omega⟩ ?_
          exact hf.imp (fun a b ⟨x, y, z⟩ => ⟨x, by omega, z⟩)
        · intro hmono b hb hL
          have : E.clk w.tick ≤ E.clk w1.tick := hmono.le (by omega)
          exact hy2 hmono b (by omega) (hy1 hmono b hb hL)

/-- Each accepted operation arrived during its call, at one of its clock readings if it made any. -/
def ArrivalsP (P : Params) (h : Hist D) (arr : List (Arrival D)) : Prop :=
  List.Forall₂ (fun a (b : Operation D × Nat × Nat) => a.op = b.1 ∧ b.2.1 ≤ a.tick ∧ a.tick ≤ b.2.2 ∧
    (0 ≤ P.limit → a.tick < b.2.2)) arr (accepted h)

theorem ArrivalsP.weak {P : Params} {h : Hist D} {arr : List (Arrival D)} (ha : ArrivalsP P h arr) : Arrivals h arr :=
  ha.imp (fun _ _ h => ⟨h.1, h.2.1, h.2.2.1⟩)

theorem ArrivalsP.strict {P : Params} {h : Hist D} {arr : List (Arrival D)} (ha : ArrivalsP P h arr) (hl : 0 ≤ P.limit) :
    ArrivalsAt h arr :=
  ha.imp (fun _ _ h => ⟨h.1, h.2.1, h.2.2.2 hl⟩)

/-- The invariant of histories. -/
structure Inv (E : Env) (cfg : AggConfig) (h : Hist D) (s : AggState (OpAgg D)) : Prop where
  cb : s.callback = true
  wf : ∀ ev ∈ h, Wf cfg ev.flushed
  none : s.cache = none → cfg.numEntries ≤ 0 ∧ accepted h = [] ∧ flushedOps h = []
  some : ∀ c, s.cache = some c → 0 < cfg.numEntries ∧ ∃ arr out grp L, ArrivalsP (params cfg) h arr ∧ Quiet (params cfg) L c ∧
    GI E.clk cfg arr out (flushedOps h) grp L ∧ (Mono E.clk → SortedT E s.tick L)
  ticks : ∀ ev ∈ h, ev.first ≤ ev.last ∧ ev.last ≤ s.tick
  young : ∀ c, s.cache = Option.some c → Mono E.clk → 0 ≤ (params cfg).limit → ∀ ev ∈ h, ev.call = .flush →
    ∀ x ∈ c.nodes.map viewE, E.clk ev.first - (params cfg).limit ≤ x.used

theorem ticks_cons {h : Hist D} {t : Nat} (ht : ∀ ev ∈ h, ev.first ≤ ev.last ∧ ev.last ≤ t) (c : Call D) (st : Status)
    (fl : List (ReportRequest D)) {t' : Nat} (hle : t ≤ t') :
    ∀ ev ∈ (⟨c, st, fl, t, t'⟩ : Event D) :: h, ev.first ≤ ev.last ∧ ev.last ≤ t' := by
  intro ev hev
  rcases List.mem_cons.mp hev with rfl | hev
  · exact ⟨hle, Nat.le_refl _⟩
  · have := ht ev hev; omega

theorem init_inv (E : Env) (cfg : AggConfig) : ∃ s, new (D := D) E cfg = .ok s ∧
    Inv E cfg [] (s.setFlushCallback true) := by
  unfold new
  split
  · rename_i hn
    have hz : ∀ w : World (Slot (ReportRequest D)) (OpAgg D), w.cache.nodes = [] → ∀ m : Nat,
        discardIdle E (onDelete cfg) (Int.ofNat m) w = .ok w.ticked := by
      intro w hw m
      unfold discardIdle
      rw [if_neg (by simp), hw]
      unfold idleLoop
      rfl
    have hst : ∃ w : World (Slot (ReportRequest D)) (OpAgg D),
        setTimeout E (onDelete cfg) (cfg.timeout cfg.flushMs) false
          { cache := Cache.new cfg.numEntries, tick := 0, ext := none } = .ok w ∧
        Quiet (params cfg) [] w.cache := by
      unfold setTimeout params AggConfig.timeout
      split
      · rename_i hc
        split at hc
        · rename_i hneg
          refine ⟨_, rfl, ⟨⟨⟨by simp [Cache.new], by simp [Cache.new]⟩, by simp [Cache.new], by simp [Cache.new]⟩,
            rfl, rfl, rfl, rfl, ?_, ?_, rfl, ?_, rfl⟩⟩
          · show (0 : Int) ≤ cfg.numEntries; omega
          · show (1 : Int) ≤ cfg.numEntries; omega
          · simp [hneg]
        · cases hc
      · rename_i c hc
        split at hc
        · cases hc
        · rename_i hneg
          cases hc
          rw [if_neg (by simp [Cache.new]), hz _ rfl]
          refine ⟨_, rfl, ⟨⟨⟨by simp [Cache.new, World.ticked], by simp [Cache.new, World.ticked]⟩,
            by simp [Cache.new, World.ticked], by simp [Cache.new, World.ticked]⟩,
            rfl, rfl, rfl, rfl, ?_, ?_, rfl, ?_, rfl⟩⟩
          · show (0 : Int) ≤ cfg.numEntries; omega
          · show (1 : Int) ≤ cfg.numEntries; omega
          · simp [hneg, World.ticked]
    obtain ⟨w, h1, q⟩ := hst
    rw [h1]
    refine ⟨_, rfl, rfl, by simp, by simp [AggState.setFlushCallback], ?_, by simp, by simp⟩
    intro c hc
    simp only [AggState.setFlushCallback, Option.some.injEq] at hc
    subst hc
    exact ⟨hn, [], [], fun _ => [], [], .nil, q, GI.nil E cfg, fun _ => SortedT.nil E _⟩
  · rename_i hn
    exact ⟨_, rfl, rfl, by simp, fun _ => ⟨by omega, rfl, rfl⟩, by simp [AggState.setFlushCallback], by simp, by simp⟩

theorem arrivals_append {h : Hist D} {arr arr' : List (Arrival D)} {P : Params} (ha : ArrivalsP P h arr) {ev : Event D}
    (r : ReportRequest D) (hc : ev.call = .report r) (hok : ev.status = .ok)
    (hf : List.Forall₂ (fun (a : Arrival D) o => a.op = o ∧ ev.first ≤ a.tick ∧ a.tick ≤ ev.last ∧ (0 ≤ P.limit → a.tick < ev.last)) arr' r.operations) :
    ArrivalsP P (ev :: h) (arr ++ arr') := by
  unfold ArrivalsP accepted
  rw [hc]
  simp only [hok, if_true]
  refine List.rel_append ha ?_
  rw [List.forall₂_map_right_iff]
  exact hf

theorem step_inv (E : Env) (cfg : AggConfig) {h : Hist D} {s : AggState (OpAgg D)} (hi : Inv E cfg h s)
    (hm : E.dbg = true → Mono E.clk) (c : Call D) :
    step E cfg c s = .error .signedOverflow ∨
    ∃ s' st fl, step E cfg c s = .ok (s', st, fl) ∧ Inv E cfg (⟨c, st, fl, s.tick, s'.tick⟩ :: h) s' := by
  -- a call that does nothing
  have hid : ∀ (c : Call D) (st : Status), (∀ r, c = .report r → st ≠ .ok) → (c = .flush → s.cache = none) →
      Inv E cfg (⟨c, st, [], s.tick, s.tick⟩ :: h) s := by
    intro c st hst hfc
    have hacc : accepted (⟨c, st, [], s.tick, s.tick⟩ :: h) = accepted h := by
      cases c with
      | report r => simp [accepted, hst r rfl]
      | flush => simp [accepted]
      | flushAll => simp [accepted]
    have hfl : flushedOps (⟨c, st, [], s.tick, s.tick⟩ :: h) = flushedOps h := by simp [flushedOps]
    refine ⟨hi.cb, ?_, ?_, ?_, ticks_cons hi.ticks _ _ _ (Nat.le_refl _), ?_⟩
    · intro ev hev
      rcases List.mem_cons.mp hev with rfl | hev
      · intro r hr; cases hr
      · exact hi.wf ev hev
    · intro hc; rw [hacc, hfl]; exact hi.none hc
    · intro cc hc
      obtain ⟨hn, arr, out, grp, L, h1, h2, h3, h4⟩ := hi.some cc hc
      refine ⟨hn, arr, out, grp, L, ?_, h2, by rw [hfl]; exact h3, h4⟩
      unfold ArrivalsP; rw [hacc]; exact h1
    · intro cc hcc hmono hl ev hev hf
      rcases List.mem_cons.mp hev with rfl | hev
      · rw [hfc hf] at hcc; cases hcc
      · exact hi.young cc hcc hmono hl ev hev hf
  -- a call that only removes entries
  have hrm : ∀ (c : Call D) (cc : Cache (OpAgg D)), s.cache = some cc → (∀ r, c ≠ .report r) →
      ∀ (L K G : List (Ent (OpAgg D))) (w' : World (Slot (ReportRequest D)) (OpAgg D)) (arr : List (Arrival D))
        (out : List (Group D)) (grp : Bytes → List (Arrival D)), 0 < cfg.numEntries → ArrivalsP (params cfg) h arr →
      Quiet (params cfg) L cc → GI E.clk cfg arr out (flushedOps h) grp L → (G ++ K).Perm L →
      Quiet (params cfg) K w'.cache → w'.ext = outOf (addDel cfg) G (some []) →
      (Mono E.clk → SortedT E w'.tick K) → s.tick ≤ w'.tick →
      (c = .flush → Mono E.clk → 0 ≤ (params cfg).limit → ∀ x ∈ K, E.clk s.tick - (params cfg).limit ≤ x.used) →
      Inv E cfg (⟨c, .ok, flushOut s.callback (w'.ext.getD []), s.tick, w'.tick⟩ :: h)
        { s with cache := some w'.cache, tick := w'.tick } := by
    intro c cc hcc hnr L K G w' arr out grp hn ha q g hp q' he hs ht hyoung
    have m : Mid E cfg (params cfg) (flushedOps h) arr out grp L
        { cache := cc, tick := s.tick, ext := some [] } := ⟨q, [], rfl, by simp [Wf], by simpa [itemOps] using g⟩
    obtain ⟨grp', items, hit, hw, g'⟩ := m.evict (w' := w') G K hp he
    have hfo : flushOut s.callback (w'.ext.getD []) = items := by simp [flushOut, hi.cb, hit]
    rw [hfo]
    refine ⟨hi.cb, ?_, by simp, ?_, ticks_cons hi.ticks _ _ _ ht, ?_⟩
    · intro ev hev
      rcases List.mem_cons.mp hev with rfl | hev
      · exact hw
      · exact hi.wf ev hev
    · intro c2 hc2
      simp only [Option.some.injEq] at hc2
      subst hc2
      refine ⟨hn, arr, _, grp', K, ?_, q', g', hs⟩
      unfold ArrivalsP accepted
      cases c with
      | report r => exact absurd rfl (hnr r)
      | flush => simp only [List.append_nil]; exact ha
      | flushAll => simp only [List.append_nil]; exact ha
    · intro c2 hc2 hmono hl ev hev hf x hx
      simp only [Option.some.injEq] at hc2
      subst hc2
      rw [q'.view] at hx
      rcases List.mem_cons.mp hev with rfl | hev
      · exact hyoung hf hmono hl x hx
      · refine hi.young cc hcc hmono hl ev hev hf x ?_
        rw [q.view]
        exact hp.subset (List.mem_append_right _ hx)
  cases c with
  | report r =>
    simp only [step, report]
    by_cases h1 : r.serviceName ≠ cfg.serviceName
    · right
      rw [if_pos h1]
      exact ⟨_, _, _, rfl, hid _ _ (by simp) (by simp)⟩
    · rw [if_neg h1]
      by_cases h2 : (hasHighImportant r || s.cache.isNone) = true
      · right
        rw [if_pos h2]
        exact ⟨_, _, _, rfl, hid _ _ (by simp) (by simp)⟩
      · rw [if_neg h2]
        cases hc : s.cache with
        | none => simp [hc] at h2
        | some cc =>
          obtain ⟨hn, arr, out, grp, L, ha, q, g, hs⟩ := hi.some cc hc
          have m : Mid E cfg (params cfg) (flushedOps h) arr out grp L
              { cache := cc, tick := s.tick, ext := some [] } :=
            ⟨q, [], rfl, by simp [Wf], by simpa [itemOps] using g⟩
          unfold withBuffer
          rw [hc]
          simp only
          rcases reportOps_spec E cfg rfl hm r.operations m hs with he | ⟨w', L', out', grp', arr', h3, m', ht, hf, hs', hy'⟩
          · left; rw [he]; rfl
          · right
            rw [h3]
            refine ⟨_, _, _, rfl, ?_⟩
            obtain ⟨items, hit, hw, g'⟩ := m'.gi
            have hfo : flushOut s.callback (w'.ext.getD []) = items := by simp [flushOut, hi.cb, hit]
            rw [hfo]
            refine ⟨hi.cb, ?_, by simp, ?_, ticks_cons hi.ticks _ _ _ ht, ?_⟩
            · intro ev hev
              rcases List.mem_cons.mp hev with rfl | hev
              · exact hw
              · exact hi.wf ev hev
            · intro c2 hc2
              simp only [Option.some.injEq] at hc2
              subst hc2
              exact ⟨hn, arr ++ arr', out', grp', L', arrivals_append ha r rfl rfl hf, m'.quiet, g', hs'⟩
            · intro c2 hc2 hmono hl ev hev hfl x hx
              simp only [Option.some.injEq] at hc2
              subst hc2
              rw [m'.quiet.view] at hx
              rcases List.mem_cons.mp hev with rfl | hev
              · cases hfl
              · refine hy' hmono _ ?_ (fun y hy => hi.young cc hc hmono hl ev hev hfl y (by rw [q.view]; exact hy)) x hx
                have := hi.ticks ev hev
                have : E.clk ev.first ≤ E.clk s.tick := hmono.le (by omega)
                show E.clk ev.first - (params cfg).limit ≤ E.clk s.tick
                omega
  | flush =>
    right
    simp only [step, flush, withBuffer]
    cases hc : s.cache with
    | none => exact ⟨_, _, _, rfl, hid _ _ (by simp) (fun _ => hc)⟩
    | some cc =>
      obtain ⟨hn, arr, out, grp, L, ha, q, g, hs⟩ := hi.some cc hc
      obtain ⟨w', h1, q1, t1, e1, _⟩ := removeExpired_quiet E (addDel cfg)
        { cache := cc, tick := s.tick, ext := some [] } q (fun hd => (hs (hm hd)).1)
      simp only [onDelete_eq, h1, bind, Except.bind]
      refine ⟨_, _, _, rfl, ?_⟩
      refine hrm .flush cc hc (by simp) L _ _ w' arr out grp hn ha q g (keep_perm _ _ _) q1 e1 ?_ (by rw [t1]; exact Nat.le_add_right _ _)
        (fun _ hmono hl => mem_keep _ (hs hmono).1 hl)
      intro hmono
      exact ((hs hmono).sublist (keep_sublist _ _ _)).later hmono (by rw [t1]; exact Nat.le_add_right _ _)
  | flushAll =>
    right
    simp only [step, flushAll, withBuffer]
    cases hc : s.cache with
    | none => exact ⟨_, _, _, rfl, hid _ _ (by simp) (fun _ => hc)⟩
    | some cc =>
      obtain ⟨hn, arr, out, grp, L, ha, q, g, hs⟩ := hi.some cc hc
      obtain ⟨w', G, h1, q1, hp, t1, e1⟩ := removeAll_quiet E (addDel cfg)
        { cache := cc, tick := s.tick, ext := some [] } q
      simp only [onDelete_eq, h1, bind, Except.bind]
      refine ⟨_, _, _, rfl, ?_⟩
      refine hrm .flushAll cc hc (by simp) L _ _ w' arr out grp hn ha q g (by simpa using hp) q1 e1 ?_ (by rw [t1]) (by simp)
      intro _
      exact SortedT.nil E _

/-! ### Release builds -/

theorem reportOp_imp (E : Env) (cfg : AggConfig) (w : World (Slot (ReportRequest D)) (OpAgg D)) (o : Operation D) :
    Imp (reportOp E cfg w o) (reportOp E.rel cfg w o) := by
  unfold reportOp
  refine Imp.bind (lookup_imp E _ _ _ _) (fun r => ?_)
  obtain ⟨w, found⟩ := r
  cases found with
  | none => exact Imp.bind (Imp.refl _) (fun a => Imp.bind (insertPinned_imp E _ _ _ _ _ _) (fun _ => release_imp E _ _ _ _ _))
  | some e =>
    refine Imp.bind (Imp.refl _) (fun a => Imp.bind (release_imp E _ _ _ _ _) (fun w => ?_))
    exact Imp.ite (remove_imp E _ _ _) (Imp.refl _)

theorem withBuffer_imp {R β α : Type} (s : AggState β) (d : α)
    {b b' : World (Slot R) β → Res (World (Slot R) β × α)} (h : ∀ w, Imp (b w) (b' w)) :
    Imp (withBuffer s d b) (withBuffer s d b') := by
  unfold withBuffer
  split
  · exact Imp.refl _
  · exact Imp.bind (h _) (fun _ => Imp.refl _)

theorem step_imp (E : Env) (cfg : AggConfig) (c : Call D) (s : AggState (OpAgg D)) :
    Imp (step E cfg c s) (step E.rel cfg c s) := by
  cases c with
  | report r =>
    simp only [step, report]
    refine Imp.ite (Imp.refl _) (Imp.ite (Imp.refl _) (withBuffer_imp _ _ (fun w => ?_)))
    exact Imp.bind (Imp.foldlM (fun w o => reportOp_imp E cfg w o) _ _) (fun _ => Imp.refl _)
  | flush =>
    simp only [step, flush]
    exact withBuffer_imp _ _ (fun w => Imp.bind (removeExpired_imp E _ _) (fun _ => Imp.refl _))
  | flushAll =>
    simp only [step, flushAll]
    exact withBuffer_imp _ _ (fun w => Imp.bind (removeAll_imp E _ _) (fun _ => Imp.refl _))

theorem new_imp (E : Env) (cfg : AggConfig) : Imp (new (D := D) E cfg) (new E.rel cfg) :=
  Imp.ite (Imp.bind (setTimeout_imp E _ _ _ _) (fun _ => Imp.refl _)) (Imp.refl _)

theorem Inv.of_rel {E : Env} {cfg : AggConfig} {h : Hist D} {s : AggState (OpAgg D)} (hi : Inv E.rel cfg h s) :
    Inv E cfg h s := ⟨hi.cb, hi.wf, hi.none, hi.some, hi.ticks, hi.young⟩

theorem Inv.to_rel {E : Env} {cfg : AggConfig} {h : Hist D} {s : AggState (OpAgg D)} (hi : Inv E cfg h s) :
    Inv E.rel cfg h s := ⟨hi.cb, hi.wf, hi.none, hi.some, hi.ticks, hi.young⟩

theorem Reach.inv {E : Env} {cfg : AggConfig} {h : Hist D} {s : AggState (OpAgg D)} (r : Reach E cfg h s) :
    Inv E cfg h s := by
  induction r with
  | init h0 =>
    obtain ⟨s', h1, hi⟩ := init_inv (D := D) E cfg
    rw [h1] at h0; cases h0; exact hi
  | call _ hs ih =>
    have h1 := step_imp E cfg _ _ _ hs
    rcases step_inv E.rel cfg ih.to_rel (by simp) _ with he | ⟨s', st, fl, h2, hi⟩
    · rw [h1] at he; cases he
    · rw [h1] at h2; cases h2; exact hi.of_rel

end Verif.Report
