import Verif.Model.Signature
/-
Order facts about `bytesLt`, sortedness of the modelled `std::map`/`std::set`, and unique
parsing of NUL-delimited tokens.
-/
namespace Verif

/-! ### `bytesLt` is a strict total order -/

theorem bytesLt_irrefl (a : Bytes) : bytesLt a a = false := by
  induction a with
  | nil => rfl
  | cons x xs ih => simp [bytesLt, ih]

theorem bytesLt_trans {a b c : Bytes} (h1 : bytesLt a b = true) (h2 : bytesLt b c = true) :
    bytesLt a c = true := by
  induction a generalizing b c with
  | nil => cases b <;> cases c <;> simp_all [bytesLt]
  | cons x xs ih =>
    cases b with
    | nil => simp [bytesLt] at h1
    | cons y ys =>
      cases c with
      | nil => simp [bytesLt] at h2
      | cons z zs =>
        simp only [bytesLt] at h1 h2 ⊢
        have ih' := @ih ys zs
        grind

theorem bytesLt_total {a b : Bytes} (h1 : bytesLt a b = false) (h2 : bytesLt b a = false) : a = b := by
  induction a generalizing b with
  | nil => cases b <;> simp_all [bytesLt]
  | cons x xs ih =>
    cases b with
    | nil => simp [bytesLt] at h2
    | cons y ys =>
      simp only [bytesLt] at h1 h2
      have ih' := @ih ys
      have : x = y := by
        rcases Nat.lt_trichotomy x.toNat y.toNat with h | h | h
        · have : x < y := h
          simp [this] at h1
        · exact UInt8.toNat_inj.mp h
        · have : y < x := h
          simp [this] at h2
      subst this
      simp_all

theorem bytesLt_asymm {a b : Bytes} (h : bytesLt a b = true) : bytesLt b a = false := by
  cases hb : bytesLt b a with
  | false => rfl
  | true => have := bytesLt_trans h hb; rw [bytesLt_irrefl] at this; cases this

theorem bytesLt_ne {a b : Bytes} (h : bytesLt a b = true) : a ≠ b := by
  intro e; subst e; rw [bytesLt_irrefl] at h; cases h

/-! ### Ordered maps -/

/-- Keys strictly increasing. -/
def MapSorted {α : Type} (m : List (Bytes × α)) : Prop := m.Pairwise fun a b => bytesLt a.1 b.1 = true

theorem stdMapInsert_perm {α : Type} (k : Bytes) (v : α) (m : List (Bytes × α))
    (h : k ∉ m.map Prod.fst) : (stdMapInsert k v m).Perm ((k, v) :: m) := by
  induction m with
  | nil => exact .refl _
  | cons e t ih =>
    obtain ⟨k', v'⟩ := e
    simp only [List.map_cons, List.mem_cons, not_or] at h
    simp only [stdMapInsert]
    split
    · exact .refl _
    · split
      · exact ((ih h.2).cons _).trans (.swap _ _ _)
      · rename_i h1 h2
        exact absurd (bytesLt_total (by simpa using h1) (by simpa using h2)) h.1

theorem stdMapAssign_eq_insert {α : Type} (k : Bytes) (v : α) (m : List (Bytes × α))
    (h : k ∉ m.map Prod.fst) : stdMapAssign k v m = stdMapInsert k v m := by
  induction m with
  | nil => rfl
  | cons e t ih =>
    obtain ⟨k', v'⟩ := e
    simp only [List.map_cons, List.mem_cons, not_or] at h
    simp only [stdMapInsert, stdMapAssign]
    rw [ih h.2]
    split
    · rfl
    · split
      · rfl
      · rename_i h1 h2
        exact absurd (bytesLt_total (by simpa using h1) (by simpa using h2)) h.1

theorem stdMapAssign_keys {α : Type} (k : Bytes) (v : α) (m : List (Bytes × α)) (x : Bytes) :
    x ∈ (stdMapAssign k v m).map Prod.fst ↔ x = k ∨ x ∈ m.map Prod.fst := by
  induction m with
  | nil => simp [stdMapAssign]
  | cons e t ih =>
    obtain ⟨k', v'⟩ := e
    simp only [stdMapAssign]
    split
    · simp
    · split
      · simp only [List.map_cons, List.mem_cons, ih]; grind
      · rename_i h1 h2
        have := bytesLt_total (by simpa using h1) (by simpa using h2)
        subst this; simp

theorem stdMapInsert_keys {α : Type} (k : Bytes) (v : α) (m : List (Bytes × α)) (x : Bytes) :
    x ∈ (stdMapInsert k v m).map Prod.fst ↔ x = k ∨ x ∈ m.map Prod.fst := by
  induction m with
  | nil => simp [stdMapInsert]
  | cons e t ih =>
    obtain ⟨k', v'⟩ := e
    simp only [stdMapInsert]
    split
    · simp
    · split
      · simp only [List.map_cons, List.mem_cons, ih]; grind
      · rename_i h1 h2
        have := bytesLt_total (by simpa using h1) (by simpa using h2)
        subst this; simp

theorem stdMapInsert_sorted {α : Type} (k : Bytes) (v : α) (m : List (Bytes × α))
    (h : MapSorted m) : MapSorted (stdMapInsert k v m) := by
  induction m with
  | nil => simp [stdMapInsert, MapSorted]
  | cons e t ih =>
    obtain ⟨k', v'⟩ := e
    have h' := h
    simp only [MapSorted, List.pairwise_cons] at h
    simp only [stdMapInsert]
    split
    · rename_i hk
      simp only [MapSorted, List.pairwise_cons]
      refine ⟨?_, h⟩
      intro a ha
      rcases List.mem_cons.mp ha with rfl | ha
      · exact hk
      · exact bytesLt_trans hk (h.1 a ha)
    · split
      · rename_i hk
        simp only [MapSorted, List.pairwise_cons]
        refine ⟨?_, ih h.2⟩
        intro a ha
        have : a.1 ∈ (stdMapInsert k v t).map Prod.fst := List.mem_map_of_mem ha
        rw [stdMapInsert_keys] at this
        rcases this with e | hm
        · rw [e]; exact hk
        · obtain ⟨b, hb, hbe⟩ := List.mem_map.mp hm
          rw [← hbe]; exact h.1 b hb
      · exact h'

theorem stdMapAssign_sorted {α : Type} (k : Bytes) (v : α) (m : List (Bytes × α))
    (h : MapSorted m) : MapSorted (stdMapAssign k v m) := by
  induction m with
  | nil => simp [stdMapAssign, MapSorted]
  | cons e t ih =>
    obtain ⟨k', v'⟩ := e
    simp only [MapSorted, List.pairwise_cons] at h
    simp only [stdMapAssign]
    split
    · rename_i hk
      simp only [MapSorted, List.pairwise_cons]
      refine ⟨?_, h⟩
      intro a ha
      rcases List.mem_cons.mp ha with rfl | ha
      · exact hk
      · exact bytesLt_trans hk (h.1 a ha)
    · split
      · rename_i hk
        simp only [MapSorted, List.pairwise_cons]
        refine ⟨?_, ih h.2⟩
        intro a ha
        have : a.1 ∈ (stdMapAssign k v t).map Prod.fst := List.mem_map_of_mem ha
        rw [stdMapAssign_keys] at this
        rcases this with e | hm
        · rw [e]; exact hk
        · obtain ⟨b, hb, hbe⟩ := List.mem_map.mp hm
          rw [← hbe]; exact h.1 b hb
      · rename_i h1 h2
        have := bytesLt_total (by simpa using h1) (by simpa using h2)
        subst this
        simp only [MapSorted, List.pairwise_cons]
        exact h

theorem MapSorted.eq_of_perm {α : Type} {m m' : List (Bytes × α)} (h : MapSorted m)
    (h' : MapSorted m') (p : m.Perm m') : m = m' :=
  List.Perm.eq_of_pairwise
    (fun a b _ _ hab hba => by rw [bytesLt_asymm hab] at hba; cases hba) h h' p

/-- The ordered copy of a label map. -/
def orderedLabels (l : Labels) : Labels := l.foldl (fun m kv => stdMapInsert kv.1 kv.2 m) []

theorem foldl_insert_perm {α : Type} (l acc : List (Bytes × α)) (h : IsMap (l ++ acc)) :
    (l.foldl (fun m kv => stdMapInsert kv.1 kv.2 m) acc).Perm (l ++ acc) := by
  induction l generalizing acc with
  | nil => exact .refl _
  | cons e t ih =>
    simp only [List.foldl_cons]
    have hk : e.1 ∉ acc.map Prod.fst := by
      simp only [IsMap, List.cons_append, List.map_cons, List.nodup_cons, List.map_append, List.mem_append, not_or] at h
      exact h.1.2
    have hp := stdMapInsert_perm e.1 e.2 acc hk
    have hm : (t ++ stdMapInsert e.1 e.2 acc).Perm (e :: t ++ acc) :=
      (hp.append_left t).trans (List.perm_middle)
    exact (ih _ ((hm.map Prod.fst).nodup_iff.mpr h)).trans hm

theorem foldl_assign_perm {α : Type} (l acc : List (Bytes × α)) (h : IsMap (l ++ acc)) :
    (l.foldl (fun m kv => stdMapAssign kv.1 kv.2 m) acc).Perm (l ++ acc) := by
  induction l generalizing acc with
  | nil => exact .refl _
  | cons e t ih =>
    simp only [List.foldl_cons]
    have hk : e.1 ∉ acc.map Prod.fst := by
      simp only [IsMap, List.cons_append, List.map_cons, List.nodup_cons, List.map_append, List.mem_append, not_or] at h
      exact h.1.2
    have hp := stdMapInsert_perm e.1 e.2 acc hk
    rw [← stdMapAssign_eq_insert _ _ _ hk] at hp
    have hm : (t ++ stdMapAssign e.1 e.2 acc).Perm (e :: t ++ acc) :=
      (hp.append_left t).trans (List.perm_middle)
    exact (ih _ ((hm.map Prod.fst).nodup_iff.mpr h)).trans hm

theorem foldl_insert_sorted {α : Type} (l acc : List (Bytes × α)) (h : MapSorted acc) :
    MapSorted (l.foldl (fun m kv => stdMapInsert kv.1 kv.2 m) acc) := by
  induction l generalizing acc with
  | nil => exact h
  | cons e t ih => exact ih _ (stdMapInsert_sorted _ _ _ h)

theorem foldl_assign_sorted {α : Type} (l acc : List (Bytes × α)) (h : MapSorted acc) :
    MapSorted (l.foldl (fun m kv => stdMapAssign kv.1 kv.2 m) acc) := by
  induction l generalizing acc with
  | nil => exact h
  | cons e t ih => exact ih _ (stdMapAssign_sorted _ _ _ h)

theorem orderedLabels_perm (l : Labels) (h : IsMap l) : (orderedLabels l).Perm l := by
  have := foldl_insert_perm l [] (by simpa using h)
  simpa [orderedLabels] using this

theorem orderedLabels_sorted (l : Labels) : MapSorted (orderedLabels l) :=
  foldl_insert_sorted l [] .nil

theorem orderedLabels_eq_iff (l l' : Labels) (h : IsMap l) (h' : IsMap l') :
    orderedLabels l = orderedLabels l' ↔ l.Perm l' := by
  constructor
  · intro e
    exact ((orderedLabels_perm l h).symm.trans (e ▸ .refl _)).trans (orderedLabels_perm l' h')
  · intro p
    exact (orderedLabels_sorted l).eq_of_perm (orderedLabels_sorted l')
      (((orderedLabels_perm l h).trans p).trans (orderedLabels_perm l' h').symm)

/-- The check metric map as a fold over pairs. -/
theorem checkMetricMap_eq {D : Type} (sets : List (MetricValueSet D)) :
    checkMetricMap sets =
      (sets.map fun s => (s.name, s.values)).foldl (fun m kv => stdMapAssign kv.1 kv.2 m) [] := by
  simp only [checkMetricMap, List.foldl_map]

theorem checkMetricMap_perm {D : Type} (s s' : List (MetricValueSet D))
    (h : (s.map (·.name)).Nodup) (p : s.Perm s') : checkMetricMap s = checkMetricMap s' := by
  rw [checkMetricMap_eq, checkMetricMap_eq]
  have hm : IsMap (s.map fun s => (s.name, s.values)) := by
    simpa [IsMap, Function.comp_def] using h
  have pm := p.map fun s => (s.name, s.values)
  have hm' : IsMap (s'.map fun s => (s.name, s.values)) := (pm.map Prod.fst).nodup_iff.mp hm
  have p1 := foldl_assign_perm _ [] (by simpa using hm)
  have p2 := foldl_assign_perm _ [] (by simpa using hm')
  simp only [List.append_nil] at p1 p2
  exact (foldl_assign_sorted _ _ .nil).eq_of_perm (foldl_assign_sorted _ _ .nil)
    ((p1.trans pm).trans p2.symm)

/-! ### Ordered sets -/

def SetSorted (m : List Bytes) : Prop := m.Pairwise fun a b => bytesLt a b = true

theorem mem_stdSetInsert (k : Bytes) (m : List Bytes) (x : Bytes) :
    x ∈ stdSetInsert k m ↔ x = k ∨ x ∈ m := by
  induction m with
  | nil => simp [stdSetInsert]
  | cons k' t ih =>
    simp only [stdSetInsert]
    split
    · simp
    · split
      · simp only [List.mem_cons, ih]; grind
      · rename_i h1 h2
        have := bytesLt_total (by simpa using h1) (by simpa using h2)
        subst this; simp

theorem stdSetInsert_sorted (k : Bytes) (m : List Bytes) (h : SetSorted m) :
    SetSorted (stdSetInsert k m) := by
  induction m with
  | nil => simp [stdSetInsert, SetSorted]
  | cons k' t ih =>
    have h' := h
    simp only [SetSorted, List.pairwise_cons] at h
    simp only [stdSetInsert]
    split
    · rename_i hk
      simp only [SetSorted, List.pairwise_cons]
      refine ⟨?_, h⟩
      intro a ha
      rcases List.mem_cons.mp ha with rfl | ha
      · exact hk
      · exact bytesLt_trans hk (h.1 a ha)
    · split
      · rename_i hk
        simp only [SetSorted, List.pairwise_cons]
        refine ⟨?_, ih h.2⟩
        intro a ha
        rcases (mem_stdSetInsert k t a).mp ha with e | hm
        · rw [e]; exact hk
        · exact h.1 a hm
      · exact h'

theorem SetSorted.eq_of_mem {m m' : List Bytes} (h : SetSorted m) (h' : SetSorted m')
    (e : ∀ x, x ∈ m ↔ x ∈ m') : m = m' := by
  have nd : ∀ {m : List Bytes}, SetSorted m → m.Nodup := fun h =>
    List.Pairwise.imp (fun hab => bytesLt_ne hab) h
  exact List.Perm.eq_of_pairwise
    (fun a b _ _ hab hba => by rw [bytesLt_asymm hab] at hba; cases hba) h h'
    ((List.perm_ext_iff_of_nodup (nd h) (nd h')).mpr e)

/-- The sorted set of metric names of a quota operation. -/
def nameSet {D : Type} (sets : List (MetricValueSet D)) : List Bytes :=
  sets.foldl (fun m s => stdSetInsert s.name m) []

theorem mem_foldl_setInsert {D : Type} (sets : List (MetricValueSet D)) (acc : List Bytes) (x : Bytes) :
    x ∈ sets.foldl (fun m s => stdSetInsert s.name m) acc ↔ x ∈ sets.map (·.name) ∨ x ∈ acc := by
  induction sets generalizing acc with
  | nil => simp
  | cons s t ih => simp only [List.foldl_cons, ih, mem_stdSetInsert, List.map_cons, List.mem_cons]; grind

theorem mem_nameSet {D : Type} (sets : List (MetricValueSet D)) (x : Bytes) :
    x ∈ nameSet sets ↔ x ∈ sets.map (·.name) := by
  simp [nameSet, mem_foldl_setInsert]

theorem nameSet_sorted {D : Type} (sets : List (MetricValueSet D)) : SetSorted (nameSet sets) := by
  have : ∀ acc, SetSorted acc → SetSorted (sets.foldl (fun m s => stdSetInsert s.name m) acc) := by
    induction sets with
    | nil => exact fun _ h => h
    | cons s t ih => exact fun acc h => ih _ (stdSetInsert_sorted _ _ h)
  exact this [] .nil

theorem nameSet_eq_iff {D : Type} (s s' : List (MetricValueSet D)) :
    nameSet s = nameSet s' ↔ ∀ x, x ∈ s.map (·.name) ↔ x ∈ s'.map (·.name) := by
  constructor
  · intro e x; rw [← mem_nameSet, ← mem_nameSet, e]
  · intro h
    exact (nameSet_sorted s).eq_of_mem (nameSet_sorted s') fun x => by rw [mem_nameSet, mem_nameSet, h]

/-! ### NUL-delimited tokens -/

/-- A string without NUL bytes. -/
def NulFree (b : Bytes) : Prop := (0 : UInt8) ∉ b

instance (b : Bytes) : Decidable (NulFree b) := by unfold NulFree; infer_instance

/-- Each token preceded by a NUL. -/
def joinToks (ts : List Bytes) : Bytes := ts.flatMap fun t => delim ++ t

theorem joinToks_nil : joinToks [] = [] := rfl
theorem joinToks_cons (t : Bytes) (ts : List Bytes) : joinToks (t :: ts) = 0 :: (t ++ joinToks ts) := by
  simp [joinToks, delim]
theorem joinToks_append (ts us : List Bytes) : joinToks (ts ++ us) = joinToks ts ++ joinToks us := by
  simp [joinToks]

theorem prefix_unique {a b x y : Bytes} (ha : NulFree a) (hb : NulFree b)
    (h : a ++ 0 :: x = b ++ 0 :: y) : a = b ∧ x = y := by
  induction a generalizing b with
  | nil =>
    cases b with
    | nil => simpa using h
    | cons z zs =>
      simp only [List.nil_append, List.cons_append, List.cons.injEq] at h
      exact absurd (by simp [h.1]) hb
  | cons w ws ih =>
    cases b with
    | nil =>
      simp only [List.nil_append, List.cons_append, List.cons.injEq] at h
      exact absurd (by simp [h.1]) ha
    | cons z zs =>
      simp only [List.cons_append, List.cons.injEq] at h
      have := ih (b := zs) (fun hm => ha (List.mem_cons_of_mem _ hm))
        (fun hm => hb (List.mem_cons_of_mem _ hm)) h.2
      exact ⟨by rw [h.1, this.1], this.2⟩

theorem prefix_end {a b y : Bytes} (ha : NulFree a) (h : a = b ++ 0 :: y) : False := by
  apply ha; rw [h]; simp

theorem toks_unique {a a' : Bytes} {ts ts' : List Bytes} (ha : NulFree a) (ha' : NulFree a')
    (hts : ∀ t ∈ ts, NulFree t) (hts' : ∀ t ∈ ts', NulFree t)
    (h : a ++ joinToks ts = a' ++ joinToks ts') : a = a' ∧ ts = ts' := by
  induction ts generalizing a a' ts' with
  | nil =>
    cases ts' with
    | nil => simpa [joinToks] using h
    | cons t' ts' =>
      rw [joinToks_nil, List.append_nil, joinToks_cons] at h
      exact (prefix_end ha h).elim
  | cons t ts ih =>
    cases ts' with
    | nil =>
      rw [joinToks_nil, List.append_nil, joinToks_cons] at h
      exact (prefix_end ha' h.symm).elim
    | cons t' ts' =>
      rw [joinToks_cons, joinToks_cons] at h
      obtain ⟨h1, h2⟩ := prefix_unique ha ha' h
      have := ih (hts t (by simp)) (hts' t' (by simp)) (fun x hx => hts x (by simp [hx]))
        (fun x hx => hts' x (by simp [hx])) h2
      exact ⟨h1, by rw [this.1, this.2]⟩

/-- Tokens of an ordered label map: key, value, key, value, … -/
def pairToks (l : Labels) : List Bytes := l.flatMap fun kv => [kv.1, kv.2]

theorem pairToks_length (l : Labels) : (pairToks l).length = 2 * l.length := by
  induction l with
  | nil => rfl
  | cons e t ih => simp only [pairToks, List.flatMap_cons, List.length_append] at *; simp [ih]; omega

theorem pairToks_inj {l l' : Labels} (h : pairToks l = pairToks l') : l = l' := by
  induction l generalizing l' with
  | nil => cases l' with
    | nil => rfl
    | cons e t => simp [pairToks] at h
  | cons e t ih => cases l' with
    | nil => simp [pairToks] at h
    | cons e' t' =>
      simp only [pairToks, List.flatMap_cons, List.cons_append, List.nil_append, List.cons.injEq] at h
      obtain ⟨h1, h2, h3⟩ := h
      rw [ih h3, Prod.ext h1 h2]

theorem labelsBytes_eq (l : Labels) : labelsBytes l = joinToks (pairToks (orderedLabels l)) := by
  simp only [labelsBytes, orderedLabels, joinToks, pairToks, List.flatMap_assoc]
  congr 1
  funext kv
  simp [List.flatMap_cons]

/-- All keys and values NUL-free. -/
def LabelsNulFree (l : Labels) : Prop := ∀ kv ∈ l, NulFree kv.1 ∧ NulFree kv.2

instance (l : Labels) : Decidable (LabelsNulFree l) := by unfold LabelsNulFree; infer_instance

theorem pairToks_nulFree {l : Labels} (hm : IsMap l) (h : LabelsNulFree l) :
    ∀ t ∈ pairToks (orderedLabels l), NulFree t := by
  intro t ht
  simp only [pairToks, List.mem_flatMap] at ht
  obtain ⟨kv, hkv, ht⟩ := ht
  have := h kv ((orderedLabels_perm l hm).mem_iff.mp hkv)
  simp only [List.mem_cons, List.not_mem_nil, or_false] at ht
  rcases ht with rfl | rfl
  · exact this.1
  · exact this.2

theorem labelsBytes_perm {l l' : Labels} (h : IsMap l) (p : l.Perm l') :
    labelsBytes l = labelsBytes l' := by
  have h' : IsMap l' := (p.map Prod.fst).nodup_iff.mp h
  rw [labelsBytes_eq, labelsBytes_eq, (orderedLabels_eq_iff l l' h h').mpr p]

end Verif
