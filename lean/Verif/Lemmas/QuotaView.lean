import Verif.Lemmas.QuotaCalls
/-
The entries of a quota aggregator as a map from signatures, and what calls do to it.
-/
set_option linter.unusedSectionVars false

namespace Verif.Quota
open Lru

variable {D : Type}

/-- Signature to identity and contents. -/
abbrev View (D : Type) := Bytes → Option (Nat × Elem D)

def View.set (M : View D) (k : Bytes) (x : Option (Nat × Elem D)) : View D := fun k' => if k' = k then x else M k'

def view (N : List (QElem D)) : View D := fun k => (findKey k N).map (fun e => (e.ptr, e.val))

theorem view_cons (e : QElem D) (N : List (QElem D)) : view (e :: N) = (view N).set e.key (some (e.ptr, e.val)) := by
  funext k
  simp only [view, View.set, findKey, List.find?_cons]
  by_cases h : k = e.key
  · subst h; simp
  · have : (e.key == k) = false := by simpa using fun x => h x.symm
    simp [this, h]

theorem view_none {N : List (QElem D)} {k : Bytes} : view N k = none ↔ ∀ e ∈ N, e.key ≠ k := by
  simp only [view, Option.map_eq_none_iff, findKey_none]

theorem view_some {N : List (QElem D)} (hk : (N.map (·.key)).Nodup) {k : Bytes} {p : Nat} {v : Elem D} :
    view N k = some (p, v) ↔ ∃ e ∈ N, e.key = k ∧ e.ptr = p ∧ e.val = v := by
  simp only [view, Option.map_eq_some_iff, Prod.mk.injEq]
  constructor
  · rintro ⟨e, he, h1, h2⟩
    have := (findKey_iff hk).mp he
    exact ⟨e, this.1, this.2, h1, h2⟩
  · rintro ⟨e, he, h0, h1, h2⟩
    exact ⟨e, (findKey_iff hk).mpr ⟨he, h0⟩, h1, h2⟩

theorem view_perm {N N' : List (QElem D)} (hk : (N.map (·.key)).Nodup) (hp : N.Perm N') : view N = view N' := by
  have hk' : (N'.map (·.key)).Nodup := (hp.map _).nodup_iff.mp hk
  funext k
  apply Option.ext
  rintro ⟨p, v⟩
  rw [view_some hk, view_some hk']
  simp only [hp.mem_iff]

theorem View.set_set (M : View D) (k : Bytes) (x y : Option (Nat × Elem D)) : (M.set k x).set k y = M.set k y := by
  funext k'; unfold View.set; split <;> rfl

theorem View.set_self (M : View D) (k : Bytes) (x : Option (Nat × Elem D)) : M.set k x k = x := by simp [View.set]

theorem View.set_ne (M : View D) (k k' : Bytes) (x : Option (Nat × Elem D)) (h : k' ≠ k) : M.set k x k' = M k' := by simp [View.set, h]

theorem View.set_none (M : View D) (k : Bytes) (h : M k = none) : M.set k none = M := by
  funext k'; unfold View.set; split
  · rename_i e; rw [e, h]
  · rfl

/-- Entries destroyed and requests sent while entries are put back, by clock readings from `lo` to `hi`. -/
inductive Bg (E : Env) (cfg : AggConfig) (inAll : Bool) (lo hi : Nat) : View D → List (Bytes × QReq D) → View D → Prop
  | nil (M) : Bg E cfg inAll lo hi M [] M
  | drop {M k p v o M'} : M k = some (p, v) →
      (inAll = true ∨ ∃ i, lo ≤ i ∧ i < hi ∧ shouldDrop E cfg v i = true) →
      Bg E cfg inAll lo hi (M.set k none) o M' → Bg E cfg inAll lo hi M o M'
  | send {M k p v a i o M'} : M k = some (p, v) → inAll = false → lo ≤ i → i < hi → v.inFlight = false → v.agg = some a →
      Bg E cfg inAll lo hi (M.set k (some (p, { v with inFlight := true, lastRefresh := E.clk i, agg := none }))) o M' →
      Bg E cfg inAll lo hi M ((k, ⟨cfg.serviceName, some (a.toProto cfg.U), cfg.serviceConfigId, []⟩) :: o) M'

theorem Bg.mono {E : Env} {cfg : AggConfig} {inAll : Bool} {lo hi lo' hi' : Nat} {M : View D} {o : List (Bytes × QReq D)} {M' : View D}
    (h : Bg E cfg inAll lo hi M o M') (h1 : lo' ≤ lo) (h2 : hi ≤ hi') : Bg E cfg inAll lo' hi' M o M' := by
  induction h with
  | nil M => exact .nil M
  | drop a b _ ih =>
    refine .drop a ?_ ih
    rcases b with b | ⟨i, b1, b2, b3⟩
    · exact .inl b
    · exact .inr ⟨i, by omega, by omega, b3⟩
  | send a b c d e f _ ih => exact .send a b (by omega) (by omega) e f ih

theorem Bg.trans {E : Env} {cfg : AggConfig} {inAll : Bool} {lo hi : Nat} {M : View D} {o : List (Bytes × QReq D)} {M' : View D}
    (h : Bg E cfg inAll lo hi M o M') {o' : List (Bytes × QReq D)} {M'' : View D} (h' : Bg E cfg inAll lo hi M' o' M'') :
    Bg E cfg inAll lo hi M (o ++ o') M'' := by
  induction h with
  | nil M => exact h'
  | drop a b _ ih => exact .drop a b (ih h')
  | send a b c d e f _ ih => exact .send a b c d e f (ih h')

/-- Background actions do not create entries. -/
theorem Bg.sub {E : Env} {cfg : AggConfig} {inAll : Bool} {lo hi : Nat} {M : View D} {o : List (Bytes × QReq D)} {M' : View D}
    (h : Bg E cfg inAll lo hi M o M') (k : Bytes) (hn : M k = none) : M' k = none := by
  induction h with
  | nil M => exact hn
  | drop a b _ ih =>
    apply ih
    unfold View.set; split
    · rfl
    · exact hn
  | send a b c d e f _ ih =>
    apply ih
    rename_i k' p v ag i o M1 _
    have hne : k ≠ k' := by intro e; subst e; rw [hn] at a; cases a
    rw [View.set_ne _ _ _ _ hne]; exact hn

/-- Sending (or not) for one entry. -/
theorem sendE_bg (E : Env) (cfg : AggConfig) (y : QElem D) (t : Nat) (N : List (QElem D)) :
    Bg E cfg false t (sendE E cfg y t).2.1 (view (y :: N)) (sendE E cfg y t).2.2 (view ((sendE E cfg y t).1 :: N)) := by
  unfold sendE
  split
  · rename_i hc
    obtain ⟨a, ha⟩ := Option.isSome_iff_exists.mp hc.2
    simp only [Elem.returnRequest, ha]
    refine .send (p := y.ptr) (v := y.val) (a := a) (i := t) ?_ rfl (Nat.le_refl _) (Nat.lt_succ_self _) hc.1 ha ?_
    · rw [view_cons, View.set_self]
    · rw [view_cons, View.set_set, view_cons]
      exact .nil _
  · exact .nil _

theorem requeue_bg (E : Env) (cfg : AggConfig) (inAll : Bool) (x : QElem D) (s : S D) (hx : ∀ e ∈ s.N, e.key ≠ x.key) :
    ∃ o, (requeue E cfg inAll x s).out = s.out ++ o ∧
      Bg E cfg inAll s.t (requeue E cfg inAll x s).t (view (x :: s.N)) o (view (requeue E cfg inAll x s).N) := by
  have hdrop : (view (x :: s.N)).set x.key none = view s.N := by
    rw [view_cons, View.set_set, View.set_none _ _ (view_none.mpr hx)]
  unfold requeue
  by_cases h1 : inAll = true
  · rw [if_pos h1]
    refine ⟨[], by simp, .drop (p := x.ptr) (v := x.val) (k := x.key) (by rw [view_cons, View.set_self]) (.inl h1) ?_⟩
    rw [hdrop]; exact .nil _
  · rw [if_neg h1]
    by_cases h2 : shouldDrop E cfg x.val s.t = true
    · rw [if_pos h2]
      refine ⟨[], by simp, .drop (p := x.ptr) (v := x.val) (k := x.key) (by rw [view_cons, View.set_self])
        (.inr ⟨s.t, Nat.le_refl _, Nat.lt_succ_self _, h2⟩) ?_⟩
      rw [hdrop]; exact .nil _
    · rw [if_neg h2]
      have hb : inAll = false := by simpa using h1
      subst hb
      refine ⟨_, rfl, ?_⟩
      have hv : view (x :: s.N) = view (renew E x s.nid (s.t + 1) :: s.N) := by rw [view_cons, view_cons]; rfl
      rw [hv]
      exact (sendE_bg E cfg _ _ _).mono (by omega) (Nat.le_refl _)

theorem requeue_append (E : Env) (cfg : AggConfig) (inAll : Bool) (x : QElem D) (s : S D) (L : List (QElem D)) :
    requeue E cfg inAll x ⟨s.N ++ L, s.nid, s.t, s.out⟩ =
      ⟨(requeue E cfg inAll x s).N ++ L, (requeue E cfg inAll x s).nid, (requeue E cfg inAll x s).t, (requeue E cfg inAll x s).out⟩ := by
  unfold requeue
  split
  · rfl
  · simp only
    split <;> rfl

theorem requeue_t (E : Env) (cfg : AggConfig) (inAll : Bool) (x : QElem D) (s : S D) :
    s.t ≤ (requeue E cfg inAll x s).t ∧ s.nid ≤ (requeue E cfg inAll x s).nid := by
  rcases requeue_cases E cfg inAll x s with ⟨_, h2, h3⟩ | ⟨y, _, h2, h3, _⟩
  · exact ⟨h3, by omega⟩
  · exact ⟨by omega, by omega⟩

theorem requeue_keys (E : Env) (cfg : AggConfig) (inAll : Bool) (x : QElem D) (s : S D) :
    ((requeue E cfg inAll x s).N.map (·.key)).Sublist (x.key :: s.N.map (·.key)) := by
  rcases requeue_cases E cfg inAll x s with ⟨h1, _⟩ | ⟨y, h1, _, _, hy, _⟩
  · rw [h1]; exact List.sublist_cons_self _ _
  · rw [h1, List.map_cons, hy]

theorem expire_bg (E : Env) (cfg : AggConfig) (inAll : Bool) (th : Int) (R : List (QElem D)) :
    ∀ s : S D, ((s.N ++ R.reverse).map (·.key)).Nodup →
      ∃ o, (expire E cfg inAll th R s).out = s.out ++ o ∧ s.t ≤ (expire E cfg inAll th R s).t ∧ s.nid ≤ (expire E cfg inAll th R s).nid ∧
        Bg E cfg inAll s.t (expire E cfg inAll th R s).t (view (s.N ++ R.reverse)) o (view (expire E cfg inAll th R s).N) := by
  induction R with
  | nil => intro s _; exact ⟨[], by simp [expire], Nat.le_refl _, Nat.le_refl _, by simp only [expire, List.reverse_nil, List.append_nil]; exact .nil _⟩
  | cons x R ih =>
    intro s hk
    unfold expire
    split
    · have hperm : (s.N ++ (x :: R).reverse).Perm (x :: (s.N ++ R.reverse)) := by
        rw [List.reverse_cons, ← List.append_assoc]
        exact (List.perm_append_comm (l₁ := s.N ++ R.reverse) (l₂ := [x]))
      have hk2 := (hperm.map (·.key)).nodup_iff.mp hk
      rw [List.map_cons, List.nodup_cons] at hk2
      have hx : ∀ e ∈ s.N ++ R.reverse, e.key ≠ x.key := fun e he h => hk2.1 (by rw [← h]; exact List.mem_map_of_mem he)
      obtain ⟨o1, ho1, hb1⟩ := requeue_bg E cfg inAll x ⟨s.N ++ R.reverse, s.nid, s.t, s.out⟩ hx
      rw [requeue_append] at ho1 hb1
      simp only at ho1 hb1
      have hsub : (((requeue E cfg inAll x s).N ++ R.reverse).map (·.key)).Nodup := by
        have hnd : ((x.key :: s.N.map (·.key)) ++ R.reverse.map (·.key)).Nodup := by
          rw [List.cons_append, ← List.map_append, List.nodup_cons]; exact hk2
        rw [List.map_append]
        exact hnd.sublist ((requeue_keys E cfg inAll x s).append_right _)
      obtain ⟨o2, ho2, ht2, hn2, hb2⟩ := ih (requeue E cfg inAll x s) hsub
      have ht1 := requeue_t E cfg inAll x s
      refine ⟨o1 ++ o2, by rw [ho2, ho1, List.append_assoc], by omega, by omega, ?_⟩
      rw [view_perm hk hperm]
      exact (hb1.mono (Nat.le_refl _) ht2).trans (hb2.mono ht1.1 (Nat.le_refl _))
    · exact ⟨[], by simp, Nat.le_refl _, Nat.le_refl _, .nil _⟩

theorem expireAll_bg (E : Env) (cfg : AggConfig) (inAll : Bool) (s : S D) (hk : (s.N.map (·.key)).Nodup) (hout : s.out = []) :
    s.t ≤ (expireAll E cfg inAll s).t ∧ s.nid ≤ (expireAll E cfg inAll s).nid ∧
      Bg E cfg inAll s.t (expireAll E cfg inAll s).t (view s.N) (expireAll E cfg inAll s).out (view (expireAll E cfg inAll s).N) := by
  unfold expireAll
  split
  · obtain ⟨o, ho, ht, hn, hb⟩ := expire_bg E cfg inAll (E.clk s.t - limitOf cfg) s.N.reverse ⟨[], s.nid, s.t + 1, s.out⟩ (by simpa using hk)
    simp only [List.reverse_reverse, List.nil_append, hout] at ho hb ht hn ⊢
    refine ⟨by omega, hn, ?_⟩
    rw [ho]
    exact hb.mono (Nat.le_succ _) (Nat.le_refl _)
  · rw [hout]
    exact ⟨Nat.le_refl _, Nat.le_refl _, .nil _⟩

theorem evict_bg (E : Env) (cfg : AggConfig) (inAll : Bool) (R : List (QElem D)) :
    ∀ (A : List (QElem D)) nid t F R' nid' t' o, evict E cfg inAll R nid t = some (F, R', nid', t', o) →
      ((A ++ R.reverse).map (·.key)).Nodup →
      t ≤ t' ∧ nid ≤ nid' ∧ Bg E cfg inAll t t' (view (A ++ R.reverse)) o (view (F ++ A ++ R'.reverse)) := by
  induction R with
  | nil => intro A nid t F R' nid' t' o h; simp [evict] at h
  | cons x R ih =>
    intro A nid t F R' nid' t' o h hk
    have hperm : (A ++ (x :: R).reverse).Perm (x :: (A ++ R.reverse)) := by
      rw [List.reverse_cons, ← List.append_assoc]
      exact (List.perm_append_comm (l₁ := A ++ R.reverse) (l₂ := [x]))
    have hk2 := (hperm.map (·.key)).nodup_iff.mp hk
    have hk3 := hk2
    rw [List.map_cons, List.nodup_cons] at hk2
    have hx : ∀ e ∈ A ++ R.reverse, e.key ≠ x.key := fun e he h => hk2.1 (by rw [← h]; exact List.mem_map_of_mem he)
    have hdrop : (view (x :: (A ++ R.reverse))).set x.key none = view (A ++ R.reverse) := by
      rw [view_cons, View.set_set, View.set_none _ _ (view_none.mpr hx)]
    rw [view_perm hk hperm]
    unfold evict at h
    split at h
    · rename_i h1
      simp only [Option.some.injEq, Prod.mk.injEq] at h; obtain ⟨rfl, rfl, rfl, rfl, rfl⟩ := h
      refine ⟨Nat.le_refl _, Nat.le_refl _, .drop (p := x.ptr) (v := x.val) (k := x.key) (by rw [view_cons, View.set_self]) (.inl h1) ?_⟩
      rw [hdrop]; exact .nil _
    · rename_i h1
      split at h
      · rename_i h2
        simp only [Option.some.injEq, Prod.mk.injEq] at h; obtain ⟨rfl, rfl, rfl, rfl, rfl⟩ := h
        refine ⟨Nat.le_succ _, Nat.le_refl _, .drop (p := x.ptr) (v := x.val) (k := x.key) (by rw [view_cons, View.set_self])
          (.inr ⟨t, Nat.le_refl _, Nat.lt_succ_self _, h2⟩) ?_⟩
        rw [hdrop]; exact .nil _
      · have hb : inAll = false := by simpa using h1
        subst hb
        split at h
        · cases h
        · rename_i F1 R1 nid1 t1 o1 he
          simp only [Option.some.injEq, Prod.mk.injEq] at h; obtain ⟨rfl, rfl, rfl, rfl, rfl⟩ := h
          obtain ⟨i1, i2, i3⟩ := ih (renew E x nid (t + 1) :: A) _ _ _ _ _ _ _ he (by simpa [renew] using hk3)
          have hsend := sendE_bg E cfg (renew E x nid (t + 1)) t1 (F1 ++ A ++ R1.reverse)
          have hs := sendE_spec E cfg (renew E x nid (t + 1)) t1
          -- the keys after the inner eviction
          have hkeys : ((renew E x nid (t + 1) :: (F1 ++ A ++ R1.reverse)).map (·.key)).Nodup := by
            obtain ⟨⟨z1, hz⟩, _⟩ := evict_shape E cfg false _ _ _ _ _ _ _ _ he
            have hp2 : ((x :: (A ++ R.reverse)).map (·.key)).Perm (x.key :: (R.map (·.key) ++ A.map (·.key))) := by
              rw [List.map_cons, List.map_append, List.map_reverse]
              exact (List.perm_append_comm.trans ((List.reverse_perm _).append_right _)).cons _
            have hnd := hp2.nodup_iff.mp hk3
            rw [hz] at hnd
            have hp3 : ((renew E x nid (t + 1) :: (F1 ++ A ++ R1.reverse)).map (·.key)).Perm
                (x.key :: (F1.reverse.map (·.key) ++ R1.map (·.key) ++ A.map (·.key))) := by
              simp only [List.map_cons, List.map_append, List.map_reverse, renew]
              refine List.Perm.cons _ ?_
              rw [List.append_assoc, List.append_assoc]
              exact (List.reverse_perm _).symm.append ((List.perm_append_comm).trans ((List.reverse_perm _).append_right _))
            rw [hp3.nodup_iff]
            refine hnd.sublist (List.Sublist.cons_cons _ ?_)
            exact ((List.Sublist.refl _).append (List.sublist_cons_self _ _)).append_right _
          have hp1 : (F1 ++ (renew E x nid (t + 1) :: A) ++ R1.reverse).Perm (renew E x nid (t + 1) :: (F1 ++ A ++ R1.reverse)) := by
            rw [List.append_assoc, List.append_assoc, List.cons_append]
            exact List.perm_middle
          have hp4 : (F1 ++ [(sendE E cfg (renew E x nid (t + 1)) t1).1] ++ A ++ R1.reverse).Perm
              ((sendE E cfg (renew E x nid (t + 1)) t1).1 :: (F1 ++ A ++ R1.reverse)) := by
            simp only [List.append_assoc, List.singleton_append]
            exact List.perm_middle
          have hkeys' : (((sendE E cfg (renew E x nid (t + 1)) t1).1 :: (F1 ++ A ++ R1.reverse)).map (·.key)).Nodup := by
            rw [List.map_cons, hs.1]; exact hkeys
          have hv0 : view (x :: (A ++ R.reverse)) = view (renew E x nid (t + 1) :: A ++ R.reverse) := by
            rw [List.cons_append, view_cons, view_cons]; rfl
          refine ⟨by have := hs.2.2.2.2.2.2.2.2; omega, by omega, ?_⟩
          rw [hv0, view_perm ((hp4.map _).nodup_iff.mpr hkeys') hp4]
          rw [view_perm ((hp1.map _).nodup_iff.mpr hkeys) hp1] at i3
          exact (i3.mono (by omega) hs.2.2.2.2.2.2.2.2).trans (hsend.mono (by omega) (Nat.le_refl _))

/-- The entries put back by an eviction are sorted by insertion time. -/
theorem evict_used {E : Env} (hm : Mono E.clk) (cfg : AggConfig) (inAll : Bool) (R : List (QElem D)) :
    ∀ nid t F R' nid' t' o, evict E cfg inAll R nid t = some (F, R', nid', t', o) →
      F.Pairwise (fun a b => b.lastUse ≤ a.lastUse) ∧ (∀ e ∈ F, ∃ i, t ≤ i ∧ i < t' ∧ e.lastUse = E.clk i) ∧
      ((∀ e ∈ R, e.val.sig = e.key) → ∀ e ∈ F, e.val.sig = e.key) := by
  induction R with
  | nil => intro nid t F R' nid' t' o h; simp [evict] at h
  | cons x R ih =>
    intro nid t F R' nid' t' o h
    unfold evict at h
    split at h
    · simp only [Option.some.injEq, Prod.mk.injEq] at h; obtain ⟨rfl, rfl, rfl, rfl, rfl⟩ := h; simp
    · split at h
      · simp only [Option.some.injEq, Prod.mk.injEq] at h; obtain ⟨rfl, rfl, rfl, rfl, rfl⟩ := h; simp
      · split at h
        · cases h
        · rename_i F1 R1 nid1 t1 o1 he
          simp only [Option.some.injEq, Prod.mk.injEq] at h; obtain ⟨rfl, rfl, rfl, rfl, rfl⟩ := h
          obtain ⟨i1, i2, i3⟩ := ih _ _ _ _ _ _ _ he
          have hs := sendE_spec E cfg (renew E x nid (t + 1)) t1
          have ht1 := (evict_shape E cfg inAll _ _ _ _ _ _ _ _ he).2.2.2.2.2.2
          have hlu : (sendE E cfg (renew E x nid (t + 1)) t1).1.lastUse = E.clk (t + 1) := hs.2.2.2.2.2.2.1
          refine ⟨?_, ?_, ?_⟩
          · rw [List.pairwise_append]
            refine ⟨i1, by simp, ?_⟩
            intro a ha b hb
            rw [List.mem_singleton] at hb; subst hb
            obtain ⟨i, h1, h2, h3⟩ := i2 a ha
            rw [h3, hlu]; exact hm.le (by omega)
          · intro e he'
            rcases List.mem_append.mp he' with h1 | h1
            · obtain ⟨i, h2, h3, h4⟩ := i2 e h1
              exact ⟨i, by omega, by have := hs.2.2.2.2.2.2.2.2; omega, h4⟩
            · rw [List.mem_singleton] at h1; subst h1
              exact ⟨t + 1, by omega, by have := hs.2.2.2.2.2.2.2.2; omega, hlu⟩
          · intro hsig e he'
            rcases List.mem_append.mp he' with h1 | h1
            · exact i3 (fun e he => hsig e (by simp [he])) e h1
            · rw [List.mem_singleton] at h1; subst h1
              rw [hs.2.2.2.2.2.2.2.1, hs.1]; exact hsig x (by simp)

/-- What an eviction leaves. -/
theorem evict_inv {E : Env} (hm : Mono E.clk) (cfg : AggConfig) (inAll : Bool) {cap : Int} (s : S D) (h : SInv E cap s)
    (r : QReq D) (hk : ∀ e ∈ s.N, e.key ≠ allocateQuotaSig cfg.H r)
    (F R' : List (QElem D)) (nid' t' : Nat) (o : List (Bytes × QReq D))
    (he : evict E cfg inAll s.N.reverse (s.nid + 1) (s.t + 2) = some (F, R', nid', t', o)) (o' : List (Bytes × QReq D)) :
    SInv E cap ⟨F ++ fresh E cfg r s :: R'.reverse, nid', t', o'⟩ := by
  obtain ⟨⟨z1, hz1⟩, ⟨z2, hz2⟩, ⟨z3, hz3⟩, hF, hFid, hnid, ht⟩ := evict_shape E cfg inAll _ _ _ _ _ _ _ _ he
  obtain ⟨hs1, hs2, hs3⟩ := evict_used hm cfg inAll _ _ _ _ _ _ _ _ he
  have hlen := evict_length E cfg inAll _ _ _ _ _ _ _ _ he
  have hR : ∀ e ∈ R', e ∈ s.N := by
    intro e he'
    have : e ∈ s.N.reverse := by rw [hz3]; simp [he']
    simpa using this
  have hsub : R'.reverse.Sublist s.N := by
    have : R'.Sublist s.N.reverse := by rw [hz3]; exact (List.sublist_cons_self _ _).trans (List.sublist_append_right _ _)
    simpa using this.reverse
  have hFk : ∀ e ∈ F, ∃ y ∈ s.N, y.key = e.key := by
    intro e he'
    have : e.key ∈ s.N.reverse.map (·.key) := by rw [hz1]; simp only [List.mem_append, List.mem_map, List.mem_reverse]; exact .inl ⟨e, he', rfl⟩
    simpa using this
  have hFp : ∀ e ∈ F, ∃ y ∈ s.N, y.ptr = e.ptr := by
    intro e he'
    have : e.ptr ∈ s.N.reverse.map (·.ptr) := by rw [hz2]; simp only [List.mem_append, List.mem_map, List.mem_reverse]; exact .inl ⟨e, he', rfl⟩
    simpa using this
  have hdk : ((F.reverse ++ R').map (·.key)).Nodup := by
    have h1 : (s.N.reverse.map (·.key)).Nodup := by rw [List.map_reverse]; exact List.nodup_reverse.mpr h.keys
    rw [hz1] at h1
    rw [List.map_append]
    exact h1.sublist ((List.Sublist.refl _).append (List.sublist_cons_self _ _))
  have hdp : ((F.reverse ++ R').map (·.ptr)).Nodup := by
    have h1 : (s.N.reverse.map (·.ptr)).Nodup := by rw [List.map_reverse]; exact List.nodup_reverse.mpr h.ptrs
    rw [hz2] at h1
    rw [List.map_append]
    exact h1.sublist ((List.Sublist.refl _).append (List.sublist_cons_self _ _))
  have hperm : (F ++ fresh E cfg r s :: R'.reverse).Perm (fresh E cfg r s :: (F.reverse ++ R')) :=
    List.perm_middle.trans (((List.reverse_perm F).symm.append (List.reverse_perm R')).cons _)
  refine ⟨?_, ?_, ?_, ?_, ?_, ?_, ?_, ?_⟩
  · rw [List.map_append, List.map_cons, List.nodup_append, List.nodup_cons]
    refine ⟨hFid, ⟨?_, h.ids.sublist (hsub.map _)⟩, ?_⟩
    · intro hx
      obtain ⟨y, hy, hyi⟩ := List.mem_map.mp hx
      have := (h.elem y (hsub.subset hy)).2.2.1
      simp only [fresh] at hyi; omega
    · intro a ha b hb
      obtain ⟨x, hx, rfl⟩ := List.mem_map.mp ha
      have h1 := (hF x hx).1
      rcases List.mem_cons.mp hb with rfl | hb
      · simp only [fresh]; omega
      · obtain ⟨y, hy, rfl⟩ := List.mem_map.mp hb
        have := (h.elem y (hsub.subset hy)).2.2.1; omega
  · rw [(hperm.map _).nodup_iff, List.map_cons, List.nodup_cons]
    refine ⟨?_, hdk⟩
    intro hx
    obtain ⟨y, hy, hyk⟩ := List.mem_map.mp hx
    rcases List.mem_append.mp hy with hy | hy
    · obtain ⟨z, hz, hzk⟩ := hFk y (by simpa using hy)
      exact hk z hz (by rw [hzk, hyk]; rfl)
    · exact hk y (hR y hy) hyk
  · rw [(hperm.map _).nodup_iff, List.map_cons, List.nodup_cons]
    refine ⟨?_, hdp⟩
    intro hx
    obtain ⟨y, hy, hyk⟩ := List.mem_map.mp hx
    simp only [fresh] at hyk
    rcases List.mem_append.mp hy with hy | hy
    · obtain ⟨z, hz, hzk⟩ := hFp y (by simpa using hy)
      have := (h.elem z hz).2.2.2.1; omega
    · have := (h.elem y (hR y hy)).2.2.2.1; omega
  · intro e he'
    simp only [List.mem_append, List.mem_cons, List.mem_reverse] at he'
    rcases he' with h1 | rfl | h1
    · obtain ⟨a1, a2, a3, a4, a5⟩ := hF e h1
      obtain ⟨y, hy, hyp⟩ := hFp e h1
      have := (h.elem y hy).2.2.2.1
      exact ⟨a3, a4, a2, by simp only; omega, a5, hs3 (fun e he => (h.elem e (by simpa using he)).2.2.2.2.2) e h1⟩
    · simp only [fresh]; exact ⟨trivial, trivial, by omega, by omega, trivial, trivial⟩
    · obtain ⟨a1, a2, a3, a4, a5⟩ := h.elem e (hR e h1)
      exact ⟨a1, a2, by simp only; omega, by simp only; omega, a5⟩
  · have := h.len
    simp only [List.length_append, List.length_cons, List.length_reverse] at hlen ⊢
    omega
  · rw [List.pairwise_append, List.pairwise_cons]
    refine ⟨hs1, ⟨?_, h.sorted.sublist hsub⟩, ?_⟩
    · intro a ha
      have := (h.used a (hsub.subset ha)).2
      exact Int.le_trans this (hm.le (Nat.le_succ _))
    · intro a ha b hb
      obtain ⟨i, h1, h2, h3⟩ := hs2 a ha
      rw [h3]
      rcases List.mem_cons.mp hb with rfl | hb
      · exact hm.le (by omega)
      · exact Int.le_trans (h.used b (hsub.subset hb)).2 (hm.le (by omega))
  · intro e he'
    simp only [List.mem_append, List.mem_cons, List.mem_reverse] at he'
    rcases he' with h1 | rfl | h1
    · obtain ⟨i, h1, h2, h3⟩ := hs2 e h1
      rw [h3]; exact ⟨hm.pos _, hm.le (Nat.le_of_lt h2)⟩
    · exact ⟨hm.pos _, hm.le (by simp only; omega)⟩
    · have := h.used e (hR e h1)
      exact ⟨this.1, Int.le_trans this.2 (hm.le (by simp only; omega))⟩
  · intro e he'
    simp only [List.mem_append, List.mem_cons, List.mem_reverse] at he'
    rcases he' with h1 | rfl | h1
    · obtain ⟨i, _, h2, h3⟩ := hs2 e h1
      exact ⟨i, h2, h3⟩
    · exact ⟨s.t + 1, by simp only; omega, rfl⟩
    · exact (h.read e (hR e h1)).imp fun _ hj => ⟨by simp only; omega, hj.2⟩

theorem expire_kept (E : Env) (cfg : AggConfig) (inAll : Bool) (th : Int) (R : List (QElem D)) :
    ∀ s : S D, ∀ e ∈ s.N, e ∈ (expire E cfg inAll th R s).N := by
  induction R with
  | nil => intro s e he; exact he
  | cons x R ih =>
    intro s e he
    unfold expire
    split
    · apply ih
      rcases requeue_cases E cfg inAll x s with ⟨h1, _⟩ | ⟨y, h1, _⟩
      · rw [h1]; exact he
      · rw [h1]; exact List.mem_cons_of_mem _ he
    · simp [he]

/-- An entry for which a request was sent on expiry stays. -/
theorem expire_once (E : Env) (cfg : AggConfig) (inAll : Bool) (th : Int) (R : List (QElem D)) :
    ∀ s : S D, (∀ k q, (k, q) ∈ s.out → ∃ e ∈ s.N, e.key = k) →
      ∀ k q, (k, q) ∈ (expire E cfg inAll th R s).out → ∃ e ∈ (expire E cfg inAll th R s).N, e.key = k := by
  induction R with
  | nil => intro s h; exact h
  | cons x R ih =>
    intro s h
    unfold expire
    split
    · apply ih
      intro k q hq
      unfold requeue at hq ⊢
      split at hq
      · rename_i h1; rw [if_pos h1]; exact h k q hq
      · rename_i h1; rw [if_neg h1]
        split at hq
        · rename_i h2; rw [if_pos h2]; exact h k q hq
        · rename_i h2; rw [if_neg h2]
          simp only at hq ⊢
          rcases List.mem_append.mp hq with hq | hq
          · obtain ⟨e, he, hk⟩ := h k q hq
            exact ⟨e, List.mem_cons_of_mem _ he, hk⟩
          · refine ⟨_, List.mem_cons_self, ?_⟩
            rw [(sendE_spec E cfg _ _).1]
            unfold sendE at hq
            split at hq
            · simp only [List.mem_singleton, Prod.mk.injEq] at hq; exact hq.1.symm
            · cases hq
    · intro k q hq
      obtain ⟨e, he, hk⟩ := h k q hq
      exact ⟨e, by simp [he], hk⟩

theorem expireAll_once (E : Env) (cfg : AggConfig) (inAll : Bool) (s : S D) (hout : s.out = []) (k : Bytes) (q : QReq D)
    (hq : (k, q) ∈ (expireAll E cfg inAll s).out) : ∃ e ∈ (expireAll E cfg inAll s).N, e.key = k := by
  unfold expireAll at hq ⊢
  split at hq
  · rename_i hl; rw [if_pos hl]
    exact expire_once E cfg inAll _ _ _ (by simp [hout]) k q hq
  · rw [hout] at hq; cases hq

/-- Nothing is sent for an absent entry. -/
theorem Bg.quiet {E : Env} {cfg : AggConfig} {inAll : Bool} {lo hi : Nat} {M : View D} {o : List (Bytes × QReq D)} {M' : View D}
    (h : Bg E cfg inAll lo hi M o M') (k : Bytes) (hn : M k = none) : ∀ q, (k, q) ∉ o := by
  induction h with
  | nil M => simp
  | drop a b _ ih =>
    apply ih
    unfold View.set; split
    · rfl
    · exact hn
  | send a b c d e f _ ih =>
    rename_i k' p v ag i o M1 _
    have hne : k ≠ k' := by intro e; subst e; rw [hn] at a; cases a
    intro q hq
    rcases List.mem_cons.mp hq with h1 | h1
    · simp only [Prod.mk.injEq] at h1; exact hne h1.1
    · exact ih (by rw [View.set_ne _ _ _ _ hne]; exact hn) q h1

/-- The entry holds something, and nothing is in flight. -/
def Ripe (e : QElem D) : Prop := e.val.inFlight = false ∧ e.val.agg.isSome = true

theorem sendE_ripe (E : Env) (cfg : AggConfig) (y : QElem D) (t : Nat) (hr : Ripe y) : ∃ q, (y.key, q) ∈ (sendE E cfg y t).2.2 := by
  unfold sendE
  rw [if_pos (show y.val.inFlight = false ∧ y.val.agg.isSome = true from hr)]
  exact ⟨_, List.mem_singleton.mpr rfl⟩

theorem requeue_ripe (E : Env) (cfg : AggConfig) (inAll : Bool) (x : QElem D) (s : S D) (hr : Ripe x) :
    (requeue E cfg inAll x s).N = s.N ∨ ∃ q, (x.key, q) ∈ (requeue E cfg inAll x s).out := by
  unfold requeue
  split
  · exact .inl rfl
  · split
    · exact .inl rfl
    · right
      obtain ⟨q, hq⟩ := sendE_ripe E cfg (renew E x s.nid (s.t + 1)) (s.t + 2) hr
      exact ⟨q, List.mem_append_right _ hq⟩

/-- What expiry does to an entry that holds something. -/
theorem expire_ripe (E : Env) (cfg : AggConfig) (inAll : Bool) (th : Int) (R : List (QElem D)) :
    ∀ s : S D, ((s.N ++ R.reverse).map (·.key)).Nodup → ∀ e ∈ R, Ripe e →
      e ∈ (expire E cfg inAll th R s).N ∨ (∃ q, (e.key, q) ∈ (expire E cfg inAll th R s).out) ∨
        ∀ e' ∈ (expire E cfg inAll th R s).N, e'.key ≠ e.key := by
  induction R with
  | nil => intro s _ e he; cases he
  | cons x R ih =>
    intro s hk e he hr
    unfold expire
    split
    · have hperm : (s.N ++ (x :: R).reverse).Perm (x :: (s.N ++ R.reverse)) := by
        rw [List.reverse_cons, ← List.append_assoc]
        exact (List.perm_append_comm (l₁ := s.N ++ R.reverse) (l₂ := [x]))
      have hk2 := (hperm.map (·.key)).nodup_iff.mp hk
      rw [List.map_cons, List.nodup_cons] at hk2
      have hx : ∀ e ∈ s.N ++ R.reverse, e.key ≠ x.key := fun e he h => hk2.1 (by rw [← h]; exact List.mem_map_of_mem he)
      have hsub : (((requeue E cfg inAll x s).N ++ R.reverse).map (·.key)).Nodup := by
        have hnd : ((x.key :: s.N.map (·.key)) ++ R.reverse.map (·.key)).Nodup := by
          rw [List.cons_append, ← List.map_append, List.nodup_cons]; exact hk2
        rw [List.map_append]
        exact hnd.sublist ((requeue_keys E cfg inAll x s).append_right _)
      rcases List.mem_cons.mp he with rfl | he
      · obtain ⟨o, ho, _, _, hb⟩ := expire_bg E cfg inAll th R _ hsub
        rcases requeue_ripe E cfg inAll e s hr with h1 | ⟨q, h1⟩
        · right; right
          rw [h1] at hb
          exact view_none.mp (hb.sub _ (view_none.mpr hx))
        · right; left
          exact ⟨q, by rw [ho]; exact List.mem_append_left _ h1⟩
      · exact ih _ hsub e he hr
    · left
      exact List.mem_append_right _ (List.mem_reverse.mpr he)

theorem expireAll_ripe (E : Env) (cfg : AggConfig) (inAll : Bool) (s : S D) (hk : (s.N.map (·.key)).Nodup) (e : QElem D) (he : e ∈ s.N) (hr : Ripe e) :
    e ∈ (expireAll E cfg inAll s).N ∨ (∃ q, (e.key, q) ∈ (expireAll E cfg inAll s).out) ∨
      ∀ e' ∈ (expireAll E cfg inAll s).N, e'.key ≠ e.key := by
  unfold expireAll
  split
  · exact expire_ripe E cfg inAll _ _ _ (by simpa using hk) e (by simpa using he) hr
  · exact .inl he

theorem evict_ripe (E : Env) (cfg : AggConfig) (inAll : Bool) (R : List (QElem D)) :
    ∀ nid t F R' nid' t' o, evict E cfg inAll R nid t = some (F, R', nid', t', o) → (R.map (·.key)).Nodup → ∀ e ∈ R, Ripe e →
      e ∈ R' ∨ (∃ q, (e.key, q) ∈ o) ∨ ∀ e' ∈ F ++ R', e'.key ≠ e.key := by
  induction R with
  | nil => intro nid t F R' nid' t' o h; simp [evict] at h
  | cons x R ih =>
    intro nid t F R' nid' t' o h hk e he hr
    rw [List.map_cons, List.nodup_cons] at hk
    have hx : ∀ e ∈ R, e.key ≠ x.key := fun e he h => hk.1 (by rw [← h]; exact List.mem_map_of_mem he)
    unfold evict at h
    split at h
    · simp only [Option.some.injEq, Prod.mk.injEq] at h; obtain ⟨rfl, rfl, rfl, rfl, rfl⟩ := h
      rcases List.mem_cons.mp he with rfl | he
      · exact .inr (.inr (by simpa using hx))
      · exact .inl he
    · split at h
      · simp only [Option.some.injEq, Prod.mk.injEq] at h; obtain ⟨rfl, rfl, rfl, rfl, rfl⟩ := h
        rcases List.mem_cons.mp he with rfl | he
        · exact .inr (.inr (by simpa using hx))
        · exact .inl he
      · split at h
        · cases h
        · rename_i F1 R1 nid1 t1 o1 hev
          simp only [Option.some.injEq, Prod.mk.injEq] at h; obtain ⟨rfl, rfl, rfl, rfl, rfl⟩ := h
          rcases List.mem_cons.mp he with rfl | he
          · right; left
            obtain ⟨q, hq⟩ := sendE_ripe E cfg (renew E e nid (t + 1)) t1 hr
            exact ⟨q, List.mem_append_right _ hq⟩
          · rcases ih _ _ _ _ _ _ _ hev hk.2 e he hr with h1 | ⟨q, h1⟩ | h1
            · exact .inl h1
            · exact .inr (.inl ⟨q, List.mem_append_left _ h1⟩)
            · right; right
              intro e' he'
              simp only [List.mem_append, List.mem_singleton] at he' h1
              rcases he' with (h2 | rfl) | h2
              · exact h1 e' (.inl h2)
              · rw [(sendE_spec E cfg _ _).1]
                exact (hx e he).symm
              · exact h1 e' (.inr h2)

/-- After the expiry only young entries are left. -/
theorem expire_young (E : Env) (cfg : AggConfig) (inAll : Bool) (th : Int) (hm : Mono E.clk) (R : List (QElem D)) :
    ∀ s : S D, th ≤ E.clk s.t → (∀ e ∈ s.N, th ≤ e.lastUse) → R.Pairwise (fun a b => a.lastUse ≤ b.lastUse) →
      ∀ e ∈ (expire E cfg inAll th R s).N, th ≤ e.lastUse := by
  induction R with
  | nil => intro s _ h _; exact h
  | cons x R ih =>
    intro s ht h hp
    rw [List.pairwise_cons] at hp
    unfold expire
    split
    · refine ih _ (Int.le_trans ht (hm.le (requeue_t E cfg inAll x s).1)) ?_ hp.2
      rcases requeue_cases E cfg inAll x s with ⟨h1, _⟩ | ⟨y, h1, _, _, _, _, _, _, _, _, h2, _⟩
      · rw [h1]; exact h
      · rw [h1]
        intro e he
        rcases List.mem_cons.mp he with rfl | he
        · rw [h2]; exact Int.le_trans ht (hm.le (Nat.le_succ _))
        · exact h e he
    · rename_i hx
      intro e he
      simp only [List.mem_append, List.mem_reverse, List.mem_cons] at he
      rcases he with he | rfl | he
      · exact h e he
      · omega
      · have := hp.1 e he; omega

theorem expireAll_young (E : Env) (cfg : AggConfig) (inAll : Bool) (s : S D) (hm : Mono E.clk) {cap : Int} (h : SInv E cap s) (hl : 0 ≤ limitOf cfg) :
    ∀ e ∈ (expireAll E cfg inAll s).N, E.clk s.t - limitOf cfg ≤ e.lastUse := by
  unfold expireAll
  rw [if_pos hl]
  refine expire_young E cfg inAll _ hm _ _ ?_ (by simp) (List.pairwise_reverse.mpr h.sorted)
  have := hm.le (Nat.le_succ s.t)
  simp only [Nat.succ_eq_add_one] at this ⊢
  omega

/-- An entry that holds something is still there as it was put in, or something was sent for it, or it was destroyed. -/
def Kept (N' : List (QElem D)) (o : List (Bytes × QReq D)) (e : QElem D) : Prop :=
  (∃ e' ∈ N', e'.key = e.key ∧ e'.ptr = e.ptr ∧ e'.lastUse = e.lastUse ∧ Ripe e') ∨ (∃ q, (e.key, q) ∈ o) ∨
    ∀ e' ∈ N', e'.key = e.key → e'.ptr ≠ e.ptr

/-- What a call does to the entries. -/
inductive VCall (E : Env) (cfg : AggConfig) (inAll : Bool) (lo hi nid : Nat) (M : View D) :
    Call D → Out → List (Bytes × QReq D) → View D → Bool → Prop
  | invalid {r} : ¬ Valid cfg r → VCall E cfg inAll lo hi nid M (.quota r) ⟨.invalidArgument, none⟩ [] M inAll
  | miss {r o1 M1 o2 M2 i p} : Valid cfg r → Bg E cfg inAll lo hi M o1 M1 → M1 (allocateQuotaSig cfg.H r) = none →
      (∀ q, (allocateQuotaSig cfg.H r, q) ∉ o1) → Bg E cfg inAll lo hi M1 o2 M2 → lo ≤ i → i < hi → nid ≤ p →
      VCall E cfg inAll lo hi nid M (.quota r) ⟨.ok, some .default⟩ (o1 ++ o2 ++ [(allocateQuotaSig cfg.H r, r)])
        (M2.set (allocateQuotaSig cfg.H r)
          (some (p, ⟨r, .default, allocateQuotaSig cfg.H r, E.clk i, true, none⟩))) inAll
  | hit {r o1 M1 p v t1 v1 t2 qs v2} : Valid cfg r → Bg E cfg inAll lo hi M o1 M1 → M1 (allocateQuotaSig cfg.H r) = some (p, v) →
      lo ≤ t1 → t2 ≤ hi → refresh E cfg v t1 = (v1, t2, qs) →
      (if v1.positive then v1.aggregate E r else .ok v1) = .ok v2 →
      VCall E cfg inAll lo hi nid M (.quota r) ⟨.ok, some v2.response⟩ (o1 ++ qs.map (fun q => (allocateQuotaSig cfg.H r, q)))
        (M1.set (allocateQuotaSig cfg.H r) (some (p, v2))) inAll
  | respMiss {r resp o1 M1} : Bg E cfg inAll lo hi M o1 M1 → M1 (allocateQuotaSig cfg.H r) = none →
      VCall E cfg inAll lo hi nid M (.cacheResponse r resp) ⟨.ok, none⟩ o1 M1 inAll
  | respHit {r resp o1 M1 p v} : Bg E cfg inAll lo hi M o1 M1 → M1 (allocateQuotaSig cfg.H r) = some (p, v) →
      VCall E cfg inAll lo hi nid M (.cacheResponse r resp) ⟨.ok, none⟩ o1
        (M1.set (allocateQuotaSig cfg.H r) (some (p, { v with inFlight := false }.setResponse resp))) inAll
  | flush {o1 M1} : Bg E cfg inAll lo hi M o1 M1 → VCall E cfg inAll lo hi nid M .flush ⟨.ok, none⟩ o1 M1 inAll
  | flushAll : VCall E cfg inAll lo hi nid M .flushAll ⟨.ok, none⟩ [] (fun _ => none) true

theorem view_mid (A B : List (QElem D)) (e : QElem D) (v : Elem D) (hk : ((A ++ e :: B).map (·.key)).Nodup) :
    view (A ++ { e with val := v } :: B) = (view (A ++ e :: B)).set e.key (some (e.ptr, v)) := by
  have p1 : (A ++ e :: B).Perm (e :: (A ++ B)) := List.perm_middle
  have p2 : (A ++ { e with val := v } :: B).Perm ({ e with val := v } :: (A ++ B)) := List.perm_middle
  have hk2 : ((A ++ { e with val := v } :: B).map (·.key)).Nodup := by
    rw [List.map_append, List.map_cons] at hk ⊢; exact hk
  rw [view_perm hk p1, view_perm hk2 p2, view_cons, view_cons, View.set_set]

theorem refresh_t (E : Env) (cfg : AggConfig) (v : Elem D) (t : Nat) :
    t ≤ (refresh E cfg v t).2.1 ∧ (refresh E cfg v t).1.sig = v.sig := by
  unfold refresh
  split
  · split
    · simp only [Elem.returnRequest]; split <;> simp
    · simp
  · simp

theorem aggregate_cases {E : Env} {v v' : Elem D} {r : QReq D} (h : v.aggregate E r = .ok v') :
    ∃ a, v' = { v with agg := some a } ∧ ((v.agg = none ∧ QuotaAgg.new E.dbg r.op = .ok a) ∨
      ∃ b, v.agg = some b ∧ b.mergeOperation E.dbg r.op = .ok a) := by
  unfold Elem.aggregate at h
  cases hv : v.agg with
  | none =>
    simp only [hv] at h
    cases hn : QuotaAgg.new E.dbg r.op with
    | error e => rw [hn] at h; cases h
    | ok a => rw [hn] at h; cases h; exact ⟨a, rfl, .inl ⟨rfl, rfl⟩⟩
  | some b =>
    simp only [hv] at h
    cases hn : b.mergeOperation E.dbg r.op with
    | error e => rw [hn] at h; cases h
    | ok a => rw [hn] at h; cases h; exact ⟨a, rfl, .inr ⟨b, rfl, hn⟩⟩

theorem aggregate_sig {E : Env} {v v' : Elem D} {r : QReq D} (h : v.aggregate E r = .ok v') :
    v'.sig = v.sig ∧ v'.response = v.response ∧ v'.request = v.request ∧ v'.inFlight = v.inFlight ∧ v'.lastRefresh = v.lastRefresh := by
  obtain ⟨a, rfl, _⟩ := aggregate_cases h
  exact ⟨rfl, rfl, rfl, rfl, rfl⟩

/-- An entry with another value. -/
theorem SInv.setVal {E : Env} (hm : Mono E.clk) {cap : Int} {s : S D} (h : SInv E cap s) (A B : List (QElem D)) (e : QElem D) (hN : s.N = A ++ e :: B)
    (v : Elem D) (hv : v.sig = e.val.sig) (t : Nat) (ht : s.t ≤ t) (o : List (Bytes × QReq D)) :
    SInv E cap ⟨A ++ { e with val := v } :: B, s.nid, t, o⟩ := by
  have h' := h.later hm t ht o
  have hmem : ∀ x ∈ A ++ { e with val := v } :: B, ∃ y ∈ s.N, y.id = x.id ∧ y.key = x.key ∧ y.ptr = x.ptr ∧ y.linked = x.linked ∧
      y.units = x.units ∧ y.pin = x.pin ∧ y.lastUse = x.lastUse ∧ y.val.sig = x.val.sig := by
    intro x hx
    rw [hN]
    simp only [List.mem_append, List.mem_cons] at hx ⊢
    rcases hx with hx | rfl | hx
    · exact ⟨x, .inl hx, rfl, rfl, rfl, rfl, rfl, rfl, rfl, rfl⟩
    · exact ⟨e, .inr (.inl rfl), rfl, rfl, rfl, rfl, rfl, rfl, rfl, hv.symm⟩
    · exact ⟨x, .inr (.inr hx), rfl, rfl, rfl, rfl, rfl, rfl, rfl, rfl⟩
  refine ⟨?_, ?_, ?_, ?_, ?_, ?_, ?_, ?_⟩
  · have := h.ids; rw [hN] at this; simpa using this
  · have := h.keys; rw [hN] at this; simpa using this
  · have := h.ptrs; rw [hN] at this; simpa using this
  · intro x hx
    obtain ⟨y, hy, a1, a2, a3, a4, a5, a6, a7, a8⟩ := hmem x hx
    have := h.elem y hy
    rw [a1, a2, a3, a4, a5, a6, a8] at this
    exact this
  · have := h.len; rw [hN] at this; simpa using this
  · have hso := h.sorted
    rw [hN, List.pairwise_append, List.pairwise_cons] at hso
    rw [List.pairwise_append, List.pairwise_cons]
    refine ⟨hso.1, hso.2.1, fun a ha b hb => ?_⟩
    rcases List.mem_cons.mp hb with rfl | hb
    · exact hso.2.2 a ha e (by simp)
    · exact hso.2.2 a ha b (by simp [hb])
  · intro x hx
    obtain ⟨y, hy, _, _, _, _, _, _, a7, _⟩ := hmem x hx
    have := h'.used y hy
    rw [a7] at this; exact this
  · intro x hx
    obtain ⟨y, hy, _, _, _, _, _, _, a7, _⟩ := hmem x hx
    have := h'.read y hy
    rw [a7] at this; exact this

theorem refresh_ripe {E : Env} {cfg : AggConfig} {v v1 v2 : Elem D} {t t2 : Nat} {qs : List (QReq D)} {r : QReq D}
    (hf : v.inFlight = false) (ha : v.agg.isSome = true) (h : refresh E cfg v t = (v1, t2, qs))
    (hag : (if v1.positive then v1.aggregate E r else .ok v1) = .ok v2) :
    qs ≠ [] ∨ v2.inFlight = false ∧ v2.agg.isSome = true := by
  unfold refresh at h
  rw [if_pos hf] at h
  split at h
  · simp only [Prod.mk.injEq] at h
    obtain ⟨_, _, rfl⟩ := h
    exact .inl (by simp)
  · simp only [Prod.mk.injEq] at h
    obtain ⟨rfl, _, _⟩ := h
    right
    split at hag
    · obtain ⟨a, rfl, _⟩ := aggregate_cases hag
      exact ⟨hf, rfl⟩
    · cases hag; exact ⟨hf, ha⟩

/-- The call stored a negative response for `k`. -/
def Rejects (cfg : AggConfig) (k : Bytes) (c : Call D) : Prop :=
  ∃ r resp, c = .cacheResponse r resp ∧ allocateQuotaSig cfg.H r = k ∧ resp.allocateErrors ≠ []

theorem kept_mid {A B : List (QElem D)} {e x : QElem D} {v : Elem D} {o : List (Bytes × QReq D)} (hx : x ∈ A ++ e :: B) (hr : Ripe x)
    (he : x = e → v.inFlight = false ∧ v.agg.isSome = true ∨ ∃ q, (x.key, q) ∈ o) : Kept (A ++ { e with val := v } :: B) o x := by
  simp only [List.mem_append, List.mem_cons] at hx
  rcases hx with hx | rfl | hx
  · exact .inl ⟨x, by simp [hx], rfl, rfl, rfl, hr⟩
  · rcases he rfl with h1 | h1
    · exact .inl ⟨{ x with val := v }, by simp, rfl, rfl, rfl, h1⟩
    · exact .inr (.inl h1)
  · exact .inl ⟨x, by simp [hx], rfl, rfl, rfl, hr⟩

theorem kept_absent {A B : List (QElem D)} {e x : QElem D} {v : Elem D} {o : List (Bytes × QReq D)} (hx : ∀ y ∈ A ++ e :: B, y.key ≠ x.key) :
    Kept (A ++ { e with val := v } :: B) o x := by
  refine .inr (.inr fun y hy hk => ?_)
  simp only [List.mem_append, List.mem_cons] at hy
  rcases hy with hy | rfl | hy
  · exact absurd hk (hx y (by simp [hy]))
  · exact absurd hk (hx e (by simp))
  · exact absurd hk (hx y (by simp [hy]))

/-- Among `N` there is an entry with this key that had not expired at some reading from `lo` on. -/
def Alive (E : Env) (cfg : AggConfig) (lo : Nat) (N : List (QElem D)) (k : Bytes) : Prop :=
  ∃ e ∈ N, e.key = k ∧ ∃ j, lo ≤ j ∧ shouldDrop E cfg e.val j = false

theorem Alive.mono {E : Env} {cfg : AggConfig} {k : Bytes} {lo lo' : Nat} {N N' : List (QElem D)} (a : Alive E cfg lo N k) (hl : lo' ≤ lo) (hN : ∀ e ∈ N, e ∈ N') :
    Alive E cfg lo' N' k := by
  obtain ⟨e, he, hk, j, h1, h2⟩ := a
  exact ⟨e, hN e he, hk, j, by omega, h2⟩

theorem requeue_age (E : Env) (cfg : AggConfig) (inAll : Bool) (x : QElem D) (s : S D) :
    ∀ e ∈ (requeue E cfg inAll x s).N, e ∈ s.N ∨ Alive E cfg s.t [x] e.key := by
  unfold requeue
  split
  · exact fun e he => .inl he
  · split
    · exact fun e he => .inl he
    · rename_i h2
      intro e he
      rcases List.mem_cons.mp he with rfl | he
      · have := (sendE_spec E cfg (renew E x s.nid (s.t + 1)) (s.t + 2)).1
        exact .inr ⟨x, by simp, this.symm, s.t, Nat.le_refl _, by simpa using h2⟩
      · exact .inl he

theorem expire_age (E : Env) (cfg : AggConfig) (inAll : Bool) (th : Int) (R : List (QElem D)) :
    ∀ s : S D, ∀ e ∈ (expire E cfg inAll th R s).N, e ∈ s.N ∨ e ∈ R ∨ Alive E cfg s.t R e.key := by
  induction R with
  | nil => exact fun s e he => .inl he
  | cons x R ih =>
    intro s e he
    unfold expire at he
    split at he
    · rcases ih _ e he with h1 | h1 | h1
      · rcases requeue_age E cfg inAll x s e h1 with h2 | h2
        · exact .inl h2
        · exact .inr (.inr (h2.mono (Nat.le_refl _) (by simp)))
      · exact .inr (.inl (List.mem_cons_of_mem _ h1))
      · exact .inr (.inr (h1.mono (requeue_t E cfg inAll x s).1 (fun e he => List.mem_cons_of_mem _ he)))
    · simp only [List.mem_append, List.mem_reverse] at he
      rcases he with he | he
      · exact .inl he
      · exact .inr (.inl he)

theorem expireAll_age (E : Env) (cfg : AggConfig) (inAll : Bool) (s : S D) :
    ∀ e ∈ (expireAll E cfg inAll s).N, e ∈ s.N ∨ Alive E cfg s.t s.N e.key := by
  intro e he
  unfold expireAll at he
  split at he
  · rcases expire_age E cfg inAll _ _ _ e he with h1 | h1 | h1
    · cases h1
    · exact .inl (by simpa using h1)
    · exact .inr (h1.mono (Nat.le_succ _) (by simp))
  · exact .inl he

theorem evict_age (E : Env) (cfg : AggConfig) (inAll : Bool) (R : List (QElem D)) :
    ∀ nid t F R' nid' t' o, evict E cfg inAll R nid t = some (F, R', nid', t', o) →
      (∀ e ∈ F, Alive E cfg t R e.key) ∧ ∀ e ∈ R', e ∈ R := by
  induction R with
  | nil => intro nid t F R' nid' t' o h; simp [evict] at h
  | cons x R ih =>
    intro nid t F R' nid' t' o h
    unfold evict at h
    split at h
    · simp only [Option.some.injEq, Prod.mk.injEq] at h
      obtain ⟨rfl, rfl, _⟩ := h
      exact ⟨by simp, fun e he => List.mem_cons_of_mem _ he⟩
    · split at h
      · simp only [Option.some.injEq, Prod.mk.injEq] at h
        obtain ⟨rfl, rfl, _⟩ := h
        exact ⟨by simp, fun e he => List.mem_cons_of_mem _ he⟩
      · rename_i h2
        split at h
        · cases h
        · rename_i F1 R1 nid1 t1 o1 he
          simp only [Option.some.injEq, Prod.mk.injEq] at h
          obtain ⟨rfl, rfl, _⟩ := h
          obtain ⟨g1, g2⟩ := ih _ _ _ _ _ _ _ he
          refine ⟨fun e he => ?_, fun e he => List.mem_cons_of_mem _ (g2 e he)⟩
          rcases List.mem_append.mp he with he | he
          · exact (g1 e he).mono (by omega) (fun e he => List.mem_cons_of_mem _ he)
          · simp only [List.mem_singleton] at he
            subst he
            have := (sendE_spec E cfg (renew E x nid (t + 1)) t1).1
            exact ⟨x, by simp, this.symm, t, Nat.le_refl _, by simpa using h2⟩

theorem sendE_out (E : Env) (cfg : AggConfig) (y : QElem D) (t : Nat) : ∀ x ∈ (sendE E cfg y t).2.2, x.1 = y.key := by
  unfold sendE
  split
  · simp
  · simp

theorem requeue_sent (E : Env) (cfg : AggConfig) (inAll : Bool) (x : QElem D) (s : S D) :
    ∀ q ∈ (requeue E cfg inAll x s).out, q ∈ s.out ∨ Alive E cfg s.t [x] q.1 := by
  unfold requeue
  split
  · exact fun e he => .inl he
  · split
    · exact fun e he => .inl he
    · rename_i h2
      intro q hq
      rcases List.mem_append.mp hq with hq | hq
      · exact .inl hq
      · have := sendE_out E cfg (renew E x s.nid (s.t + 1)) (s.t + 2) q hq
        exact .inr ⟨x, by simp, this.symm, s.t, Nat.le_refl _, by simpa using h2⟩

theorem expire_sent (E : Env) (cfg : AggConfig) (inAll : Bool) (th : Int) (R : List (QElem D)) :
    ∀ s : S D, ∀ q ∈ (expire E cfg inAll th R s).out, q ∈ s.out ∨ Alive E cfg s.t R q.1 := by
  induction R with
  | nil => exact fun s e he => .inl he
  | cons x R ih =>
    intro s q hq
    unfold expire at hq
    split at hq
    · rcases ih _ q hq with h1 | h1
      · rcases requeue_sent E cfg inAll x s q h1 with h2 | h2
        · exact .inl h2
        · exact .inr (h2.mono (Nat.le_refl _) (by simp))
      · exact .inr (h1.mono (requeue_t E cfg inAll x s).1 (fun e he => List.mem_cons_of_mem _ he))
    · exact .inl hq

theorem expireAll_sent (E : Env) (cfg : AggConfig) (inAll : Bool) (s : S D) (hout : s.out = []) :
    ∀ q ∈ (expireAll E cfg inAll s).out, Alive E cfg s.t s.N q.1 := by
  intro q hq
  unfold expireAll at hq
  split at hq
  · rcases expire_sent E cfg inAll _ _ _ q hq with h1 | h1
    · simp only [hout] at h1; cases h1
    · exact h1.mono (Nat.le_succ _) (by simp)
  · rw [hout] at hq; cases hq

theorem evict_sent (E : Env) (cfg : AggConfig) (inAll : Bool) (R : List (QElem D)) :
    ∀ nid t F R' nid' t' o, evict E cfg inAll R nid t = some (F, R', nid', t', o) → ∀ q ∈ o, Alive E cfg t R q.1 := by
  induction R with
  | nil => intro nid t F R' nid' t' o h; simp [evict] at h
  | cons x R ih =>
    intro nid t F R' nid' t' o h q hq
    unfold evict at h
    split at h
    · simp only [Option.some.injEq, Prod.mk.injEq] at h
      obtain ⟨_, _, _, _, rfl⟩ := h
      cases hq
    · split at h
      · simp only [Option.some.injEq, Prod.mk.injEq] at h
        obtain ⟨_, _, _, _, rfl⟩ := h
        cases hq
      · rename_i h2
        split at h
        · cases h
        · rename_i F1 R1 nid1 t1 o1 he
          simp only [Option.some.injEq, Prod.mk.injEq] at h
          obtain ⟨_, _, _, _, rfl⟩ := h
          rcases List.mem_append.mp hq with hq | hq
          · exact (ih _ _ _ _ _ _ _ he q hq).mono (by omega) (fun e he => List.mem_cons_of_mem _ he)
          · have := sendE_out E cfg (renew E x nid (t + 1)) t1 q hq
            exact ⟨x, by simp, this.symm, t, Nat.le_refl _, by simpa using h2⟩

/-- Why a call sends a request: it is a `Quota` for the signature, or the entry had not expired. -/
def Sends (E : Env) (cfg : AggConfig) (s : S D) (c : Call D) (k : Bytes) : Prop :=
  (∃ r, c = .quota r ∧ allocateQuotaSig cfg.H r = k) ∨ Alive E cfg s.t s.N k

section
variable {E : Env} (hm : Mono E.clk) (hf : 0 < E.extraFuel) (cfg : AggConfig) (hpos : 0 < cfg.numEntries) (inAll : Bool) (d : Nat) (s : S D)
  (h : SInv E cfg.numEntries s) (hout : s.out = [])
include hm hf hpos h hout

theorem step_view (c : Call D) (st' : State D) (out : Out) (fl : List (QReq D))
    (hs : step E cfg (d + 1) c (stateOf cfg inAll s) = .ok (st', out, fl)) :
    ∃ (s' : S D) (inAll' : Bool) (o : List (Bytes × QReq D)), st' = stateOf cfg inAll' s' ∧ s'.out = [] ∧ SInv E cfg.numEntries s' ∧
      fl = o.map (·.2) ∧ s.t ≤ s'.t ∧ s.nid ≤ s'.nid ∧
      VCall E cfg inAll s.t s'.t s.nid (view s.N) c out o (view s'.N) inAll' ∧
      (∀ e ∈ s.N, Ripe e → Kept s'.N o e ∨ Rejects cfg e.key c) ∧
      (c = .flush → 0 ≤ limitOf cfg → ∀ e ∈ s'.N, E.clk s.t - limitOf cfg ≤ e.lastUse) ∧
      (∀ q ∈ o, Sends E cfg s c q.1) := by
  have hinv := (removeExpired_eq hm hf cfg inAll d s h).2
  obtain ⟨ht1, hn1, hbg⟩ := expireAll_bg E cfg inAll s h.keys hout
  have hripe := expireAll_ripe E cfg inAll s h.keys
  have hptr : ∀ e ∈ s.N, e.ptr < s.nid := fun e he => (h.elem e he).2.2.2.1
  have honce := expireAll_once E cfg inAll s hout
  have hsent := fun q hq => Or.inr (a := ∃ r, c = Call.quota r ∧ allocateQuotaSig cfg.H r = q.1) (expireAll_sent E cfg inAll s hout q hq)
  have halive : ∀ k, Alive E cfg (expireAll E cfg inAll s).t (expireAll E cfg inAll s).N k → Alive E cfg s.t s.N k := by
    rintro k ⟨e, he, rfl, j, h1, h2⟩
    rcases expireAll_age E cfg inAll s e he with h3 | h3
    · exact ⟨e, h3, rfl, j, by omega, h2⟩
    · exact h3
  have hhit := fun k e (hfk : findKey k (expireAll E cfg inAll s).N = some e) => find_split hfk
  cases c with
  | quota r =>
    simp only [step] at hs
    by_cases hv : Valid cfg r
    · have hroom := quota_miss_room hm hf cfg inAll d s h hout r hv
      have hfull := quota_miss_full hm hf cfg inAll d s h hout r hv
      have hq := quota_hit hm hf cfg inAll d s h hout r hv
      generalize expireAll E cfg inAll s = s1 at *
      cases hfk : findKey (allocateQuotaSig cfg.H r) s1.N with
      | none =>
        have hno := findKey_none.mp hfk
        have hvn : view s1.N (allocateQuotaSig cfg.H r) = none := view_none.mpr hno
        have hnq : ∀ q, (allocateQuotaSig cfg.H r, q) ∉ s1.out := fun q hq => by
          obtain ⟨e, he, hk⟩ := honce _ q hq
          exact hno e he hk
        by_cases hr : (s1.N.length : Int) < cfg.numEntries
        · rw [hroom hno hr] at hs
          simp only [done, Except.ok.injEq, Prod.mk.injEq] at hs
          obtain ⟨rfl, rfl, rfl⟩ := hs
          refine ⟨⟨fresh E cfg r s1 :: s1.N, s1.nid + 1, s1.t + 2, []⟩, inAll, s1.out ++ [] ++ [(allocateQuotaSig cfg.H r, r)], rfl, rfl, ?_,
            by simp, by simp only; omega, by simp only; omega, ?_, fun e he hr => .inl ?_, (by intro hc; cases hc), ?_⟩
          rotate_right
          · intro q hq
            simp only [List.append_nil, List.mem_append, List.mem_singleton] at hq
            rcases hq with hq | rfl
            · exact hsent q hq
            · exact .inl ⟨r, rfl, rfl⟩
          · refine hinv.cons hm (fresh E cfg r s1) (s1.t + 2) [] rfl hno ?_ (Nat.le_refl _) ⟨rfl, rfl, rfl, rfl⟩ hr ⟨s1.t + 1, by omega, by omega, rfl⟩
            intro a ha; have := (hinv.elem a ha).2.2.2.1; simp only [fresh]; omega
          · rw [view_cons]
            exact .miss (i := s1.t) (p := s1.nid) hv (hbg.mono (Nat.le_refl _) (by simp only; omega)) hvn hnq (.nil _) ht1 (by simp only; omega) hn1
          · rcases hripe e he hr with h1 | ⟨q, h1⟩ | h1
            · exact .inl ⟨e, List.mem_cons_of_mem _ h1, rfl, rfl, rfl, hr⟩
            · exact .inr (.inl ⟨q, by simp [h1]⟩)
            · refine .inr (.inr fun e' he' hk => ?_)
              rcases List.mem_cons.mp he' with rfl | he'
              · have := hptr e he; simp only [fresh]; omega
              · exact absurd hk (h1 e' he')
        · have hr' : (s1.N.length : Int) = cfg.numEntries := by have := hinv.len; omega
          obtain ⟨f1, f2, _⟩ := hfull hno hpos hr'
          cases hev : evict E cfg inAll s1.N.reverse (s1.nid + 1) (s1.t + 2) with
          | none =>
            obtain ⟨err, herr⟩ := f2 hev
            rw [herr] at hs; cases hs
          | some x =>
            obtain ⟨F, R', nid', t', o⟩ := x
            obtain ⟨g1, g2⟩ := f1 _ _ _ _ _ hev
            by_cases hd : F.length < d + 1
            · rw [g1 hd] at hs
              simp only [done, Except.ok.injEq, Prod.mk.injEq] at hs
              obtain ⟨rfl, rfl, rfl⟩ := hs
              obtain ⟨b1, b2, b3⟩ := evict_bg E cfg inAll s1.N.reverse [] _ _ _ _ _ _ _ hev (by simpa using hinv.keys)
              simp only [List.nil_append, List.reverse_reverse, List.append_nil] at b3
              have hsi := evict_inv hm cfg inAll s1 hinv r hno F R' nid' t' o hev []
              refine ⟨⟨F ++ fresh E cfg r s1 :: R'.reverse, nid', t', []⟩, inAll, s1.out ++ o ++ [(allocateQuotaSig cfg.H r, r)], rfl, rfl,
                hsi, by simp, by simp only; omega, by simp only; omega, ?_, fun e he hr => .inl ?_, (by intro hc; cases hc), ?_⟩
              rotate_right
              · intro q hq
                simp only [List.mem_append, List.mem_singleton] at hq
                rcases hq with (hq | hq) | rfl
                · exact hsent q hq
                · exact .inr (halive _ ((evict_sent E cfg inAll _ _ _ _ _ _ _ _ hev q hq).mono (by omega) (by simp)))
                · exact .inl ⟨r, rfl, rfl⟩
              have hp : (F ++ fresh E cfg r s1 :: R'.reverse).Perm (fresh E cfg r s1 :: (F ++ R'.reverse)) := List.perm_middle
              · simp only
                rw [view_perm hsi.keys hp, view_cons]
                exact .miss (i := s1.t) (p := s1.nid) hv (hbg.mono (Nat.le_refl _) (by omega)) hvn hnq
                  (b3.mono (by omega) (Nat.le_refl _)) ht1 (by omega) hn1
              · have absent : (∀ e' ∈ F ++ R', e'.key ≠ e.key) → Kept (F ++ fresh E cfg r s1 :: R'.reverse)
                    (s1.out ++ o ++ [(allocateQuotaSig cfg.H r, r)]) e := by
                  intro h1
                  refine .inr (.inr fun e' he' hk => ?_)
                  simp only [List.mem_append, List.mem_cons, List.mem_reverse] at he' h1
                  rcases he' with he' | rfl | he'
                  · exact absurd hk (h1 e' (.inl he'))
                  · have := hptr e he; simp only [fresh]; omega
                  · exact absurd hk (h1 e' (.inr he'))
                rcases hripe e he hr with h1 | ⟨q, h1⟩ | h1
                · rcases evict_ripe E cfg inAll _ _ _ _ _ _ _ _ hev (by rw [List.map_reverse]; exact List.nodup_reverse.mpr hinv.keys) e
                    (List.mem_reverse.mpr h1) hr with h2 | ⟨q, h2⟩ | h2
                  · exact .inl ⟨e, by simp [h2], rfl, rfl, rfl, hr⟩
                  · exact .inr (.inl ⟨q, by simp [h2]⟩)
                  · exact absent h2
                · exact .inr (.inl ⟨q, by simp [h1]⟩)
                · have hvn' := b3.sub _ (view_none.mpr h1)
                  exact absent fun e' he' => view_none.mp hvn' e' (by simpa using he')
            · rw [g2 (by omega)] at hs; cases hs
      | some e =>
        obtain ⟨A, B, hN, hk, hA⟩ := hhit _ e hfk
        rw [hq A B e hN hk] at hs
        have hrt := refresh_t E cfg e.val s1.t
        cases hrf : refresh E cfg e.val s1.t with
        | mk v1 x =>
          obtain ⟨t2, qs⟩ := x
          rw [hrf] at hs hrt
          simp only at hs hrt
          cases hag : (if v1.positive then v1.aggregate E r else .ok v1) with
          | error err => rw [hag] at hs; cases hs
          | ok v2 =>
            rw [hag] at hs
            simp only [Except.map, done, Except.ok.injEq, Prod.mk.injEq] at hs
            obtain ⟨rfl, rfl, rfl⟩ := hs
            have hsig : v2.sig = v1.sig := by
              split at hag
              · exact (aggregate_sig hag).1
              · cases hag; rfl
            refine ⟨⟨A ++ { e with val := v2 } :: B, s1.nid, t2, []⟩, inAll, s1.out ++ qs.map (fun q => (e.key, q)), rfl, rfl,
              hinv.setVal hm A B e hN v2 (hsig.trans hrt.2) t2 hrt.1 [], rfl, by simp only; omega, hn1, ?_, fun x hx hr => .inl ?_, (by intro hc; cases hc), ?_⟩
            rotate_right
            · intro q hq
              rcases List.mem_append.mp hq with hq | hq
              · exact hsent q hq
              · obtain ⟨q', _, rfl⟩ := List.mem_map.mp hq
                exact .inl ⟨r, rfl, hk.symm⟩
            · have hkN := hinv.keys
              rw [hN] at hkN
              simp only
              rw [view_mid A B e v2 hkN, ← hN, hk]
              refine .hit (t1 := s1.t) hv (hbg.mono (Nat.le_refl _) hrt.1) ?_ ht1 (Nat.le_refl _) hrf hag
              simp only [view, hfk, Option.map_some]
            · rcases hripe x hx hr with h1 | ⟨q, h1⟩ | h1
              · rw [hN] at h1
                refine kept_mid h1 hr ?_
                rintro rfl
                rcases refresh_ripe hr.1 hr.2 hrf hag with h2 | h2
                · right
                  obtain ⟨q, hq⟩ := List.exists_mem_of_ne_nil _ h2
                  exact ⟨q, List.mem_append_right _ (List.mem_map.mpr ⟨q, hq, rfl⟩)⟩
                · exact .inl h2
              · exact .inr (.inl ⟨q, List.mem_append_left _ h1⟩)
              · rw [hN] at h1; exact kept_absent h1
    · have : quota E cfg (d + 1) r (stateOf cfg inAll s) = .ok (stateOf cfg inAll s, ⟨.invalidArgument, none⟩, []) := by
        unfold quota
        split
        · rfl
        · rename_i h1
          split
          · rfl
          · rename_i h2; exact absurd ⟨by simpa using h1, h2⟩ hv
      rw [this] at hs
      cases hs
      exact ⟨s, inAll, [], rfl, hout, h, rfl, Nat.le_refl _, Nat.le_refl _, .invalid hv,
        fun e he hr => .inl (.inl ⟨e, he, rfl, rfl, rfl, hr⟩), (by intro hc; cases hc), by simp⟩
  | cacheResponse r resp =>
    simp only [step] at hs
    have hh := cacheResponse_hit hm hf cfg inAll d s h hout r resp
    have hmi := cacheResponse_miss hm hf cfg inAll d s h hout r resp
    generalize expireAll E cfg inAll s = s1 at *
    cases hfk : findKey (allocateQuotaSig cfg.H r) s1.N with
    | none =>
      have hno := findKey_none.mp hfk
      rw [hmi hno] at hs
      cases hs
      refine ⟨{ s1 with out := [] }, inAll, s1.out, rfl, rfl, hinv.later hm _ (Nat.le_refl _) _, rfl, ht1, hn1, .respMiss hbg (view_none.mpr hno),
        fun e he hr => .inl ?_, (by intro hc; cases hc), hsent⟩
      rcases hripe e he hr with h1 | h1 | h1
      · exact .inl ⟨e, h1, rfl, rfl, rfl, hr⟩
      · exact .inr (.inl h1)
      · exact .inr (.inr fun e' he' hk => absurd hk (h1 e' he'))
    | some e =>
      obtain ⟨A, B, hN, hk, hA⟩ := hhit _ e hfk
      rw [hh A B e hN hk] at hs
      cases hs
      refine ⟨⟨A ++ { e with val := { e.val with inFlight := false }.setResponse resp } :: B, s1.nid, s1.t, []⟩, inAll, s1.out, rfl, rfl,
        hinv.setVal hm A B e hN ({ e.val with inFlight := false }.setResponse resp) rfl _ (Nat.le_refl _) [], rfl, ht1, hn1, ?_, fun x hx hr => ?_, (by intro hc; cases hc), hsent⟩
      · have hkN := hinv.keys
        rw [hN] at hkN
        simp only
        rw [view_mid A B e _ hkN, ← hN, hk]
        exact .respHit hbg (by simp only [view, hfk, Option.map_some])
      · by_cases hneg : x.key = allocateQuotaSig cfg.H r ∧ resp.allocateErrors ≠ []
        · exact .inr ⟨r, resp, rfl, hneg.1.symm, hneg.2⟩
        left
        rcases hripe x hx hr with h1 | h1 | h1
        · rw [hN] at h1
          refine kept_mid h1 hr ?_
          rintro rfl
          left
          have : resp.allocateErrors = [] := by
            by_contra h2
            exact hneg ⟨hk, h2⟩
          refine ⟨rfl, ?_⟩
          simp only [Elem.setResponse, this, List.length_nil, Nat.lt_irrefl, gt_iff_lt, if_false]
          exact hr.2
        · exact .inr (.inl h1)
        · rw [hN] at h1; exact kept_absent h1
  | flush =>
    simp only [step] at hs
    rw [flush_eq hm hf cfg inAll d s h hout] at hs
    cases hs
    refine ⟨{ expireAll E cfg inAll s with out := [] }, inAll, (expireAll E cfg inAll s).out, rfl, rfl,
      hinv.later hm _ (Nat.le_refl _) _, rfl, ht1, hn1, .flush hbg, fun e he hr => .inl ?_,
      fun _ hl => expireAll_young E cfg inAll s hm h hl, hsent⟩
    rcases hripe e he hr with h1 | h1 | h1
    · exact .inl ⟨e, h1, rfl, rfl, rfl, hr⟩
    · exact .inr (.inl h1)
    · exact .inr (.inr fun e' he' hk => absurd hk (h1 e' he'))
  | flushAll =>
    simp only [step] at hs
    rw [flushAll_eq cfg inAll d s h hout] at hs
    cases hs
    refine ⟨⟨[], s.nid, s.t, []⟩, true, [], rfl, rfl, ?_, rfl, Nat.le_refl _, Nat.le_refl _, .flushAll, fun e he hr => .inl (.inr (.inr (by simp))), (by intro hc; cases hc), by simp⟩
    exact ⟨by simp, by simp, by simp, by simp, by simp only [List.length_nil]; omega, by simp, by simp, by simp⟩
end

/-- A new aggregator. -/
theorem new_eq (E : Env) (cfg : AggConfig) (hpos : 0 < cfg.numEntries) :
    ∃ t, ∀ d, (new E cfg d).map (fun st : State D => ({ st with base := st.base.setFlushCallback true } : State D)) =
      .ok (stateOf cfg false ⟨[], 0, t, []⟩) := by
  cases ht : cfg.timeout cfg.flushMs with
  | none =>
    refine ⟨0, fun d => ?_⟩
    simp [setTimeout, new, hpos, bind, Except.bind, Except.map, stateOf, cacheOf, limitOf, ht, Cache.new, AggState.setFlushCallback]
  | some c =>
    have hc : 0 ≤ c := by
      unfold AggConfig.timeout at ht
      split at ht
      · cases ht
      · cases ht; exact Int.natCast_nonneg _
    refine ⟨1, fun d => ?_⟩
    simp [setTimeout, new, hpos, bind, Except.bind, Except.map, stateOf, cacheOf, limitOf, ht, Cache.new, AggState.setFlushCallback, discardIdle,
      show ¬ c < 0 by omega, ringLast, idleLoop, World.ticked]

theorem SInv.empty {E : Env} {cap : Int} (h : 0 < cap) (t : Nat) : SInv E cap (⟨[], 0, t, []⟩ : S D) :=
  ⟨by simp, by simp, by simp, by simp, by simp only [List.length_nil]; omega, by simp, by simp, by simp⟩

end Verif.Quota
