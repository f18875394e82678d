import Verif.Model.ThreadTransports
import Verif.Props.ThreadAnswers
import Verif.Props.ThreadExpiry
/-
C126: which transport carries a request when calls bring transports of their own.
-/
set_option linter.unusedSectionVars false
namespace Verif.Threads
open Client
variable {D : Type} [DoubleOps D] {K : Setup} {stops : Bool} {s s' : Sys D} {ts : List Transport}

theorem Given.reach (g : Given K stops s ts) : Reach K stops s := by
  induction g with
  | new h => exact .new h
  | call c tr _ h1 h2 h3 ih => exact .step ih (.call c tr h1 h2 h3)
  | sync c _ h1 h2 h3 ih => exact .step ih (.sync c h1 h2 h3)
  | other _ h1 _ ih => exact .step ih h1

/-- A step that is not a call adds no call. -/
theorem step_called (h : Step K stops s s') : (∃ evs, s'.c.trace = s.c.trace ++ evs ∧ ∀ e ∈ evs, e.calledNo = none) ∨
    (s'.c.calls = s.c.calls + 1 ∧ ∀ ts, Given K stops s ts → ∃ tr, Given K stops s' (ts ++ [tr])) := by
  cases h with
  | work h1 h2 =>
    obtain ⟨evs, h3, h4⟩ := exec_trace h2
    refine .inl ⟨evs, h3, fun e he => ?_⟩
    have := h4 e he
    cases e <;> first | rfl | exact this.elim
  | call c tr h1 h2 h3 => exact .inr ⟨rfl, fun ts g => ⟨tr, .call c tr g h1 h2 h3⟩⟩
  | sync c h1 h2 h3 => exact .inr ⟨rfl, fun ts g => ⟨.default, .sync c g h1 h2 h3⟩⟩
  | complete h1 h2 h3 =>
    unfold Client.take at h3
    split at h3
    · cases h3
    · cases h3; exact .inl ⟨[_], rfl, by simp [Ev.calledNo]⟩
  | fire h1 h2 h3 => exact .inl ⟨[_], rfl, by simp [Ev.calledNo]⟩
  | destroy h1 h2 h3 h4 => exact .inl ⟨[], by simp, by simp⟩
  | spawn => exact .inl ⟨[], by simp, by simp⟩

theorem calls_same (r : Reach K stops s) (r' : Reach K stops s') {evs : List (Ev D)} (h1 : s'.c.trace = s.c.trace ++ evs) (h2 : ∀ e ∈ evs, e.calledNo = none) :
    s'.c.calls = s.c.calls := by
  have h3 := r.inv.books.called
  have h4 := r'.inv.books.called
  have h5 : evs.filterMap Ev.calledNo = [] := List.filterMap_eq_nil_iff.mpr h2
  rw [h1, List.filterMap_append, h3, h5, List.append_nil] at h4
  have := congrArg List.length h4
  simpa using this.symm

/-- Every schedule is covered. -/
theorem Reach.given (r : Reach K stops s) : ∃ ts, Given K stops s ts := by
  induction r with
  | new h => exact ⟨_, .new h⟩
  | @step s s' r h ih =>
    obtain ⟨ts, g⟩ := ih
    rcases step_called h with ⟨evs, h1, h2⟩ | ⟨_, h1⟩
    · exact ⟨ts, .other g h (calls_same r (.step r h) h1 h2)⟩
    · obtain ⟨tr, h2⟩ := h1 ts g
      exact ⟨_, h2⟩

/-- The arguments belong to the calls. -/
theorem Given.args (g : Given K stops s ts) : ts.length = s.c.calls ∧
    ∀ i c t, Ev.called i c t ∈ s.c.trace → ∃ tr, ts[i]? = some tr ∧ t = present K c tr := by
  have add : ∀ {s : Sys D} {ts : List Transport} (c : Call D) (tr : Transport), ts.length = s.c.calls →
      (∀ i c t, Ev.called i c t ∈ s.c.trace → ∃ tr, ts[i]? = some tr ∧ t = present K c tr) →
      ∀ i c' t, Ev.called i c' t ∈ s.c.trace ++ [.called s.c.calls c (present K c tr)] → ∃ tr', (ts ++ [tr])[i]? = some tr' ∧ t = present K c' tr' := by
    intro s ts c tr hl ih i c' t h
    rcases List.mem_append.mp h with h | h
    · obtain ⟨tr', h1, h2⟩ := ih i c' t h
      refine ⟨tr', ?_, h2⟩
      rw [List.getElem?_append_left (List.getElem?_eq_some_iff.mp h1).1]; exact h1
    · rw [List.mem_singleton] at h
      cases h
      exact ⟨tr, by rw [← hl]; simp, rfl⟩
  induction g with
  | @new c h =>
    have h2 : c.trace = [] ∧ c.calls = 0 := by
      unfold Client.new at h
      cases h1 : Check.new (D := D) K.envC K.cfgC <;> simp only [h1, bind, Except.bind, reduceCtorEq] at h
      cases h2 : Quota.new (D := D) K.envQ K.cfgQ (K.depth + 1) <;> simp only [h2, reduceCtorEq] at h
      cases h3 : Report.new (D := D) K.envR K.cfgR <;> simp only [h3, reduceCtorEq] at h
      cases h
      exact ⟨rfl, rfl⟩
    refine ⟨h2.2.symm, fun i c' t h => ?_⟩
    have h' : Ev.called i c' t ∈ c.trace := h
    rw [h2.1] at h'; cases h'
  | call c tr g h1 h2 h3 ih => exact ⟨by simp [ih.1], add c tr ih.1 ih.2⟩
  | sync c g h1 h2 h3 ih => exact ⟨by simp [ih.1], add c .default ih.1 ih.2⟩
  | @other s s' ts g h1 h2 ih =>
    refine ⟨by rw [h2]; exact ih.1, fun i c t h => ?_⟩
    rcases step_called h1 with ⟨evs, h3, h4⟩ | ⟨h3, _⟩
    · rw [h3] at h
      rcases List.mem_append.mp h with h | h
      · exact ih.2 i c t h
      · cases h4 _ h
    · omega

/-- C126: the transport given with a call is used at most once, not if it is empty, and carries the request of this call only. -/
theorem C126_alone (g : Given K stops s ts) (i : Nat) :
    s.c.trace.countP (fun e => carrier ts e == some (.own i)) ≤ 1 ∧
    ∀ e ∈ s.c.trace, carrier ts e = some (.own i) → ∃ id c, e = .sent id (some i) c ∧ Ev.called i c true ∈ s.c.trace ∧ ts[i]? = some (.given true) := by
  have key : ∀ e : Ev D, carrier ts e = some (.own i) → ∃ id c b, e = .sent id (some i) c ∧ ts[i]? = some (.given b) := by
    intro e h
    unfold carrier at h
    split at h
    · cases h
    · rename_i id j c
      split at h
      · rename_i b hj
        cases h; exact ⟨id, c, b, rfl, hj⟩
      · cases h
    · cases h
  constructor
  · obtain ⟨h1, _, h2, _⟩ := C87_exactly_once g.reach i
    refine Nat.le_trans (List.countP_mono_left (p := fun e => carrier ts e == some (.own i)) (q := fun e => e.sentFor == some i) ?_) (show sends i s.c.trace ≤ 1 by omega)
    intro e _ h
    obtain ⟨_, _, _, rfl, _⟩ := key e (by simpa using h)
    simp [Ev.sentFor]
  · intro e he h
    obtain ⟨id, c, b, rfl, hb⟩ := key e h
    obtain ⟨_, h1, _⟩ := C95_sent g.reach he
    obtain ⟨tr, h2, h3⟩ := g.args.2 i c true h1
    rw [hb] at h2
    cases h2
    cases h3
    exact ⟨id, c, rfl, h1, hb⟩

/-- C126 for checks, and for calls the cache may not hold: if a call is made with a transport of its own, is for this service and has an operation,
then, when no thread works on it, either that transport has been given its request, exactly once, or, for a check, the cache has answered it
and its transport was not called. -/
theorem C126_carried_partial (g : Given K stops s ts) {i : Nat} {c : Call D} (h : Ev.called i c true ∈ s.c.trace) (ht : ts[i]? = some (.given true))
    (hv : ¬ Refused K c) (hc : ¬ Held K c ∨ ∃ q, c = .check q) (hr : Rest i s) :
    (∃ id, Ev.sent id (some i) c ∈ s.c.trace ∧ s.c.trace.filter (fun e => carrier ts e == some (.own i)) = [.sent id (some i) c]) ∨
    (Held K c ∧ (∃ reply, Ev.done i c .ok reply none ∈ s.c.trace) ∧ ∀ e ∈ s.c.trace, carrier ts e ≠ some (.own i)) := by
  have own : ∀ id c', carrier ts (.sent id (some i) c' : Ev D) = some (.own i) := by
    intro id c'; simp [carrier, ht]
  obtain ⟨h1, _, _, h2⟩ := C87_exactly_once g.reach i
  have h3 := (h2 hr).2
  have h4 := calls_pos h
  rcases Nat.eq_zero_or_pos (sends i s.c.trace) with h5 | h5
  · right
    obtain ⟨c', st, reply, h6⟩ := locals_pos (i := i) (tr := s.c.trace) (by omega)
    obtain ⟨⟨t, h7⟩, _⟩ := C87_done_reports g.reach h6
    obtain ⟨rfl, rfl⟩ := called_unique g.reach h h7
    rcases C95_local g.reach h6 with h8 | ⟨_, h8 | h8⟩
    · refine ⟨h8.2.2.1, ⟨reply, h8.1 ▸ h6⟩, fun e he hk => ?_⟩
      obtain ⟨id, c', rfl, _⟩ := (C126_alone g i).2 e he hk
      have : 0 < sends i s.c.trace := List.countP_pos_iff.mpr ⟨_, he, by simp [Ev.sentFor]⟩
      omega
    · exact absurd h8 hv
    · have := (called_unique g.reach h h8).2; cases this
  · left
    obtain ⟨id, c', h6⟩ := sends_pos h5
    obtain ⟨_, h7, _⟩ := C95_sent g.reach h6
    obtain ⟨rfl, _⟩ := called_unique g.reach h h7
    refine ⟨id, h6, ?_⟩
    have h8 := (C126_alone g i).1
    rw [List.countP_eq_length_filter] at h8
    have h9 : Ev.sent id (some i) c ∈ s.c.trace.filter (fun e => carrier ts e == some (.own i)) := List.mem_filter.mpr ⟨h6, by simp [own]⟩
    match hf : s.c.trace.filter (fun e => carrier ts e == some (.own i)), h8, h9 with
    | [e], _, h9 => rw [List.mem_singleton] at h9; rw [← h9]
    | _ :: _ :: _, h8, _ => simp at h8

/-- C126 is false for quota: while the cache is on, every allocation request is given to the transport of the options, whatever transports the calls
brought. -/
theorem C126_false_quota_general (g : Given K stops s ts) (hq : 0 < K.cfgQ.numEntries) {id : Nat} {b : Option Nat} {q : AllocateQuotaRequest D}
    (h : Ev.sent id b (.quota q) ∈ s.c.trace) : carrier ts (.sent id b (.quota q) : Ev D) = some .default := by
  cases b with
  | none => rfl
  | some i =>
    obtain ⟨_, _, h1⟩ := C95_sent g.reach h
    obtain ⟨_, h2⟩ := h1 hq
    cases h2

/-! ### Examples -/
section examples

/-- A step of a schedule, with the transports given so far. -/
def Move.track (K : Setup) (stops : Bool) (x : Sys D × List Transport) (m : Move D) : Option (Sys D × List Transport) :=
  match m.run K stops x.1 with
  | none => none
  | some s' =>
    match m with
    | .call _ _ tr => some (s', x.2 ++ [tr])
    | .sync _ _ => some (s', x.2 ++ [.default])
    | _ => if s'.c.calls = x.1.c.calls then some (s', x.2) else none

theorem Move.track_given {m : Move D} {x y : Sys D × List Transport} (g : Given K stops x.1 x.2) (h : m.track K stops x = some y) :
    Given K stops y.1 y.2 := by
  unfold Move.track at h
  split at h
  · cases h
  · rename_i s' hs
    have other : (if s'.c.calls = x.1.c.calls then some (s', x.2) else none) = some y → Given K stops y.1 y.2 := by
      intro h
      split at h
      · rename_i hc; cases h; exact .other g (Move.run_step hs) hc
      · cases h
    split at h
    · rename_i n c tr
      cases h
      simp only [Move.run] at hs
      split at hs
      · rename_i t hn
        split at hs
        · rename_i hf
          cases hs
          simp only [Bool.and_eq_true, Bool.not_eq_true'] at hf
          obtain ⟨h1, h2⟩ := set_split hn (.start x.1.c.calls c (present K c tr) :: t)
          rw [h2]
          exact .call c tr g h1 (isFree_free hf.1) hf.2
        · cases hs
      · cases hs
    · rename_i n c
      cases h
      simp only [Move.run] at hs
      split at hs
      · rename_i t hn
        split at hs
        · rename_i hf
          cases hs
          simp only [Bool.and_eq_true, Bool.not_eq_true'] at hf
          obtain ⟨h1, h2⟩ := set_split hn (.start x.1.c.calls c (present K c .default) :: .wait x.1.c.calls :: t)
          rw [h2]
          exact .sync c g h1 (isFree_free hf.1) hf.2
        · cases hs
      · cases hs
    · exact other h

theorem track_case (ms : List (Move D)) (P : Sys D → List Transport → Prop) [∀ s ts, Decidable (P s ts)]
    (hb : (match Client.new K with
      | .ok c => (match ms.foldlM (Move.track K stops) (Sys.new c, []) with | some x => decide (P x.1 x.2) | none => false)
      | .error _ => false) = true) : ∃ s ts, Given K stops s ts ∧ P s ts := by
  split at hb
  · rename_i c hc
    split at hb
    · rename_i x hx
      have hgen : ∀ (ms : List (Move D)) (x y : Sys D × List Transport), Given K stops x.1 x.2 → ms.foldlM (Move.track K stops) x = some y → Given K stops y.1 y.2 := by
        intro ms
        induction ms with
        | nil => intro x y g h; simp only [List.foldlM_nil, pure] at h; cases h; exact g
        | cons m ms ih =>
          intro x y g h
          simp only [List.foldlM_cons, bind, Option.bind] at h
          split at h
          · cases h
          · rename_i z hz
            exact ih _ _ (Move.track_given g hz) h
      exact ⟨x.1, x.2, hgen ms _ _ (.new hc) hx, of_decide_eq_true hb⟩
    · cases hb
  · cases hb

/-- C126 is false for quota: the only request for a quota call that brought a transport of its own is given, unchanged, to the transport of the options,
and its own transport is not used. -/
theorem C126_false_quota : ∃ (s : Sys Int) (ts : List Transport), Given exK true s ts ∧ Quiet s ∧ Ev.called 0 (exQuota 1 5) true ∈ s.c.trace ∧
    ts = [.given true] ∧ Ev.sent 0 none (exQuota 1 5) ∈ s.c.trace ∧ s.c.trace.filterMap (carrier ts) = [.default] := by
  obtain ⟨s, ts, g, h1, h2⟩ := track_case (K := exK) (stops := true)
    ([.spawn, .call 0 (exQuota 1 5) (.given true)] ++ steps 0 10)
    (fun s ts => s.threads = [[]] ∧ Ev.called 0 (exQuota 1 5) true ∈ s.c.trace ∧
      ts = [.given true] ∧ Ev.sent 0 none (exQuota 1 5) ∈ s.c.trace ∧ s.c.trace.filterMap (carrier ts) = [.default]) (by decide +kernel)
  refine ⟨s, ts, g, ?_, h2⟩
  intro t ht
  rw [h1] at ht
  simpa using ht

/-- C126: its hypotheses hold: of two checks of one signature with transports of their own the first is given to its transport, the second is
answered by the cache; a third call uses the transport of the options. -/
example : ∃ (s : Sys Int) (ts : List Transport), Given exK true s ts ∧ (∀ i < 3, Rest i s) ∧
    ts = [.given true, .given true, .default] ∧ Ev.called 0 (exCheck 1 5) true ∈ s.c.trace ∧ Ev.called 1 (exCheck 1 6) true ∈ s.c.trace ∧
    ¬ Refused exK (exCheck 1 5) ∧ ¬ Refused exK (exCheck 1 6) ∧ s.c.trace.filterMap (carrier ts) = [.own 0, .default] := by
  obtain ⟨s, ts, g, h1, h2, h3, h4, h5⟩ := track_case (K := exK) (stops := true)
    ([.spawn, .call 0 (exCheck 1 5) (.given true)] ++ steps 0 6 ++ [.complete 0 0 exOk] ++ steps 0 4 ++ [.call 0 (exCheck 1 6) (.given true)] ++ steps 0 5 ++
      [.call 0 (exCheck 2 6) .default] ++ steps 0 6)
    (fun s ts => s.threads = [[]] ∧ ts = [.given true, .given true, .default] ∧ Ev.called 0 (exCheck 1 5) true ∈ s.c.trace ∧
      Ev.called 1 (exCheck 1 6) true ∈ s.c.trace ∧ s.c.trace.filterMap (carrier ts) = [.own 0, .default]) (by decide +kernel)
  refine ⟨s, ts, g, ?_, h2, h3, h4, ?_, ?_, h5⟩
  · intro i _ t ht a ha
    rw [h1, List.mem_singleton] at ht
    subst ht; cases ha
  · unfold Refused exCheck; decide +kernel
  · unfold Refused exCheck; decide +kernel

end examples
end Verif.Threads
