import Verif.Lemmas.Money
/-
C01-C04: money arithmetic (src/money_utils.cc).
-/
namespace Verif.Money

/-- C01. -/
theorem C01_validateMoney_spec (m : Money) :
    (validateMoney m = .ok ↔ m.Valid) ∧ (¬ m.Valid → validateMoney m = .invalidArgument) := by
  obtain ⟨c, u, n⟩ := m
  unfold validateMoney Money.Valid
  rcases c with _ | ⟨x, c⟩
  · simp
  · simp only [List.isEmpty_cons, Bool.false_or, List.length_cons, bne_iff_ne, Bool.or_eq_true, Bool.and_eq_true, decide_eq_true_eq]
    repeat' split
    all_goals simp only [reduceCtorEq, false_iff, true_iff, implies_true, and_true]
    all_goals omega

example : validateMoney ⟨[85, 83, 68], -2, -7⟩ = .ok := by decide
example : validateMoney ⟨[85, 83, 68], -2, 7⟩ = .invalidArgument := by decide

/-- C02: an OK result is exact and valid, whichever way signed addition is read. -/
theorem C02_tryAdd_exact (a b : Money) (ha : a.Valid) (hb : b.Valid) (ta : a.Typed) (tb : b.Typed)
    (A : SignedAdd) (hA : A = .strict ∨ A = .wrapping) (s : Money)
    (h : tryAddMoney A a b = .ok (.ok, s)) :
    a.currency = b.currency ∧ s.currency = a.currency ∧ s.Valid ∧ s.Typed ∧
      s.value = a.value + b.value := by
  by_cases hc : a.currency = b.currency
  · refine ⟨hc, ?_⟩
    rcases hA with rfl | rfl
    · rcases tryAddMoney_strict_cases a b ha hb ta tb hc with ⟨_, h'⟩ | ⟨_, _, ⟨_, h'⟩ | ⟨_, h'⟩⟩ | ⟨_, _, s', h', hv, ht, hcu, hval⟩
      all_goals rw [h] at h'
      all_goals first | cases h' | skip
      exact ⟨hcu, hv, ht, hval⟩
    · rcases tryAddMoney_wrapping_cases a b ha hb ta tb hc with ⟨_, h'⟩ | ⟨_, h'⟩ | ⟨_, _, ⟨_, h'⟩ | ⟨_, h'⟩⟩ | ⟨_, _, s', h', hv, ht, hcu, hval⟩
      all_goals rw [h] at h'
      all_goals first | cases h' | skip
      exact ⟨hcu, hv, ht, hval⟩
  · simp [tryAddMoney, hc] at h

/-- Non-vacuity of C02, with a borrow: -2.000000007 + 5.000000003 = 2.999999996. -/
example : tryAddMoney .strict ⟨[85, 83, 68], -2, -7⟩ ⟨[85, 83, 68], 5, 3⟩ =
    .ok (.ok, ⟨[85, 83, 68], 2, 999999996⟩) := by decide
example : (Money.mk [85, 83, 68] (-2) (-7)).Valid ∧ (Money.mk [85, 83, 68] (-2) (-7)).Typed ∧
    (Money.mk [85, 83, 68] 5 3).Valid ∧ (Money.mk [85, 83, 68] 5 3).Typed := by decide

/-- C03, the part that holds.  For valid same-currency amounts outside `SpuriousOverflow`:
 * the strict reading gives OK iff the sum is representable and undefined behaviour otherwise
   (the overflow checks of lines 101 and 112 run after the overflow already happened);
 * the wrap-around reading gives OUT_OF_RANGE with the saturated extreme iff the sum is not
   representable, and OK otherwise.
Missing from the full statement: the `SpuriousOverflow` inputs, for which
`C03_false_spurious_overflow` shows the code wrong, and definedness, for which
`C03_false_undefined` shows the code wrong. -/
theorem C03_tryAdd_overflow_partial (a b : Money) (ha : a.Valid) (hb : b.Valid)
    (ta : a.Typed) (tb : b.Typed) (hc : a.currency = b.currency) (hs : ¬ SpuriousOverflow a b) :
    ((∃ s, tryAddMoney .strict a b = .ok (.ok, s)) ↔ Representable (a.value + b.value)) ∧
    (tryAddMoney .strict a b = .error .signedOverflow ↔ ¬ Representable (a.value + b.value)) ∧
    ((∃ s, tryAddMoney .wrapping a b = .ok (.ok, s)) ↔ Representable (a.value + b.value)) ∧
    (tryAddMoney .wrapping a b = .ok (.outOfRange, maxMoney a.currency) ↔
      maxValue < a.value + b.value) ∧
    (tryAddMoney .wrapping a b = .ok (.outOfRange, minMoney a.currency) ↔
      a.value + b.value < minValue) := by
  have hne : maxMoney a.currency ≠ minMoney a.currency := by simp [maxMoney, minMoney]
  have hlt : minValue < maxValue := by decide
  rcases tryAddMoney_strict_cases a b ha hb ta tb hc with ⟨h1, h'⟩ | ⟨_, h1, _⟩ | ⟨h1, _, s', h', -⟩
  all_goals rcases tryAddMoney_wrapping_cases a b ha hb ta tb hc with ⟨h2, h2'⟩ | ⟨h2, h2'⟩ | ⟨_, h2, _⟩ | ⟨h2, _, s'', h2', -⟩
  all_goals first | exact absurd h1 hs | exact absurd h2 hs | skip
  all_goals simp only [Representable] at *
  all_goals simp [h', h2', hne, hne.symm]
  all_goals omega

example : tryAddMoney .wrapping ⟨[85, 83, 68], 9223372036854775807, 500000000⟩ ⟨[85, 83, 68], 0, 500000000⟩ =
    .ok (.outOfRange, ⟨[85, 83, 68], 9223372036854775807, 999999999⟩) := by decide
example : ¬ SpuriousOverflow ⟨[85, 83, 68], 9223372036854775807, 500000000⟩ ⟨[85, 83, 68], 0, 500000000⟩ := by
  simp [SpuriousOverflow, Money.value]

/-- C03 is false in the code: for *every* pair of amounts in `SpuriousOverflow` a representable
sum is reported as OUT_OF_RANGE and replaced by the largest (smallest) amount. -/
theorem C03_false_spurious_overflow (a b : Money) (ha : a.Valid) (hb : b.Valid)
    (ta : a.Typed) (tb : b.Typed) (hc : a.currency = b.currency) (hs : SpuriousOverflow a b)
    (A : SignedAdd) (hA : A = .strict ∨ A = .wrapping) :
    Representable (a.value + b.value) ∧
    ∃ s, tryAddMoney A a b = .ok (.outOfRange, s) ∧ s.value ≠ a.value + b.value := by
  have hrep : Representable (a.value + b.value) := by
    rcases hs with h | h <;> (simp only [Representable, minValue, maxValue]; omega)
  refine ⟨hrep, ?_⟩
  have hmx : ∀ c, (maxMoney c).value = 9223372036854775807999999999 := by intro c; simp [maxMoney, Money.value]
  have hmn : ∀ c, (minMoney c).value = -9223372036854775808999999999 := by intro c; simp [minMoney, Money.value]
  have hrep' := hrep
  simp only [Representable, minValue, maxValue] at hrep'
  rcases hA with rfl | rfl
  · rcases tryAddMoney_strict_cases a b ha hb ta tb hc with ⟨h1, _⟩ | ⟨_, _, ⟨_, h'⟩ | ⟨_, h'⟩⟩ | ⟨_, h1, _⟩
    · exact absurd hrep h1
    · refine ⟨_, h', ?_⟩
      rw [hmx]; simp only [SpuriousOverflow] at hs; omega
    · refine ⟨_, h', ?_⟩
      rw [hmn]; simp only [SpuriousOverflow] at hs; omega
    · exact absurd hs h1
  · rcases tryAddMoney_wrapping_cases a b ha hb ta tb hc with ⟨h1, _⟩ | ⟨h1, _⟩ | ⟨_, _, ⟨_, h'⟩ | ⟨_, h'⟩⟩ | ⟨_, h1, _⟩
    · simp only [maxValue] at h1; omega
    · simp only [minValue] at h1; omega
    · refine ⟨_, h', ?_⟩
      rw [hmx]; simp only [SpuriousOverflow] at hs; omega
    · refine ⟨_, h', ?_⟩
      rw [hmn]; simp only [SpuriousOverflow] at hs; omega
    · exact absurd hs h1

/-- Witness: 5 nano + 5 nano "overflows". -/
example : tryAddMoney .strict ⟨[85, 83, 68], 0, 5⟩ ⟨[85, 83, 68], 0, 5⟩ =
    .ok (.outOfRange, ⟨[85, 83, 68], 9223372036854775807, 999999999⟩) := by decide
/-- Witness on the negative side, where even sums below minus one unit are affected: -0.6 - 0.6. -/
example : tryAddMoney .strict ⟨[85, 83, 68], 0, -600000000⟩ ⟨[85, 83, 68], 0, -600000000⟩ =
    .ok (.outOfRange, ⟨[85, 83, 68], -9223372036854775808, -999999999⟩) := by decide

/-- C03 is false in the code: there are valid inputs for which the addition is undefined. -/
theorem C03_false_undefined : ∃ a b : Money, a.Valid ∧ b.Valid ∧ a.Typed ∧ b.Typed ∧
    a.currency = b.currency ∧ tryAddMoney .strict a b = .error .signedOverflow :=
  ⟨⟨[85, 83, 68], 9223372036854775807, 0⟩, ⟨[85, 83, 68], 1, 0⟩,
    by decide, by decide, by decide, by decide, rfl, by decide⟩

/-- C04: commutativity, for every commutative reading of signed addition and all messages. -/
theorem C04_tryAdd_comm (A : SignedAdd) (h32 : ∀ x y, A.i32 x y = A.i32 y x)
    (h64 : ∀ x y, A.i64 x y = A.i64 y x) (a b : Money) :
    tryAddMoney A a b = tryAddMoney A b a ∧ saturatedAddMoney A a b = saturatedAddMoney A b a := by
  have key : tryAddMoney A a b = tryAddMoney A b a := by
    unfold tryAddMoney
    by_cases hc : a.currency = b.currency
    · have hf : ∀ n u v, finishAdd a b n u v = finishAdd b a n u v := by
        intro n u v; simp only [finishAdd, hc, ← and_assoc, and_comm]
      simp only [hc, h32 a.nanos, h64 a.units, hf]
    · simp [hc, Ne.symm hc]
  exact ⟨key, by simp only [saturatedAddMoney, key]⟩

/-- C04: different currencies are rejected and the output is cleared; the saturating variant aborts. -/
theorem C04_currency_mismatch (A : SignedAdd) (a b : Money) (hc : a.currency ≠ b.currency) :
    tryAddMoney A a b = .ok (.invalidArgument, ⟨[], 0, 0⟩) ∧
    saturatedAddMoney A a b = .error .assertFail := by
  simp [tryAddMoney, saturatedAddMoney, hc, bind, Except.bind]

/-- C04: outside the spurious cases the saturating addition clamps the exact sum (wrap-around
reading; in the strict reading the clamped cases are undefined, see C03). -/
theorem C04_saturates (a b : Money) (ha : a.Valid) (hb : b.Valid)
    (ta : a.Typed) (tb : b.Typed) (hc : a.currency = b.currency) (hs : ¬ SpuriousOverflow a b) :
    ∃ s, saturatedAddMoney .wrapping a b = .ok s ∧ s.currency = a.currency ∧
      s.value = max minValue (min maxValue (a.value + b.value)) := by
  have hlt : minValue < maxValue := by decide
  have hmx : ∀ c, (maxMoney c).value = maxValue := by intro c; simp [maxMoney, Money.value, maxValue]
  have hmn : ∀ c, (minMoney c).value = minValue := by intro c; simp [minMoney, Money.value, minValue]
  rcases tryAddMoney_wrapping_cases a b ha hb ta tb hc with ⟨h1, h'⟩ | ⟨h1, h'⟩ | ⟨_, h1, _⟩ | ⟨h1, _, s, h', _, _, hcu, hval⟩
  · refine ⟨maxMoney a.currency, by simp [saturatedAddMoney, h', bind, Except.bind], rfl, ?_⟩
    rw [hmx]; omega
  · refine ⟨minMoney a.currency, by simp [saturatedAddMoney, h', bind, Except.bind], rfl, ?_⟩
    rw [hmn]; omega
  · exact absurd h1 hs
  · refine ⟨s, by simp [saturatedAddMoney, h', bind, Except.bind], hcu, ?_⟩
    simp only [Representable] at h1
    omega

/-- Non-vacuity of C04. -/
example : SignedAdd.strict.i64 = fun x y => addI64 x y := rfl
theorem strict_comm : (∀ x y, SignedAdd.strict.i32 x y = SignedAdd.strict.i32 y x) ∧
    (∀ x y, SignedAdd.strict.i64 x y = SignedAdd.strict.i64 y x) :=
  ⟨fun x y => by simp only [SignedAdd.strict, addI32, Int.add_comm],
   fun x y => by simp only [SignedAdd.strict, addI64, Int.add_comm]⟩
example : saturatedAddMoney .strict ⟨[85, 83, 68], 1, 0⟩ ⟨[69, 85, 82], 1, 0⟩ = .error .assertFail := by decide

end Verif.Money
