import Verif.Spec.Money
namespace Verif.Money

theorem carryNanos_spec (n : Int) (h : -1999999998 ≤ n ∧ n ≤ 1999999998) :
    n = (carryNanos n).1 * 1000000000 + (carryNanos n).2 ∧
    (-999999999 ≤ (carryNanos n).2 ∧ (carryNanos n).2 ≤ 999999999) ∧
    ((carryNanos n).1 = 0 ∨ ((carryNanos n).1 = 1 ∧ 0 ≤ (carryNanos n).2) ∨
      ((carryNanos n).1 = -1 ∧ (carryNanos n).2 ≤ 0)) := by
  unfold carryNanos kBillion
  split
  · refine ⟨?_, ?_, ?_⟩ <;> simp <;> omega
  · split <;> (refine ⟨?_, ?_, ?_⟩ <;> simp <;> omega)

theorem adjustSigns_spec (u n : Int) (h : -999999999 ≤ n ∧ n ≤ 999999999) :
    u * 1000000000 + n = (adjustSigns u n).1 * 1000000000 + (adjustSigns u n).2 ∧
    (-999999999 ≤ (adjustSigns u n).2 ∧ (adjustSigns u n).2 ≤ 999999999) ∧
    (0 < (adjustSigns u n).1 → 0 ≤ (adjustSigns u n).2) ∧
    ((adjustSigns u n).1 < 0 → (adjustSigns u n).2 ≤ 0) ∧
    (u ≤ 0 → u ≤ (adjustSigns u n).1 ∧ (adjustSigns u n).1 ≤ 0) ∧
    (0 ≤ u → 0 ≤ (adjustSigns u n).1 ∧ (adjustSigns u n).1 ≤ u) := by
  unfold adjustSigns kBillion
  split
  · refine ⟨?_, ?_, ?_, ?_, ?_, ?_⟩ <;> simp only <;> omega
  · split <;> (refine ⟨?_, ?_, ?_, ?_, ?_, ?_⟩ <;> simp only <;> omega)

theorem getAmountSign_spec (m : Money) (h : m.Valid) :
    (getAmountSign m > 0 ↔ 0 < m.value) ∧ (getAmountSign m < 0 ↔ m.value < 0) := by
  unfold getAmountSign
  simp only [Money.Valid, Money.value] at *
  repeat' split
  all_goals omega

theorem wrap64_cases (x : Int) (h : -18446744073709551618 ≤ x ∧ x ≤ 18446744073709551616) :
    (-9223372036854775808 ≤ x ∧ x ≤ 9223372036854775807 ∧ wrap64 x = x) ∨
    (9223372036854775807 < x ∧ wrap64 x = x - 18446744073709551616) ∨
    (x < -9223372036854775808 ∧ wrap64 x = x + 18446744073709551616) := by
  unfold wrap64; omega

/-- Closed form of `tryAddMoney` on valid amounts of one currency under the strict reading of
signed addition: undefined exactly when the sum is not representable, spuriously out of range
when two amounts of the same sign add up to less than one unit, exact otherwise. -/
theorem tryAddMoney_strict_cases (a b : Money) (ha : a.Valid) (hb : b.Valid)
    (ta : a.Typed) (tb : b.Typed) (hc : a.currency = b.currency) :
    (¬ Representable (a.value + b.value) ∧ tryAddMoney .strict a b = .error .signedOverflow) ∨
    (Representable (a.value + b.value) ∧ SpuriousOverflow a b ∧
      (0 < a.value ∧ tryAddMoney .strict a b = .ok (.outOfRange, maxMoney a.currency) ∨
       a.value < 0 ∧ tryAddMoney .strict a b = .ok (.outOfRange, minMoney a.currency))) ∨
    (Representable (a.value + b.value) ∧ ¬ SpuriousOverflow a b ∧
      ∃ s : Money, tryAddMoney .strict a b = .ok (.ok, s) ∧ s.Valid ∧ s.Typed ∧
        s.currency = a.currency ∧ s.value = a.value + b.value) := by
  have sa := getAmountSign_spec a ha
  have sb := getAmountSign_spec b hb
  have hca := ha.1
  simp only [Money.Valid, Money.Typed, InI64, InI32, int64Min, int64Max] at ha hb ta tb
  have h32 : InI32 (a.nanos + b.nanos) := by simp only [InI32, int32Min, int32Max]; omega
  have hcar := carryNanos_spec (a.nanos + b.nanos) (by omega)
  have hva : a.value = a.units * 1000000000 + a.nanos := rfl
  have hvb : b.value = b.units * 1000000000 + b.nanos := rfl
  have heq : tryAddMoney .strict a b = (do
      let noCarry ← addI64 a.units b.units
      let units0 ← addI64 noCarry (carryNanos (a.nanos + b.nanos)).1
      .ok (finishAdd a b noCarry (adjustSigns units0 (carryNanos (a.nanos + b.nanos)).2).1
        (adjustSigns units0 (carryNanos (a.nanos + b.nanos)).2).2)) := by
    simp only [tryAddMoney, hc, ne_eq, not_true_eq_false, if_false, SignedAdd.strict, addI32]
    rw [if_pos h32]; rfl
  rw [heq]; clear heq
  generalize carryNanos (a.nanos + b.nanos) = cn at hcar ⊢
  obtain ⟨c, n1⟩ := cn
  simp only at hcar ⊢
  have hadj := adjustSigns_spec (a.units + b.units + c) n1 (by omega)
  by_cases h1 : InI64 (a.units + b.units)
  · by_cases h2 : InI64 (a.units + b.units + c)
    · rw [show (addI64 a.units b.units) = .ok (a.units + b.units) from if_pos h1]
      simp only [bind, Except.bind]
      rw [show (addI64 (a.units + b.units) c) = .ok (a.units + b.units + c) from if_pos h2]
      simp only
      generalize adjustSigns (a.units + b.units + c) n1 = un at hadj ⊢
      obtain ⟨u, n⟩ := un
      simp only at hadj ⊢
      simp only [InI64, int64Min, int64Max] at h1 h2
      have hrep : Representable (a.value + b.value) := by
        simp only [Representable, minValue, maxValue]; omega
      simp only [finishAdd, sa, sb, kBillion, int64Max, int64Min]
      split
      · rename_i h
        refine Or.inr (Or.inl ⟨hrep, Or.inl ?_, Or.inl ⟨h.1, rfl⟩⟩)
        omega
      · split
        · rename_i h
          refine Or.inr (Or.inl ⟨hrep, Or.inr ?_, Or.inr ⟨h.1, rfl⟩⟩)
          omega
        · refine Or.inr (Or.inr ⟨hrep, ?_, _, rfl, ?_, ?_, rfl, ?_⟩)
          · simp only [SpuriousOverflow]; omega
          · simp only [Money.Valid]; omega
          · simp only [Money.Typed, InI64, InI32, int64Min, int64Max, int32Min, int32Max]; omega
          · simp only [Money.value] at *; omega
    · refine Or.inl ⟨?_, ?_⟩
      · simp only [Representable, minValue, maxValue, InI64, int64Min, int64Max] at *; omega
      · rw [show (addI64 a.units b.units) = .ok (a.units + b.units) from if_pos h1]
        simp only [bind, Except.bind]
        rw [show (addI64 (a.units + b.units) c) = .error .signedOverflow from if_neg h2]
  · refine Or.inl ⟨?_, ?_⟩
    · simp only [Representable, minValue, maxValue, InI64, int64Min, int64Max] at *; omega
    · rw [show (addI64 a.units b.units) = .error .signedOverflow from if_neg h1]; rfl


theorem wrapping_of_strict (a b : Money) (r : Status × Money)
    (h : tryAddMoney .strict a b = .ok r) : tryAddMoney .wrapping a b = .ok r := by
  have w64 : ∀ x y v, addI64 x y = .ok v → SignedAdd.wrapping.i64 x y = .ok v := by
    intro x y v hv
    simp only [addI64, InI64, int64Min, int64Max] at hv
    split at hv
    · cases hv; simp only [SignedAdd.wrapping, wrap64]; congr 1; omega
    · cases hv
  have w32 : ∀ x y v, addI32 x y = .ok v → SignedAdd.wrapping.i32 x y = .ok v := by
    intro x y v hv
    simp only [addI32, InI32, int32Min, int32Max] at hv
    split at hv
    · cases hv; simp only [SignedAdd.wrapping, wrap32]; congr 1; omega
    · cases hv
  unfold tryAddMoney at h ⊢
  split at h
  · rename_i hc; rw [if_pos hc]; exact h
  · rename_i hc; rw [if_neg hc]
    simp only [SignedAdd.strict, bind, Except.bind] at h ⊢
    cases h1 : addI32 a.nanos b.nanos with
    | error e => rw [h1] at h; cases h
    | ok n0 =>
      rw [h1] at h; rw [w32 _ _ _ h1]
      simp only at h ⊢
      cases h2 : addI64 a.units b.units with
      | error e => rw [h2] at h; cases h
      | ok nc =>
        rw [h2] at h; rw [w64 _ _ _ h2]
        simp only at h ⊢
        cases h3 : addI64 nc (carryNanos n0).1 with
        | error e => rw [h3] at h; cases h
        | ok u0 => rw [h3] at h; rw [w64 _ _ _ h3]; exact h

/-- The same under wrap-around addition: never undefined; an unrepresentable sum is reported. -/
theorem tryAddMoney_wrapping_cases (a b : Money) (ha : a.Valid) (hb : b.Valid)
    (ta : a.Typed) (tb : b.Typed) (hc : a.currency = b.currency) :
    (maxValue < a.value + b.value ∧
      tryAddMoney .wrapping a b = .ok (.outOfRange, maxMoney a.currency)) ∨
    (a.value + b.value < minValue ∧
      tryAddMoney .wrapping a b = .ok (.outOfRange, minMoney a.currency)) ∨
    (Representable (a.value + b.value) ∧ SpuriousOverflow a b ∧
      (0 < a.value ∧ tryAddMoney .wrapping a b = .ok (.outOfRange, maxMoney a.currency) ∨
       a.value < 0 ∧ tryAddMoney .wrapping a b = .ok (.outOfRange, minMoney a.currency))) ∨
    (Representable (a.value + b.value) ∧ ¬ SpuriousOverflow a b ∧
      ∃ s : Money, tryAddMoney .wrapping a b = .ok (.ok, s) ∧ s.Valid ∧ s.Typed ∧
        s.currency = a.currency ∧ s.value = a.value + b.value) := by
  rcases tryAddMoney_strict_cases a b ha hb ta tb hc with ⟨h1, _⟩ | ⟨h1, h2, h3⟩ | ⟨h1, h2, s, h3, h4⟩
  · have sa := getAmountSign_spec a ha
    have sb := getAmountSign_spec b hb
    simp only [Money.Valid, Money.Typed, InI64, InI32, int64Min, int64Max] at ha hb ta tb
    have hcar := carryNanos_spec (a.nanos + b.nanos) (by omega)
    have hva : a.value = a.units * 1000000000 + a.nanos := rfl
    have hvb : b.value = b.units * 1000000000 + b.nanos := rfl
    have h32 : wrap32 (a.nanos + b.nanos) = a.nanos + b.nanos := by unfold wrap32; omega
    simp only [tryAddMoney, hc, ne_eq, not_true_eq_false, if_false, SignedAdd.wrapping, h32, bind, Except.bind]
    generalize carryNanos (a.nanos + b.nanos) = cn at hcar ⊢
    obtain ⟨c, n1⟩ := cn
    simp only at hcar ⊢
    have hw1 := wrap64_cases (a.units + b.units) (by omega)
    generalize wrap64 (a.units + b.units) = nc at hw1 ⊢
    have hw2 := wrap64_cases (nc + c) (by omega)
    generalize wrap64 (nc + c) = u0 at hw2 ⊢
    have hadj := adjustSigns_spec u0 n1 (by omega)
    generalize adjustSigns u0 n1 = un at hadj ⊢
    obtain ⟨u, n⟩ := un
    simp only at hadj ⊢
    have hpos : maxValue < a.value + b.value ∨ a.value + b.value < minValue := by
      simp only [Representable] at h1; clear hw1 hw2 hadj hcar; omega
    simp only [finishAdd, sa, sb, kBillion, int64Max, int64Min, hc]
    simp only [maxValue, minValue] at hpos ⊢
    clear h1 hc sa sb h32
    obtain ⟨-, -, -, -, hadj1, hadj2⟩ := hadj
    obtain ⟨-, hna, hsa⟩ := ha
    obtain ⟨-, hnb, hsb⟩ := hb
    rw [hva, hvb] at hpos ⊢
    clear hva hvb
    rcases hpos with hp | hp
    · have hu : u0 ≤ 0 := by
        clear hadj1 hadj2 hsa hsb
        rcases hw1 with hw1 | hw1 | hw1 <;> rcases hw2 with hw2 | hw2 | hw2 <;> omega
      have hu' := (hadj1 hu).2
      have hp1 : 0 < a.units * 1000000000 + a.nanos := by
        clear hadj1 hadj2 hw1 hw2 hcar hsa hsb; omega
      have hp2 : 0 < b.units * 1000000000 + b.nanos := by
        clear hadj1 hadj2 hw1 hw2 hcar hsa hsb; omega
      refine Or.inl ⟨hp, ?_⟩
      rw [if_pos ⟨hp1, hp2, hu'⟩]; rfl
    · have hu : 0 ≤ nc ∨ 0 ≤ u0 := by
        clear hadj1 hadj2 hsa hsb
        rcases hw1 with hw1 | hw1 | hw1 <;> rcases hw2 with hw2 | hw2 | hw2 <;> omega
      have hu' : nc ≥ 0 ∨ u ≥ 0 := by
        rcases hu with hu | hu
        · exact Or.inl hu
        · exact Or.inr (hadj2 hu).1
      have hp1 : a.units * 1000000000 + a.nanos < 0 := by
        clear hadj1 hadj2 hw1 hw2 hcar hsa hsb hu hu'; omega
      have hp2 : b.units * 1000000000 + b.nanos < 0 := by
        clear hadj1 hadj2 hw1 hw2 hcar hsa hsb hu hu'; omega
      refine Or.inr (Or.inl ⟨hp, ?_⟩)
      rw [if_neg (fun h => by have := h.1; clear hadj1 hadj2 hw1 hw2 hcar hu hu'; omega), if_pos ⟨hp1, hp2, hu'⟩]; rfl
  · refine Or.inr (Or.inr (Or.inl ⟨h1, h2, ?_⟩))
    rcases h3 with h3 | h3
    · exact Or.inl ⟨h3.1, wrapping_of_strict _ _ _ h3.2⟩
    · exact Or.inr ⟨h3.1, wrapping_of_strict _ _ _ h3.2⟩
  · exact Or.inr (Or.inr (Or.inr ⟨h1, h2, s, wrapping_of_strict _ _ _ h3, h4⟩))

end Verif.Money
