import Verif.Expo.Matrix
import Mathlib.RingTheory.Nilpotent.Exp
import Mathlib.RingTheory.PowerSeries.Exp
import Mathlib.Tactic.FieldSimp
import Mathlib.Tactic.LinearCombination

/-!
# The Padé approximant of the exponential
-/

namespace TAT

open Matrix

variable {α ρ : Type}

/-! ## the recurrence of the coefficients -/

theorem padeCoeff_zero [Field α] [CharZero α] (q : ℕ) : padeCoeff α q 0 = 1 := by
  unfold padeCoeff
  simp only [Nat.sub_zero, Nat.factorial_zero, Nat.mul_one]
  exact div_self (Nat.cast_ne_zero.mpr
    (Nat.mul_ne_zero (Nat.factorial_ne_zero _) (Nat.factorial_ne_zero _)))

theorem padeCoeff_succ [Field α] [CharZero α] {q k : ℕ} (hk : k < q) :
    padeCoeff α q (k + 1) = padeCoeff α q k * ((q - (k + 1) + 1 : ℕ) : α) /
      (((2 * q - (k + 1) + 1) * (k + 1) : ℕ) : α) := by
  obtain ⟨r, rfl⟩ : ∃ r, q = k + 1 + r := ⟨q - (k + 1), by omega⟩
  unfold padeCoeff
  have e1 : 2 * (k + 1 + r) - (k + 1) = k + 1 + 2 * r := by omega
  have e2 : 2 * (k + 1 + r) - k = k + 1 + 2 * r + 1 := by omega
  have e3 : k + 1 + r - (k + 1) = r := by omega
  have e4 : k + 1 + r - k = r + 1 := by omega
  rw [e1, e2, e3, e4, Nat.factorial_succ (k + 1 + 2 * r), Nat.factorial_succ k,
    Nat.factorial_succ r]
  have nf : ∀ n : ℕ, ((n.factorial : ℕ) : α) ≠ 0 := fun n =>
    Nat.cast_ne_zero.mpr (Nat.factorial_ne_zero n)
  have n1 : ((k + 1 + 2 * r + 1 : ℕ) : α) ≠ 0 := Nat.cast_ne_zero.mpr (by omega)
  have n2 : ((k + 1 : ℕ) : α) ≠ 0 := Nat.cast_ne_zero.mpr (by omega)
  have n3 : ((r + 1 : ℕ) : α) ≠ 0 := Nat.cast_ne_zero.mpr (by omega)
  have n4 := nf (2 * (k + 1 + r))
  have n5 := nf k
  have n6 := nf r
  simp only [Nat.cast_mul]
  generalize ((k + 1 + 2 * r + 1 : ℕ) : α) = x1 at *
  generalize ((k + 1 : ℕ) : α) = x2 at *
  generalize ((r + 1 : ℕ) : α) = x3 at *
  generalize (((2 * (k + 1 + r)).factorial : ℕ) : α) = x4 at *
  generalize ((k.factorial : ℕ) : α) = x5 at *
  generalize ((r.factorial : ℕ) : α) = x6 at *
  field_simp

/-! ## the order of the approximant -/

/-- An alternating sum of binomial coefficients. -/
theorem alternating_choose (m : ℕ) : ∀ N q : ℕ, m ≤ N →
    ∑ k ∈ Finset.range (m + 1), (-1 : ℤ) ^ k * (m.choose k : ℤ) * ((N - k).choose q : ℤ) =
      if m ≤ q then ((N - m).choose (q - m) : ℤ) else 0 := by
  induction m with
  | zero => intro N q _; simp
  | succ m ih =>
    intro N q hN
    obtain ⟨N, rfl⟩ : ∃ N', N = N' + 1 := ⟨N - 1, by omega⟩
    have step : ∑ k ∈ Finset.range (m + 1 + 1),
        (-1 : ℤ) ^ k * ((m + 1).choose k : ℤ) * ((N + 1 - k).choose q : ℤ) =
        ∑ k ∈ Finset.range (m + 1), (-1 : ℤ) ^ k * (m.choose k : ℤ) * ((N + 1 - k).choose q : ℤ) -
        ∑ k ∈ Finset.range (m + 1), (-1 : ℤ) ^ k * (m.choose k : ℤ) * ((N - k).choose q : ℤ) := by
      rw [Finset.sum_range_succ' _ (m + 1)]
      simp only [Nat.choose_succ_succ, Nat.cast_add, Nat.add_sub_add_right]
      have h1 : ∑ k ∈ Finset.range (m + 1), (-1 : ℤ) ^ k * (m.choose k : ℤ) *
          ((N + 1 - k).choose q : ℤ) =
          ∑ k ∈ Finset.range (m + 1), (-1 : ℤ) ^ (k + 1) * (m.choose (k + 1) : ℤ) *
            ((N - k).choose q : ℤ) + ((N + 1).choose q : ℤ) := by
        rw [Finset.sum_range_succ' _ m, Finset.sum_range_succ _ m]
        simp
      rw [h1]
      have h2 : ∑ k ∈ Finset.range (m + 1), (-1 : ℤ) ^ (k + 1) *
          ((m.choose k : ℤ) + (m.choose (k + 1) : ℤ)) * ((N - k).choose q : ℤ) =
          ∑ k ∈ Finset.range (m + 1), (-1 : ℤ) ^ (k + 1) * (m.choose (k + 1) : ℤ) *
            ((N - k).choose q : ℤ) -
          ∑ k ∈ Finset.range (m + 1), (-1 : ℤ) ^ k * (m.choose k : ℤ) * ((N - k).choose q : ℤ) := by
        rw [← Finset.sum_sub_distrib]
        apply Finset.sum_congr rfl
        intro k _
        ring
      rw [h2]
      simp
      ring
    rw [step, ih (N + 1) q (by omega), ih N q (by omega)]
    by_cases h : m ≤ q
    · rw [if_pos h, if_pos h]
      have e : N + 1 - m = N - m + 1 := by omega
      by_cases h' : m + 1 ≤ q
      · rw [if_pos h']
        obtain ⟨r, hr⟩ : ∃ r, q - m = r + 1 := ⟨q - m - 1, by omega⟩
        rw [e, hr, Nat.choose_succ_succ, show q - (m + 1) = r by omega,
          show N + 1 - (m + 1) = N - m by omega]
        push_cast
        ring
      · rw [if_neg h', show q - m = 0 by omega]
        simp
    · rw [if_neg h, if_neg h, if_neg (by omega)]
      rfl

/-- With the same upper and lower numbers as in the approximant. -/
theorem alternating_choose_two (q m : ℕ) (hm : m ≤ 2 * q) :
    ∑ k ∈ Finset.range (m + 1), (-1 : ℤ) ^ k * (m.choose k : ℤ) * ((2 * q - k).choose q : ℤ) =
      ((2 * q - m).choose q : ℤ) := by
  rw [alternating_choose m (2 * q) q hm]
  by_cases h : m ≤ q
  · rw [if_pos h]
    congr 1
    rw [← Nat.choose_symm (n := 2 * q - m) (k := q) (by omega)]
    congr 1
    omega
  · rw [if_neg h, Nat.choose_eq_zero_of_lt (by omega)]
    rfl

/-- The coefficients in terms of binomial coefficients. -/
theorem padeCoeff_choose [Field α] [CharZero α] {q k : ℕ} (hk : k ≤ q) :
    padeCoeff α q k = ((2 * q - k).choose q : α) / ((2 * q).choose q * k.factorial) := by
  unfold padeCoeff
  have nf : ∀ n : ℕ, ((n.factorial : ℕ) : α) ≠ 0 := fun n =>
    Nat.cast_ne_zero.mpr (Nat.factorial_ne_zero n)
  have h1 : (((2 * q - k).choose q : ℕ) : α) * (q.factorial : ℕ) * ((q - k).factorial : ℕ) =
      ((2 * q - k).factorial : ℕ) := by
    have := Nat.choose_mul_factorial_mul_factorial (n := 2 * q - k) (k := q) (by omega)
    rw [show 2 * q - k - q = q - k by omega] at this
    exact_mod_cast this
  have h2 : (((2 * q).choose q : ℕ) : α) * (q.factorial : ℕ) * (q.factorial : ℕ) =
      ((2 * q).factorial : ℕ) := by
    have := Nat.choose_mul_factorial_mul_factorial (n := 2 * q) (k := q) (by omega)
    rw [show 2 * q - q = q by omega] at this
    exact_mod_cast this
  have nc : (((2 * q).choose q : ℕ) : α) ≠ 0 :=
    Nat.cast_ne_zero.mpr (Nat.choose_pos (by omega)).ne'
  have n1 := nf q
  have n2 := nf k
  have n3 := nf (q - k)
  simp only [Nat.cast_mul]
  rw [← h1, ← h2]
  field_simp

theorem padeNum_coeff [Field α] (q m : ℕ) :
    (padeNum α q).coeff m = if m ≤ q then padeCoeff α q m else 0 := by
  unfold padeNum
  simp only [Polynomial.finsetSum_coeff, Polynomial.coeff_C_mul, Polynomial.coeff_X_pow,
    mul_ite, mul_one, mul_zero, Finset.sum_ite_eq, Finset.mem_range, Nat.lt_succ_iff]

theorem padeDen_coeff [Field α] (q m : ℕ) :
    (padeDen α q).coeff m = if m ≤ q then (-1) ^ m * padeCoeff α q m else 0 := by
  unfold padeDen
  simp only [Polynomial.finsetSum_coeff, Polynomial.coeff_C_mul, Polynomial.coeff_X_pow,
    mul_ite, mul_one, mul_zero, Finset.sum_ite_eq, Finset.mem_range, Nat.lt_succ_iff]

/-- Denominator times exponential is the numerator, up to the order `2 q`. -/
theorem pade_order [Field α] [CharZero α] (q m : ℕ) (hm : m ≤ 2 * q) :
    ∑ k ∈ Finset.range (m + 1), (padeDen α q).coeff k * (((m - k).factorial : ℕ) : α)⁻¹ =
      (padeNum α q).coeff m := by
  have nf : ∀ n : ℕ, ((n.factorial : ℕ) : α) ≠ 0 := fun n =>
    Nat.cast_ne_zero.mpr (Nat.factorial_ne_zero n)
  have nc : (((2 * q).choose q : ℕ) : α) ≠ 0 :=
    Nat.cast_ne_zero.mpr (Nat.choose_pos (by omega)).ne'
  have hterm : ∀ k ∈ Finset.range (m + 1),
      (padeDen α q).coeff k * (((m - k).factorial : ℕ) : α)⁻¹ =
      (((-1 : ℤ) ^ k * (m.choose k : ℤ) * ((2 * q - k).choose q : ℤ) : ℤ) : α) *
        ((((2 * q).choose q : ℕ) : α) * (m.factorial : ℕ))⁻¹ := by
    intro k hk
    rw [Finset.mem_range] at hk
    rw [padeDen_coeff]
    have hc : ((m.choose k : ℕ) : α) * (k.factorial : ℕ) * ((m - k).factorial : ℕ) =
        (m.factorial : ℕ) := by
      exact_mod_cast Nat.choose_mul_factorial_mul_factorial (n := m) (k := k) (by omega)
    have n1 := nf k
    have n2 := nf (m - k)
    have ncm : ((m.choose k : ℕ) : α) ≠ 0 :=
      Nat.cast_ne_zero.mpr (Nat.choose_pos (by omega)).ne'
    by_cases h : k ≤ q
    · rw [if_pos h, padeCoeff_choose h]
      push_cast
      rw [← hc]
      field_simp
    · rw [if_neg h, Nat.choose_eq_zero_of_lt (show 2 * q - k < q by omega)]
      push_cast
      simp
  rw [Finset.sum_congr rfl hterm, ← Finset.sum_mul, ← Int.cast_sum, alternating_choose_two q m hm,
    padeNum_coeff]
  by_cases h : m ≤ q
  · rw [if_pos h, padeCoeff_choose h]
    push_cast
    rw [div_eq_mul_inv]
  · rw [if_neg h, Nat.choose_eq_zero_of_lt (show 2 * q - m < q by omega)]
    simp

end TAT
