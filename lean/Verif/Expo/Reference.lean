import Verif.Expo.Spec
import Mathlib.LinearAlgebra.Matrix.Adjugate
import Mathlib.Algebra.Order.Field.Rat

/-!
# A routine that solves linear systems

Shows that `GesvOk` can be met, and is used in examples.
-/

namespace TAT

open Matrix

variable {α : Type}

/-- Cramer's rule. -/
def refGesv [Field α] [DecidableEq α] (n nrhs : ℕ) (a b : List α) : List α × Bool :=
  let m := colMat n n a
  (List.ofFn fun p : Fin (nrhs * n) =>
    (m.updateCol ⟨p.val % n, Nat.mod_lt _ (Nat.pos_of_ne_zero fun h => by
      have := p.isLt; simp [h] at this)⟩
      (fun r => colMat n nrhs b r ⟨p.val / n, Nat.div_lt_of_lt_mul
        (lt_of_lt_of_eq p.isLt (Nat.mul_comm _ _))⟩)).det / m.det,
    decide (m.det ≠ 0))

theorem refGesv_ok [Field α] [DecidableEq α] : GesvOk (refGesv (α := α)) := by
  intro n nrhs a b hn hr _ _ hu
  have hdet : (colMat n n a).det ≠ 0 := hu.ne_zero
  refine ⟨by simp [refGesv, Nat.mul_comm], ?_⟩
  have hx : ∀ (i : Fin n) (k : Fin nrhs), colMat n nrhs (refGesv n nrhs a b).1 i k =
      ((colMat n n a).det)⁻¹ * cramer (colMat n n a) (fun r => colMat n nrhs b r k) i := by
    intro i k
    have hlt : i.val + k.val * n < nrhs * n := by
      calc i.val + k.val * n < n + k.val * n := by omega
        _ = (k.val + 1) * n := by ring
        _ ≤ nrhs * n := Nat.mul_le_mul_right _ k.isLt
    have hm : (i.val + k.val * n) % n = i.val := by
      rw [Nat.add_mul_mod_self_right, Nat.mod_eq_of_lt i.isLt]
    have hq : (i.val + k.val * n) / n = k.val := by
      rw [Nat.add_mul_div_right _ _ hn, Nat.div_eq_of_lt i.isLt, Nat.zero_add]
    show (refGesv n nrhs a b).1.getD (i.val + k.val * n) 0 = _
    unfold refGesv
    rw [List.getD_eq_getElem?_getD, List.getElem?_ofFn, dif_pos hlt, Option.getD_some, cramer_apply,
      div_eq_inv_mul]
    simp only [hm, hq]
  ext i k
  rw [Matrix.mul_apply]
  simp only [hx]
  have := congrFun (mulVec_cramer (colMat n n a) (fun r => colMat n nrhs b r k)) i
  rw [mulVec, dotProduct, Pi.smul_apply, smul_eq_mul] at this
  rw [Finset.sum_congr rfl (fun j _ => mul_left_comm _ _ _), ← Finset.mul_sum, this,
    inv_mul_cancel_left₀ hdet]

/-- The logarithm to base 2 rounded towards zero. -/
def ratLog2 (x : ℚ) : Option ℤ :=
  if x ≤ 0 then none
  else if 1 ≤ x then some (Nat.log2 (x.num.toNat / x.den))
  else some (-(Nat.log2 (x.den / x.num.toNat) : ℤ))

/-- Routines on rational numbers. -/
def refExpo : ExpoLib ℚ ℚ where
  gemm := refGemm
  gesv := refGesv
  abs := fun x => |x|
  intLog2 := ratLog2

end TAT
