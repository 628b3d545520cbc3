import Verif.Expo.Model
import Verif.Contract.Spec
import Verif.Decomp.Merge
import Mathlib.Data.Matrix.Mul
import Mathlib.LinearAlgebra.Matrix.NonsingularInverse
import Mathlib.Algebra.Polynomial.Coeff
import Mathlib.Algebra.Polynomial.AlgebraMap

/-!
# Specification vocabulary for the exponential
-/

namespace TAT

open Matrix

variable {α ρ : Type}

/-- The `n`×`n` matrix stored row by row. -/
def matOf [Zero α] (n : ℕ) (l : List α) : Matrix (Fin n) (Fin n) α :=
  Matrix.of fun i j => l.getD (i.val * n + j.val) 0

/-- The `m`×`n` matrix stored column by column. -/
def colMat [Zero α] (m n : ℕ) (l : List α) : Matrix (Fin m) (Fin n) α :=
  Matrix.of fun i j => l.getD (i.val + j.val * m) 0

/-- What is assumed of `gesv`: a system with an invertible matrix is solved. -/
def GesvOk [CommRing α] (gesv : ℕ → ℕ → List α → List α → List α × Bool) : Prop :=
  ∀ (n nrhs : ℕ) (a b : List α), 0 < n → 0 < nrhs → a.length = n * n → b.length = n * nrhs →
    IsUnit (colMat n n a).det →
    (gesv n nrhs a b).1.length = n * nrhs ∧
      colMat n n a * colMat n nrhs (gesv n nrhs a b).1 = colMat n nrhs b

/-- The coefficient of `x ^ k` in the numerator of the diagonal Padé approximant of order `q` of the
exponential, as found in textbooks. -/
def padeCoeff (α : Type) [Field α] (q k : ℕ) : α :=
  ((2 * q - k).factorial * q.factorial : ℕ) /
    ((2 * q).factorial * k.factorial * (q - k).factorial : ℕ)

/-- The numerator of the Padé approximant. -/
noncomputable def padeNum (α : Type) [Field α] (q : ℕ) : Polynomial α :=
  ∑ k ∈ Finset.range (q + 1), Polynomial.C (padeCoeff α q k) * Polynomial.X ^ k

/-- The denominator of the Padé approximant: the numerator at `-x`. -/
noncomputable def padeDen (α : Type) [Field α] (q : ℕ) : Polynomial α :=
  ∑ k ∈ Finset.range (q + 1), Polynomial.C ((-1) ^ k * padeCoeff α q k) * Polynomial.X ^ k

/-! ## tensors as matrices -/

variable {ν σ : Type} [LinearOrder ν] [TatSym σ]

/-- A choice of symmetry and index for each of the edges `A` such that the symmetries add up to
`s`. -/
def RowPos (t : Tensor ν σ α) (A : List ν) (s : σ) (p : ν → σ × ℕ) : Prop :=
  (∀ n ∈ A, (p n).2 < dimM (mapOf t n) (p n).1) ∧ (keyOf A p).sum = s

/-- `num` numbers the choices for the edges `A` with total `s` from `0` to `n - 1`. -/
structure RowOrder (t : Tensor ν σ α) (A : List ν) (s : σ) (n : ℕ) (num : (ν → σ × ℕ) → ℕ) :
    Prop where
  congr : ∀ p q, (∀ m ∈ A, p m = q m) → num p = num q
  lt : ∀ p, RowPos t A s p → num p < n
  inj : ∀ p q, RowPos t A s p → RowPos t A s q → num p = num q → ∀ m ∈ A, p m = q m
  surj : ∀ i < n, ∃ p, RowPos t A s p ∧ num p = i

/-- The position whose row is the column of `p`: every first edge of a pair gets the opposite symmetry
and the same index as the second one has in `p`. -/
def colRow (cs : List (ν × ν)) (p : ν → σ × ℕ) : ν → σ × ℕ := partner (cs.map Prod.swap) p p

/-- `X` is the matrix made of the elements of `t` for which the symmetries of the first edges of the
pairs `cs` add up to `s`: rows belong to the first edges and columns to the second edges of the
pairs.  Signs come from bringing the first edges to the front and the second edges to the back. -/
def SectorMatrix [Neg α] (t : Tensor ν σ α) (cs : List (ν × ν)) (s : σ) {n : ℕ}
    (num : (ν → σ × ℕ) → ℕ) (X : Matrix (Fin n) (Fin n) α) : Prop :=
  ∀ p, ValidPos t p → (keyOf (cs.map Prod.fst) p).sum = s → ∀ i j : Fin n, i.val = num p →
    j.val = num (colRow cs p) →
    (elem t p).map (applySign (orderSign t.names (cs.map Prod.fst ++ cs.map Prod.snd) p)) =
      some (X i j)

/-- The entries row by row. -/
def rowsOf {n : ℕ} (X : Matrix (Fin n) (Fin n) α) : List α :=
  (List.finRange n).flatMap fun i => (List.finRange n).map fun j => X i j

end TAT
