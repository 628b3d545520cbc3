import Verif.Symmetry.Class
import Mathlib.Algebra.BigOperators.Fin
import Mathlib.GroupTheory.Perm.Sign
import Mathlib.Logic.Equiv.Fin.Basic

/-!
# Specification vocabulary for symmetries and fermionic signs
-/

namespace TAT

/-- The ordered-abelian-group laws for the operators of a symmetry type. -/
structure IsOrderedAbelianGroup (σ : Type) [SymOps σ] : Prop where
  assoc : ∀ a b c : σ, SymOps.plus (SymOps.plus a b) c = SymOps.plus a (SymOps.plus b c)
  comm : ∀ a b : σ, SymOps.plus a b = SymOps.plus b a
  ident : ∀ a : σ, SymOps.plus a SymOps.default = a
  inverse : ∀ a : σ, SymOps.plus a (SymOps.minus a) = SymOps.default
  /-- `a += b` leaves `a + b` in `a`. -/
  assign : ∀ a b : σ, SymOps.plusAssign a b = SymOps.plus a b
  eq_iff : ∀ a b : σ, SymOps.eq a b = true ↔ a = b
  irrefl : ∀ a : σ, SymOps.lt a a = false
  trans : ∀ a b c : σ, SymOps.lt a b = true → SymOps.lt b c = true → SymOps.lt a c = true
  total : ∀ a b : σ, SymOps.lt a b = true ∨ a = b ∨ SymOps.lt b a = true
  ne_def : ∀ a b : σ, SymOps.ne a b = !SymOps.eq a b
  gt_def : ∀ a b : σ, SymOps.gt a b = SymOps.lt b a
  le_def : ∀ a b : σ, SymOps.le a b = (SymOps.lt a b || SymOps.eq a b)
  ge_def : ∀ a b : σ, SymOps.ge a b = (SymOps.lt b a || SymOps.eq a b)

/-- The sign factor of a parity bit. -/
def sgn (b : Bool) : ℤ := if b then -1 else 1

/-- Fermionic exchange sign of moving leg `i` to position `p i`: a factor `-1` for every pair of
odd legs whose order changes. -/
def exchangeSign {n : ℕ} (odd : Fin n → Bool) (p : Equiv.Perm (Fin n)) : ℤ :=
  ∏ i : Fin n, ∏ j : Fin n, if i < j ∧ p j < p i ∧ odd i = true ∧ odd j = true then -1 else 1

/-- The sign of reversing the order of a list of legs: `-1` for every pair of odd legs. -/
def reversalSign : List Bool → ℤ
  | [] => 1
  | b :: l => (if b then (-1) ^ (l.count true) else 1) * reversalSign l

/-- The flag vector of a grouping, with groups numbered from `k`: every leg carries the number of its
group. -/
def flagsFrom {α : Type} : ℕ → List (List α) → List ℕ
  | _, [] => []
  | k, g :: gs => List.replicate g.length k ++ flagsFrom (k + 1) gs

/-- The flag vector of a grouping: leg `i` carries the index of its group. -/
def flagsOf {α : Type} (groups : List (List α)) : List ℕ := flagsFrom 0 groups

end TAT
