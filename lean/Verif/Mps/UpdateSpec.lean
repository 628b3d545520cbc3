import Verif.Mps.Spec

/-!
# What an update does to a state
-/

namespace TAT.Mps

variable {α : Type} [CommSemiring α]

/-- An operator applied to the sites `i` and `i + 1` of a state with `d` values at every site.  The first
two indices of the operator are those which are summed over. -/
def applyAt (d : ℕ) (h : ℕ → ℕ → ℕ → ℕ → α) (i : ℕ) (φ : List ℕ → α) (s : List ℕ) : α :=
  ∑ x ∈ Finset.range d, ∑ y ∈ Finset.range d,
    φ ((s.set i x).set (i + 1) y) * h x y (s.getD i 0) (s.getD (i + 1) 0)

/-- The operator with its two sites exchanged. -/
def exchanged (h : ℕ → ℕ → ℕ → ℕ → α) (x y p q : ℕ) : α := h y x q p

/-- An operator applied to several bonds, one after the other. -/
def applyAll (d : ℕ) (h : ℕ → ℕ → ℕ → ℕ → α) (is : List ℕ) (φ : List ℕ → α) : List ℕ → α :=
  is.foldl (fun φ i => applyAt d h i φ) φ

/-- An operator applied to all bonds of a chain of `n` sites from the left to the right, and another one
from the right to the left. -/
def sweeps (n d : ℕ) (h h' : ℕ → ℕ → ℕ → ℕ → α) (φ : List ℕ → α) : List ℕ → α :=
  applyAll d h' (List.range (n - 1)).reverse (applyAll d h (List.range (n - 1)) φ)

/-- `1 - δ h`, with the elements of `h` in a list. -/
def updaterOf {α : Type} [CommRing α] (δ : α) (h : List α) (x y a b : ℕ) : α :=
  (if x = a ∧ y = b then 1 else 0) - δ * h.getD (8 * x + 4 * y + 2 * a + b) 0

/-- Equal up to a factor which is not zero, on all configurations of `n` sites. -/
def SameState {α : Type} [Field α] (n d : ℕ) (φ φ' : List ℕ → α) : Prop :=
  ∃ c : α, c ≠ 0 ∧ ∀ s : List ℕ, s.length = n → (∀ x ∈ s, x < d) → φ s = c * φ' s

/-- The state is zero. -/
def NoState (n d : ℕ) (φ : List ℕ → α) : Prop :=
  ∀ s : List ℕ, s.length = n → (∀ x ∈ s, x < d) → φ s = 0

end TAT.Mps
