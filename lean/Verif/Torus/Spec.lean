import Verif.Torus.Model
import Verif.Grid.Spec

/-!
# What `examples/PBC.cpp` should do
-/

namespace TAT.Torus

open TAT.Grid (IsSite sides)

variable {ν α : Type} [LinearOrder ν]

/-- The next place on a ring. -/
def next {L : ℕ} (j : Fin L) : Fin L := ⟨(j + 1) % L, Nat.mod_lt _ (by have := j.isLt; omega)⟩

/-- A lattice of `L` rows and columns on a torus: `h i j` is the edge on the left of site `i j`, `v i j` that above;
on the right of the last site of a row is the edge on the left of the first, and below the last row that above the
first. -/
structure IsTorus (nm : String → ν) (L : ℕ) (site : ℕ → ℕ → Tensor ν NoSymmetry α) (h v : ℕ → ℕ → ℕ) : Prop where
  site : ∀ i < L, ∀ j < L,
    IsSite nm sides (site i j) (some (h i j)) (some (h i (j + 1))) (some (v i j)) (some (v (i + 1) j))
  row : ∀ i < L, h i L = h i 0
  column : ∀ j < L, v L j = v 0 j

/-- The number that the lattice stands for: the sum over the indices of all edges of the product of the elements of
all sites. -/
def torusValue [CommRing α] (nm : String → ν) (L : ℕ) (h v : ℕ → ℕ → ℕ)
    (site : ℕ → ℕ → Tensor ν NoSymmetry α) : α :=
  ∑ p ∈ Fintype.piFinset fun i : Fin L => Fintype.piFinset fun j : Fin L => Finset.range (h i j),
  ∑ q ∈ Fintype.piFinset fun i : Fin L => Fintype.piFinset fun j : Fin L => Finset.range (v i j),
    ∏ i : Fin L, ∏ j : Fin L, Grid.elem nm sides (site i j) (p i j) (p i (next j)) (q i j) (q (next i) j)

end TAT.Torus
