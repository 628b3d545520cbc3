import Verif.Grid.Model
import Verif.Square.AuxStack

/-!
# What `examples/tools.hpp` and `examples/OBC.cpp` should do
-/

namespace TAT.Grid

variable {ν α : Type} [LinearOrder ν]

/-- Indices for the four edges of a site. -/
def at4 (nm : String → ν) (s : Side → String) (l r u d : ℕ) (n : ν) : ℕ :=
  if n = nm (s .left) then l else if n = nm (s .right) then r else if n = nm (s .up) then u
  else if n = nm (s .down) then d else 0

/-- A tensor with edges of the given dimensions in the four directions, `none` for no edge, and no others. -/
structure IsSite (nm : String → ν) (s : Side → String) (t : Tensor ν NoSymmetry α) (l r u d : Option ℕ) : Prop where
  dense : Dense t
  left : leg t (nm (s .left)) = l
  right : leg t (nm (s .right)) = r
  up : leg t (nm (s .up)) = u
  down : leg t (nm (s .down)) = d
  only : ∀ n, leg t n ≠ none → ∃ x, n = nm (s x)

/-- A row of `N` sites: `h j` is the edge on the left of site `j`, `u` and `d` are the edges above and below.  There
are no edges at the ends. -/
structure IsRow (nm : String → ν) (s : Side → String) (N : ℕ) (t : ℕ → Tensor ν NoSymmetry α)
    (h u d : ℕ → Option ℕ) : Prop where
  left : h 0 = none
  right : h N = none
  site : ∀ j < N, IsSite nm s (t j) (h j) (h (j + 1)) (u j) (d j)

/-- The element of a site. -/
def elem [CommRing α] (nm : String → ν) (s : Side → String) (t : Tensor ν NoSymmetry α) (l r u d : ℕ) : α :=
  val t (at4 nm s l r u d)

/-- The value of a row for given indices above and below: the sum over the indices of the edges between the sites of
the product of the elements. -/
def rowValue [CommRing α] (nm : String → ν) (s : Side → String) (N : ℕ) (t : ℕ → Tensor ν NoSymmetry α)
    (h : ℕ → Option ℕ) (z y : ℕ → ℕ) : α :=
  ∑ q ∈ Fintype.piFinset fun j : Fin (N + 1) => Finset.range ((h j).getD 1),
    ∏ j : Fin N, elem nm s (t j) (q j.castSucc) (q j.succ) (z j) (y j)

/-- The names of the directions in OBC.cpp. -/
def sides : Side → String
  | .up => "up"
  | .down => "down"
  | .left => "left"
  | .right => "right"

/-- A lattice of `L` rows and columns: `h i j` is the edge on the left of site `i j`, `v i j` that above.  There
are no edges at the border. -/
structure IsGrid (nm : String → ν) (L : ℕ) (site : ℕ → ℕ → Tensor ν NoSymmetry α) (h v : ℕ → ℕ → Option ℕ) :
    Prop where
  row : ∀ i < L, IsRow nm sides L (site i) (h i) (v i) (v (i + 1))
  top : ∀ j, v 0 j = none
  bottom : ∀ j, v L j = none

/-- The number that the lattice stands for: the sum over the indices of all edges of the product of the elements of
all sites. -/
def gridValue [CommRing α] (nm : String → ν) (L : ℕ) (h v : ℕ → ℕ → Option ℕ)
    (site : ℕ → ℕ → Tensor ν NoSymmetry α) : α :=
  netVal L L (fun i j => (h i j).getD 1) (fun i j => (v i j).getD 1) fun i j => elem nm sides (site i j)

end TAT.Grid
