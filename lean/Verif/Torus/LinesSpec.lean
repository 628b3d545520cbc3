import Verif.Torus.LinesModel
import Verif.Torus.Spec
import Verif.Grid.Transfer

/-!
# What the contraction of lines on a torus should do
-/

namespace TAT.Torus

open TAT.Grid (IsSite sides GridEnvOk)

variable {ν α : Type} [LinearOrder ν]

/-- A row of `L` sites closed to a ring: `h j` is the edge on the left of site `j`, `u` and `d` are the edges above and
below. -/
structure IsRing (nm : String → ν) (L : ℕ) (t : ℕ → Tensor ν NoSymmetry α) (h u d : ℕ → ℕ) : Prop where
  site : ∀ j < L, IsSite nm sides (t j) (some (h j)) (some (h (j + 1))) (some (u j)) (some (d j))
  closed : h L = h 0

/-- The value of a ring for given indices above and below: the sum over the indices of the edges between the sites of
the product of the elements. -/
def ringValue [CommRing α] (nm : String → ν) (L : ℕ) (h : ℕ → ℕ) (t : ℕ → Tensor ν NoSymmetry α)
    (z y : Fin L → ℕ) : α :=
  ∑ p ∈ Fintype.piFinset fun j : Fin L => Finset.range (h j),
    ∏ j : Fin L, Grid.elem nm sides (t j) (p j) (p (next j)) (z j) (y j)

/-- What is assumed of the calls of `trace`. -/
structure TraceEnvOk (tr : TraceEnv ν α) : Prop where
  names : [tr.tn.t1, tr.tn.t2, tr.tn.t3].Nodup

/-- What is assumed of the environment: that of the other examples, and that the names inside of the decomposition are
different also from those of `PBC.cpp` 81-88. -/
structure LinesEnvOk {β : Type} [Field α] [LinearOrder β] [Zero β] (e : AuxEnv ν α β) : Prop where
  grid : GridEnvOk e sides
  one : ∀ x, e.sn.u ≠ e.nm (sides x ++ "1") ∧ e.sn.v ≠ e.nm (sides x ++ "1")
  two : ∀ x, e.sn.u ≠ e.nm (sides x ++ "2") ∧ e.sn.v ≠ e.nm (sides x ++ "2")

end TAT.Torus
