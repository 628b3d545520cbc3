import Verif.Grid.Model

/-!
# Model of `examples/PBC.cpp`

The edges of the lattice are closed to rings.  `AuxEnv` has what contraction is given.  The sets of pairs of names that
are passed to `contract` are lists in the order of the source.  `contract_with_two_line_to_one_line` (PBC.cpp 67-107)
and `main` (110-121) are not modelled; `get_name` and `left`, `right`, `up`, `down` (PBC.cpp 27-33) are those of
OBC.cpp, `Grid.numbered`.
-/

namespace TAT.Torus

open TAT.Grid (numbered positions)

variable {ν α β : Type} [LinearOrder ν] [Field α] [LinearOrder β] [Zero β]

/-- PBC.cpp 41-47: the constructor, for the sites of a list of positions.  The generator carries a state. -/
def newSites {S : Type} (e : AuxEnv ν α β) (gen : S → α × S) (D : ℕ) :
    List (ℕ × ℕ) → S → Outcome (List ((ℕ × ℕ) × Tensor ν NoSymmetry α))
  | [], _ => .ok []
  | p :: ps, s =>
    (mkTensor e.junk (["left", "right", "up", "down"].map e.nm)
      [⟨false, [(0, D)]⟩, ⟨false, [(0, D)]⟩, ⟨false, [(0, D)]⟩, ⟨false, [(0, D)]⟩]).bind fun t =>
    (newSites e gen D ps (genBlocks gen t.core.blocks s).2).bind fun l => .ok ((p, setWith gen s t) :: l)

/-- PBC.cpp 41-47 `PBC(L, D, generator)` -/
def newLattice {S : Type} (e : AuxEnv ν α β) (gen : S → α × S) (s : S) (L D : ℕ) :
    Outcome (List ((ℕ × ℕ) × Tensor ν NoSymmetry α)) :=
  newSites e gen D (positions L) s

/-- PBC.cpp 53-59: `contract_names` -/
def exactPairs (L i j : ℕ) : List (String × String) :=
  [(numbered "right" i, numbered "left" i), (numbered "down" j, numbered "up" j)] ++
  (if j + 1 = L then [(numbered "left" i, numbered "right" i)] else []) ++
  (if i + 1 = L then [(numbered "up" j, numbered "down" j)] else [])

/-- PBC.cpp 53-61: one more site -/
def exactStep (e : AuxEnv ν α β) (L : ℕ) (site : ℕ → ℕ → Tensor ν NoSymmetry α) (r : Tensor ν NoSymmetry α)
    (p : ℕ × ℕ) : Outcome (Tensor ν NoSymmetry α) :=
  e.join r (e.rename (site p.1 p.2) [("up", numbered "up" p.2), ("down", numbered "down" p.2),
    ("left", numbered "left" p.1), ("right", numbered "right" p.1)]) (exactPairs L p.1 p.2)

/-- PBC.cpp 51-63: the sites of a list of positions -/
def exactSteps (e : AuxEnv ν α β) (L : ℕ) (site : ℕ → ℕ → Tensor ν NoSymmetry α) :
    List (ℕ × ℕ) → Tensor ν NoSymmetry α → Outcome (Tensor ν NoSymmetry α)
  | [], r => .ok r
  | p :: ps, r => (exactStep e L site r p).bind fun r => exactSteps e L site ps r

/-- PBC.cpp 49-65 `get_exact`.  The conversion of a tensor to a number is `onlyElement`. -/
def getExact (e : AuxEnv ν α β) (L : ℕ) (site : ℕ → ℕ → Tensor ν NoSymmetry α) : Outcome α :=
  (exactSteps e L site (positions L) oneTensor).bind onlyElement

end TAT.Torus
