import Verif.Diag.Model

/-!
# Model of `examples/square_heisenberg_ed.cpp`

`NetEnv` has what contraction, the modulus and the conversion of numbers are given.  The numbers of rows and columns
are not negative.  A division by zero is an error here, and gives elements which are not numbers in the program.  The
operator `SS` (square_heisenberg_ed.cpp 25-52) is an argument, and the normal distribution is a generator which carries
a state.  What is printed is not modelled.
-/

namespace TAT.Ed

variable {ν α β : Type} [LinearOrder ν] [Field α] [LinearOrder β] [Field β]

/-- square_heisenberg_ed.cpp 57-60: the members of `SpinLattice`.  The energy has no value before the first
`update`. -/
structure Lattice (ν α β : Type) where
  state : Tensor ν NoSymmetry α
  bonds : List (Tensor ν NoSymmetry α)
  energy : Option β
  approximate : β

/-- square_heisenberg_ed.cpp 62-68: the constructor of `SpinLattice` -/
def newLattice {S : Type} (e : NetEnv ν α β) (gen : S → α × S) (s : S) (nodes : List String) (approximate : β) :
    Outcome (Lattice ν α β) :=
  (mkTensor e.junk (nodes.map e.nm) (nodes.map fun _ => ⟨false, [(0, 2)]⟩)).bind fun t =>
  .ok ⟨setWith gen s t, [], none, |approximate|⟩

/-- square_heisenberg_ed.cpp 70-72 `set_bond` -/
def setBond (e : NetEnv ν α β) (lattice : Lattice ν α β) (n1 n2 : String) (matrix : Tensor ν NoSymmetry α) :
    Lattice ν α β :=
  { lattice with
    bonds := lattice.bonds ++ [e.rename matrix [("I1", n1), ("I2", n2), ("O1", "_" ++ n1), ("O2", "_" ++ n2)]] }

/-- square_heisenberg_ed.cpp 80-81: `this_term`.  The names of the bond are read by their positions. -/
def bondTerm (e : NetEnv ν α β) (state bond : Tensor ν NoSymmetry α) : Outcome (Tensor ν NoSymmetry α) :=
  (contractAllEdge e.ce e.cn state bond).bind fun t =>
  match bond.names with
  | n0 :: n1 :: n2 :: n3 :: _ => .ok (edgeRename t (OMap.ofList [(n2, n0), (n3, n1)]))
  | _ => .ub

/-- square_heisenberg_ed.cpp 79-83: the loop over the bonds. -/
def addBonds (e : NetEnv ν α β) (env : Env NoSymmetry α) (state : Tensor ν NoSymmetry α) :
    List (Tensor ν NoSymmetry α) → Tensor ν NoSymmetry α → Outcome (Tensor ν NoSymmetry α)
  | [], acc => .ok acc
  | bond :: bonds, acc =>
    (bondTerm e state bond).bind fun t =>
    (scalarInplace env (· + ·) acc t).bind fun acc => addBonds e env state bonds acc

/-- square_heisenberg_ed.cpp 74-86 `update` -/
def update (e : NetEnv ν α β) (env : Env NoSymmetry α) (lattice : Lattice ν α β) : Outcome (Lattice ν α β) :=
  (normalised e lattice.state).bind fun state =>
  (sameShape e.junk state).bind fun t =>
  (addBonds e env state lattice.bonds (zero t)).bind fun acc =>
  (scalarInplace env (· - ·) (scalarInplaceNumber (fun x => x * e.c lattice.approximate) state) acc).bind fun state =>
  .ok { lattice with state := state, energy := some (lattice.approximate - normMax e.abs lattice.state) }

/-- square_heisenberg_ed.cpp 131-136: the loop over the steps. -/
def updates (e : NetEnv ν α β) (env : Env NoSymmetry α) : ℕ → Lattice ν α β → Outcome (Lattice ν α β)
  | 0, lattice => .ok lattice
  | n + 1, lattice => (update e env lattice).bind fun lattice => updates e env n lattice

/-! ## The square lattice -/

/-- square_heisenberg_ed.cpp 97 and 106-107: the name of a site -/
def nodeName (p : ℕ × ℕ) : String := toString p.1 ++ "." ++ toString p.2

/-- square_heisenberg_ed.cpp 93-101 `get_node_names` -/
def nodeNames (n1 n2 : ℕ) : List String :=
  (List.range n1).flatMap fun i => (List.range n2).map fun j => nodeName (i, j)

/-- square_heisenberg_ed.cpp 121-130: the arguments of `set_bond` -/
def squareBonds (n1 n2 : ℕ) : List ((ℕ × ℕ) × (ℕ × ℕ)) :=
  ((List.range (n1 - 1)).flatMap fun i => (List.range n2).map fun j => ((i, j), (i + 1, j))) ++
  (List.range n1).flatMap fun i => (List.range (n2 - 1)).map fun j => ((i, j), (i, j + 1))

/-- square_heisenberg_ed.cpp 103, 105-109 and 120-130: the lattice of `fired_main` -/
def squareLattice {S : Type} (e : NetEnv ν α β) (gen : S → α × S) (s : S) (matrix : Tensor ν NoSymmetry α)
    (n1 n2 : ℕ) : Outcome (Lattice ν α β) :=
  (newLattice e gen s (nodeNames n1 n2) 1).bind fun lattice =>
  .ok ((squareBonds n1 n2).foldl (fun lattice p => setBond e lattice (nodeName p.1) (nodeName p.2) matrix) lattice)

end TAT.Ed
