import Verif.Square.NetModel
import Verif.Square.ExactModel

/-!
# New lattices, their terms, and the operators of spins

include/square/abstract_network_lattice.hpp 41-67 (the constructor), include/square/abstract_lattice.hpp 48-70 (the
setters of the hamiltonian), include/square/basic.hpp 66-139 (`Common`).
-/

namespace TAT

variable {ν α β γ : Type} [LinearOrder ν] [Field α] [LinearOrder β] [Field β]

/-- abstract_network_lattice.hpp 45-62: `name_list` and `dimension_list` -/
def siteShape (nm : String → ν) (M N D d i j : ℕ) : List (ν × ℕ) :=
  [(nm "P", d)] ++ (if i ≠ 0 then [(nm "U", D)] else []) ++ (if j ≠ 0 then [(nm "L", D)] else []) ++
    (if i + 1 ≠ M then [(nm "D", D)] else []) ++ (if j + 1 ≠ N then [(nm "R", D)] else [])

/-- abstract_network_lattice.hpp 63-64: one tensor; `numbers` are the random numbers it is given. -/
def siteNew (e : NetEnv ν α β) (numbers : ℕ → α) (M N D d i j : ℕ) : Outcome (Tensor ν NoSymmetry α) :=
  (mkTensor e.junk ((siteShape e.nm M N D d i j).map Prod.fst)
    ((siteShape e.nm M N D d i j).map fun x => ⟨false, [(0, x.2)]⟩)).bind fun t =>
  normalised e (setWith (fun k => (numbers k, k + 1)) 0 t)

/-- abstract_network_lattice.hpp 41-67 `AbstractNetworkLattice(int, int, Size, Size)`: the tensors of the lattice.
`numbers i j` are the random numbers of one site. -/
def latticeNew (e : NetEnv ν α β) (numbers : ℕ → ℕ → ℕ → α) (M N D d : ℕ) :
    Outcome (List (List (Tensor ν NoSymmetry α))) :=
  (List.range M).mapM fun i => (List.range N).mapM fun j => siteNew e (numbers i j) M N D d i j

/-- `lattice[i][j]` -/
def latticeAt (rows : List (List (Tensor ν NoSymmetry α))) (i j : ℕ) : Tensor ν NoSymmetry α :=
  (rows.getD i []).getD j oneTensor

/-! ## The setters of the hamiltonian -/

section

variable {H : Type} [LinearOrder TermKey]

/-- `hamiltonians[key] = hamiltonian` for one key after the other. -/
def setTerms (hamiltonian : H) (keys : List TermKey) (hamiltonians : List (TermKey × H)) : List (TermKey × H) :=
  keys.foldl (fun m k => OMap.set m k hamiltonian) hamiltonians

/-- abstract_lattice.hpp 48-54 `set_all_site` -/
def setAllSite (M N : ℕ) (hamiltonian : H) (hamiltonians : List (TermKey × H)) : List (TermKey × H) :=
  setTerms hamiltonian ((counters M).flatMap fun i => (counters N).map fun j => [(i, j)]) hamiltonians

/-- abstract_lattice.hpp 56-62 `set_all_vertical_bond` -/
def setAllVertical (M N : ℕ) (hamiltonian : H) (hamiltonians : List (TermKey × H)) : List (TermKey × H) :=
  setTerms hamiltonian ((counters (M - 1)).flatMap fun i => (counters N).map fun j => [(i, j), (i + 1, j)])
    hamiltonians

/-- abstract_lattice.hpp 64-70 `set_all_horizontal_bond` -/
def setAllHorizontal (M N : ℕ) (hamiltonian : H) (hamiltonians : List (TermKey × H)) : List (TermKey × H) :=
  setTerms hamiltonian ((counters M).flatMap fun i => (counters (N - 1)).map fun j => [(i, j), (i, j + 1)])
    hamiltonians

/-- The three setters. -/
inductive Setter
  | site | vertical | horizontal
deriving DecidableEq

/-- One call of a setter. -/
def callSetter (M N : ℕ) (hamiltonians : List (TermKey × H)) (c : Setter × H) : List (TermKey × H) :=
  match c.1 with
  | .site => setAllSite M N c.2 hamiltonians
  | .vertical => setAllVertical M N c.2 hamiltonians
  | .horizontal => setAllHorizontal M N c.2 hamiltonians

end

/-! ## The operators of spins -/

/-- basic.hpp 72-75, 84-87, 96-99: a tensor with the edges "I0" and "O0" of dimension two, filled with zeros but for
two elements; each has its two indices and its value. -/
def spinOperator [Zero γ] (junk : List NoSymmetry → ℕ → γ) (nm : String → ν) (x y : ℕ × ℕ × γ) :
    Outcome (Tensor ν NoSymmetry γ) :=
  let at_ (x : ℕ × ℕ × γ) := OMap.ofList [(nm "I0", ((0 : NoSymmetry), x.1)), (nm "O0", ((0 : NoSymmetry), x.2.1))]
  (mkTensor junk [nm "I0", nm "O0"] [⟨false, [(0, 2)]⟩, ⟨false, [(0, 2)]⟩]).bind fun t =>
  (atWrite (zero t) (at_ x) x.2.2).bind fun t => atWrite t (at_ y) y.2.2

/-- basic.hpp 69-79 `Sx` -/
def spinX [Field γ] (junk : List NoSymmetry → ℕ → γ) (nm : String → ν) : Outcome (Tensor ν NoSymmetry γ) :=
  spinOperator junk nm (0, 1, 1 / 2) (1, 0, 1 / 2)

/-- basic.hpp 81-91 `Sy`; `i` is the imaginary unit. -/
def spinY [Field γ] (junk : List NoSymmetry → ℕ → γ) (nm : String → ν) (i : γ) : Outcome (Tensor ν NoSymmetry γ) :=
  spinOperator junk nm (0, 1, -(i / 2)) (1, 0, i / 2)

/-- basic.hpp 93-103 `Sz` -/
def spinZ [Field γ] (junk : List NoSymmetry → ℕ → γ) (nm : String → ν) : Outcome (Tensor ν NoSymmetry γ) :=
  spinOperator junk nm (0, 0, 1 / 2) (1, 1, -(1 / 2))

/-- basic.hpp 109, 118, 127: `single->edge_rename({{"I0", "I1"}, {"O0", "O1"}}).contract(*single, {})` -/
def onBoth [Field γ] (ce : ContractEnv NoSymmetry γ) (cn : ContractNames ν) (nm : String → ν)
    (single : Tensor ν NoSymmetry γ) : Outcome (Tensor ν NoSymmetry γ) :=
  contract ce cn (edgeRename single (OMap.ofList [(nm "I0", nm "I1"), (nm "O0", nm "O1")])) single []

/-- What the calls of the tensor library are given for the scalars `α` and for the complex numbers `γ` of `Sy`:
the imaginary unit and the conversion `to`. -/
structure SpinEnv (ν α γ : Type) where
  ce : ContractEnv NoSymmetry α
  ceC : ContractEnv NoSymmetry γ
  cn : ContractNames ν
  env : Env NoSymmetry α
  junk : List NoSymmetry → ℕ → α
  junkC : List NoSymmetry → ℕ → γ
  nm : String → ν
  i : γ
  toT : γ → α

/-- basic.hpp 105-112 `SxSx` -/
def spinXX (e : SpinEnv ν α γ) : Outcome (Tensor ν NoSymmetry α) :=
  (spinX e.junk e.nm).bind fun t => onBoth e.ce e.cn e.nm t

/-- basic.hpp 114-121 `SySy` -/
def spinYY [Field γ] (e : SpinEnv ν α γ) : Outcome (Tensor ν NoSymmetry α) :=
  (spinY e.junkC e.nm e.i).bind fun t => (onBoth e.ceC e.cn e.nm t).bind fun t => .ok (convertTo e.toT t)

/-- basic.hpp 123-130 `SzSz` -/
def spinZZ (e : SpinEnv ν α γ) : Outcome (Tensor ν NoSymmetry α) :=
  (spinZ e.junk e.nm).bind fun t => onBoth e.ce e.cn e.nm t

/-- basic.hpp 132-138 `SS` -/
def spinSS [Field γ] (e : SpinEnv ν α γ) : Outcome (Tensor ν NoSymmetry α) :=
  (spinXX e).bind fun x => (spinYY e).bind fun y => (spinZZ e).bind fun z =>
  (scalarOp e.env e.junk id id (· + ·) x y).bind fun t => scalarOp e.env e.junk id id (· + ·) t z

end TAT
