import Verif.Mps.UpdateModel
import Verif.Square.ExactModel

/-!
# Model of `examples/diag.cpp`

The state of all sites is one tensor, with an edge for each site.  `NetEnv` has what contraction, the modulus and
the conversion of numbers are given.  The numbers of the sites in `link` are not negative.  A division by zero is an
error here, and gives elements which are not numbers in the program.  What `update` prints, and `main`, are not
modelled.
-/

namespace TAT.Diag

variable {ν α β : Type} [LinearOrder ν] [Field α] [LinearOrder β] [Field β]

/-- diag.cpp 32-41 `create_vector` -/
def createVector (e : NetEnv ν α β) (n : ℕ) : Outcome (Tensor ν NoSymmetry α) :=
  mkTensor e.junk ((List.range n).map fun i => e.nm (toString i)) ((List.range n).map fun _ => ⟨false, [(0, 2)]⟩)

/-- diag.cpp 32-41 and 65-74: `create_vector` and `set_state` -/
def newState {S : Type} (e : NetEnv ν α β) (gen : S → α × S) (s : S) (n : ℕ) : Outcome (Tensor ν NoSymmetry α) :=
  (createVector e n).bind fun t => .ok (setWith gen s t)

/-- diag.cpp 54-60 `set_h`.  The counter is `static`: it is zero at the first call only. -/
def setH (e : NetEnv ν α β) (h : List α) (counter : ℕ) : Outcome (Tensor ν NoSymmetry α) :=
  mpsFilled e.toAuxEnv h counter [e.nm "I0", e.nm "I1", e.nm "O0", e.nm "O1"]
    [⟨false, [(0, 2)]⟩, ⟨false, [(0, 2)]⟩, ⟨false, [(0, 2)]⟩, ⟨false, [(0, 2)]⟩]

/-- diag.cpp 92-93 and 111-112: an operator is applied to the sites `i` and `j`. -/
def applyLink (e : NetEnv ν α β) (op state : Tensor ν NoSymmetry α) (l : ℕ × ℕ) : Outcome (Tensor ν NoSymmetry α) :=
  (e.join state op [(toString l.1, "I0"), (toString l.2, "I1")]).bind fun t =>
  .ok (e.rename t [("O0", toString l.1), ("O1", toString l.2)])

/-- diag.cpp 91-95: the loop over the links. -/
def updateLinks (e : NetEnv ν α β) (op : Tensor ν NoSymmetry α) :
    List (ℕ × ℕ) → Tensor ν NoSymmetry α → Outcome (Tensor ν NoSymmetry α)
  | [], state => .ok state
  | l :: ls, state =>
    (applyLink e op state l).bind fun t => (normalised e t).bind fun t => updateLinks e op ls t

/-- diag.cpp 90-96: the loop over the steps. -/
def updateSteps (e : NetEnv ν α β) (op : Tensor ν NoSymmetry α) (links : List (ℕ × ℕ)) :
    ℕ → Tensor ν NoSymmetry α → Outcome (Tensor ν NoSymmetry α)
  | 0, state => .ok state
  | n + 1, state => (updateLinks e op links state).bind fun t => updateSteps e op links n t

/-- diag.cpp 97-103: elements which are small become zero; `tiny` is `1e-10`. -/
def chop (e : NetEnv ν α β) (tiny : β) (x : α) : α := if tiny < e.abs x then x else 0

/-- diag.cpp 76-105 `update`, without what is printed.  Lines 77-89, the operator `identity - delta_t * hamiltonian`,
are as in mps.cpp. -/
def update (e : NetEnv ν α β) (env : Env NoSymmetry α) (tiny : β) (hamiltonian : Tensor ν NoSymmetry α)
    (links : List (ℕ × ℕ)) (delta : α) (n : ℕ) (state : Tensor ν NoSymmetry α) : Outcome (Tensor ν NoSymmetry α) :=
  (mpsUpdater e.toAuxEnv env delta hamiltonian).bind fun op =>
  (updateSteps e op links n state).bind fun t => .ok (transform (chop e tiny) t)

/-- diag.cpp 110-113: the loop of `energy`. -/
def sumLinks (e : NetEnv ν α β) (env : Env NoSymmetry α) (hamiltonian state : Tensor ν NoSymmetry α) :
    List (ℕ × ℕ) → Tensor ν NoSymmetry α → Outcome (Tensor ν NoSymmetry α)
  | [], acc => .ok acc
  | l :: ls, acc =>
    (applyLink e hamiltonian state l).bind fun t =>
    (scalarInplace env (· + ·) acc t).bind fun acc => sumLinks e env hamiltonian state ls acc

/-- diag.cpp 107-116 `energy`.  The scalars are real, the conjugate of the state is the state. -/
def energy [DecidableEq α] (e : NetEnv ν α β) (env : Env NoSymmetry α) (hamiltonian : Tensor ν NoSymmetry α) (links : List (ℕ × ℕ))
    (state : Tensor ν NoSymmetry α) : Outcome α :=
  (contractAllEdge e.ce e.cn state state).bind fun psiPsi =>
  (sameShape e.junk state).bind fun t =>
  (sumLinks e env hamiltonian state links (zero t)).bind fun hPsi =>
  (contractAllEdge e.ce e.cn state hPsi).bind fun psiHPsi =>
  (onlyElement psiHPsi).bind fun x => (onlyElement psiPsi).bind fun z =>
  if z = 0 then .error "the norm is zero" else .ok (x / z)

end TAT.Diag
