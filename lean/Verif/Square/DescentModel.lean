import Verif.Square.GradModel

/-!
# Gradient descent

examples/heisenberg.cpp 176-203, the command `gradient`: the tensors of the lattice are changed between calls of
`markov` (sampling_gradient_lattice.hpp 154-272).  `SpinConfiguration` is kept by the lattice, and its slices are taken
from the lattice only when a spin changes (sampling_gradient_lattice.hpp 55-69).
-/

namespace TAT

variable {ν α β : Type} [LinearOrder ν] [Field α] [LinearOrder β] [Field β]

/-- examples/heisenberg.cpp 191-192: `lattice[i][j] -= step_size * gradient[i][j]` and
`lattice[i][j] /= lattice[i][j].norm<-1>()` -/
def descendSite (e : NetEnv ν α β) (env : Env NoSymmetry α) (step : α) (t g : Tensor ν NoSymmetry α) :
    Outcome (Tensor ν NoSymmetry α) :=
  (scalarNumber e.junk (fun y => step * y) g).bind fun g =>
  (scalarInplace env (· - ·) t g).bind fun t => normalised e t

/-- examples/heisenberg.cpp 189-194: all sites. -/
def descend (e : NetEnv ν α β) (env : Env NoSymmetry α) {M N : ℕ} (step : α)
    (lattice : ℕ → ℕ → Tensor ν NoSymmetry α) (gradient : LatticeSite M N → Tensor ν NoSymmetry α) :
    Outcome (ℕ → ℕ → Tensor ν NoSymmetry α) :=
  (forSites (fun x => descendSite e env step (lattice x.1 x.2) (gradient x)) fun x => lattice x.1 x.2).bind fun g =>
  .ok fun i j => if h : i < M ∧ j < N then g (⟨i, h.1⟩, ⟨j, h.2⟩) else lattice i j

/-- What happens to a sampling lattice: a call of `set` (sampling_gradient_lattice.hpp 55-69), or an assignment to its
tensors, of which the member `spin` is not told (abstract_network_lattice.hpp 33). -/
def spinEvent (e : NetEnv ν α β) {M N : ℕ} (s : (ℕ → ℕ → Tensor ν NoSymmetry α) × SpinState M N ν α) :
    (Pos × Option ℕ) ⊕ (ℕ → ℕ → Tensor ν NoSymmetry α) → Outcome ((ℕ → ℕ → Tensor ν NoSymmetry α) × SpinState M N ν α)
  | .inl p => (setSpin e s.1 s.2 p.1 p.2).bind fun st => .ok (s.1, st)
  | .inr lattice => .ok (lattice, s.2)

/-- Several of them. -/
def spinEvents (e : NetEnv ν α β) {M N : ℕ} (s : (ℕ → ℕ → Tensor ν NoSymmetry α) × SpinState M N ν α)
    (l : List ((Pos × Option ℕ) ⊕ (ℕ → ℕ → Tensor ν NoSymmetry α))) :
    Outcome ((ℕ → ℕ → Tensor ν NoSymmetry α) × SpinState M N ν α) :=
  l.foldlM (spinEvent e) s

/-- sampling_gradient_lattice.hpp 138-152 `initialize_spin`; a spin which is -1 is `none`. -/
def initializeSites (e : NetEnv ν α β) {M N : ℕ} (lattice : ℕ → ℕ → Tensor ν NoSymmetry α) (st : SpinState M N ν α)
    (configuration : LatticeSite M N → Option ℕ) : Outcome (SpinState M N ν α) :=
  setSpins e lattice st ((latticeSites M N).map fun x => ((((x.1 : ℕ) : ℤ), ((x.2 : ℕ) : ℤ)), configuration x))

/-- sampling_gradient_lattice.hpp 131-136 `set_dimension_cut` and 99-106, the constructors from another lattice: a new
`SpinConfiguration` gets the spins of the old one. -/
def renewSpin (e : NetEnv ν α β) {M N : ℕ} (lattice : ℕ → ℕ → Tensor ν NoSymmetry α) (st : SpinState M N ν α) :
    Outcome (SpinState M N ν α) :=
  initializeSites e lattice .empty st.conf

end TAT
