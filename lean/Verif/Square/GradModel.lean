import Verif.Square.SpinModel
import Verif.Scalar.Model
import Verif.TensorMisc.Model

/-!
# Statistics and gradient of the sampling

include/square/sampling_gradient_lattice.hpp 154-272 `markov`.  The maps of observers are one list of terms, each
with its table (`_find_element`) and its positions; the results are a list in the same order.  In the code the
terms of the kind "Energy" are the hamiltonians and the other kinds come before or after them in the order of the
names, which only changes the order in which numbers are added.  What is printed is left out;
`random::split_seed` and `random::merge_seed` are in `Verif.Square.SeedModel`.
-/

namespace TAT

variable {ν α β R : Type} [LinearOrder ν] [Field α] [LinearOrder β] [Field β]

/-- `std::real`, `std::norm`, `std::conj`, whether the scalars are real, and the environment of `+=` for
tensors. -/
structure GradOps (α R : Type) extends ScalarOps α R where
  conj : α → α
  isReal : Bool
  env : Env NoSymmetry α

/-- A term which is observed: whether its kind is "Energy", the table of its tensor and its positions. -/
structure Observer (α : Type) where
  energy : Bool
  table : ElementTable α
  positions : List Pos

/-- sampling_gradient_lattice.hpp 204-215: one element of the row; `Es` and `value`. -/
def sampleElement [DecidableEq α] [Add R] (e : NetEnv ν α β) (ops : ScalarOps α R) {M N : ℕ} (cut : ℕ)
    (lattice : ℕ → ℕ → Tensor ν NoSymmetry α) (st : SpinState M N ν α) (ws : α) (o : Observer α) (s : α × R)
    (el : List ℕ × α) : Outcome (α × R) :=
  if el.1.length < o.positions.length then .ub
  else
    (spinReplace e cut lattice st (assignSpins o.positions el.1 []) ws ' ').bind fun wss =>
    (divScalar (el.2 * wss) ws).bind fun q => .ok (if o.energy then s.1 + q else s.1, s.2 + ops.re q)

/-- sampling_gradient_lattice.hpp 198-216: one term; `Es` after it, and `value`. -/
def sampleTerm [DecidableEq α] [Add R] [Zero R] (e : NetEnv ν α β) (ops : ScalarOps α R) {M N : ℕ} (cut : ℕ)
    (lattice : ℕ → ℕ → Tensor ν NoSymmetry α) (st : SpinState M N ν α) (ws Es : α) (o : Observer α) :
    Outcome (α × R) :=
  (sitesAt M N o.positions).bind fun xs =>
  (currentSpins st xs).bind fun spins =>
  (tableRow o.table spins).bind fun row =>
  row.foldlM (sampleElement e ops cut lattice st ws o) (Es, 0)

/-- sampling_gradient_lattice.hpp 195-220: all terms, each with its sum and its sum of squares. -/
def sampleTerms [DecidableEq α] [Add R] [Zero R] [Mul R] (e : NetEnv ν α β) (ops : ScalarOps α R) {M N : ℕ}
    (cut : ℕ) (lattice : ℕ → ℕ → Tensor ν NoSymmetry α) (st : SpinState M N ν α) (ws : α) :
    α → List (Observer α × R × R) → Outcome (α × List (Observer α × R × R))
  | Es, [] => .ok (Es, [])
  | Es, x :: l =>
    (sampleTerm e ops cut lattice st ws Es x.1).bind fun s =>
    (sampleTerms e ops cut lattice st ws s.1 l).bind fun r =>
    .ok (r.1, (x.1, x.2.1 + s.2, x.2.2 + s.2 * s.2) :: r.2)

/-- sampling_gradient_lattice.hpp 225-226: the derivative of the logarithm of the amplitude by the tensor of a
site, conjugated. -/
def siteHole [DecidableEq α] (e : NetEnv ν α β) (ops : GradOps α R) {M N : ℕ} (d cut : ℕ) (st : SpinState M N ν α)
    (ws : α) (x : LatticeSite M N) : Outcome (Tensor ν NoSymmetry α) :=
  st.tensors.bind fun site =>
  (auxHoles e.toAuxEnv ⟨M, N, cut, site⟩ [(((x.1 : ℕ) : ℤ), ((x.2 : ℕ) : ℤ))] ' ').bind fun t =>
  (conjugate e.junk ops.conj ops.isReal
    (e.rename t [("L0", "L"), ("R0", "R"), ("U0", "U"), ("D0", "D")])).bind fun t =>
  if ops.conj ws = 0 then .error "nan"
  else
    (scalarNumber e.junk (fun y => y / ops.conj ws) t).bind fun t =>
    match st.conf x with
    | none => .ub
    | some k => expand e.ce e.junk e.cn t [⟨e.nm "P", false, 0, k, d⟩] none

/-- The loops over `i` and `j`, where every site gets a value. -/
def forSites {M N : ℕ} {A : Type} (f : LatticeSite M N → Outcome A) (init : LatticeSite M N → A) :
    Outcome (LatticeSite M N → A) :=
  (latticeSites M N).foldlM (fun g x => (f x).bind fun a => .ok (Function.update g x a)) init

/-- sampling_gradient_lattice.hpp 223-231: what is added to `holes_with_Es` and to `holes`. -/
def addHoles [DecidableEq α] (e : NetEnv ν α β) (ops : GradOps α R) {M N : ℕ} (d cut : ℕ) (st : SpinState M N ν α)
    (ws Es : α) (s : LatticeSite M N → Tensor ν NoSymmetry α × Tensor ν NoSymmetry α) :
    Outcome (LatticeSite M N → Tensor ν NoSymmetry α × Tensor ν NoSymmetry α) :=
  forSites (fun x =>
    (siteHole e ops d cut st ws x).bind fun hole =>
    (scalarNumber e.junk (fun y => y * Es) hole).bind fun t =>
    (scalarInplace ops.env (· + ·) (s x).1 t).bind fun a =>
    (scalarInplace ops.env (· + ·) (s x).2 hole).bind fun b => .ok (a, b)) s

/-- The variables of `markov` which change from step to step: `spin`, `ws`, the sums of the terms, `sum_of_Es`,
`holes_with_Es` and `holes`. -/
structure MarkovState (M N : ℕ) (ν α R : Type) where
  spin : SpinState M N ν α
  ws : α
  sums : List (Observer α × R × R)
  sumEs : α
  holes : LatticeSite M N → Tensor ν NoSymmetry α × Tensor ν NoSymmetry α

/-- sampling_gradient_lattice.hpp 192-234: one step. -/
def observeStep [DecidableEq α] [Field R] [LinearOrder R] (e : NetEnv ν α β) (ops : GradOps α R) {M N : ℕ}
    (d cut : ℕ) (lattice : ℕ → ℕ → Tensor ν NoSymmetry α) (hop : List ((ElementTable α × List Pos) × Char))
    (gradient : Bool) (s : MarkovState M N ν α R) (random : ℕ → ℕ × R) : Outcome (MarkovState M N ν α R) :=
  (spinMarkovSweep e ops.toScalarOps cut lattice hop (s.spin, s.ws) random).bind fun p =>
  (sampleTerms e ops.toScalarOps cut lattice p.1 p.2 0 s.sums).bind fun r =>
  if gradient then
    (addHoles e ops d cut p.1 p.2 r.1 s.holes).bind fun holes =>
    .ok ⟨p.1, p.2, r.2, s.sumEs + r.1, holes⟩
  else .ok ⟨p.1, p.2, r.2, s.sumEs, s.holes⟩

/-- sampling_gradient_lattice.hpp 237-246: the mean and the square of its error.  With one step the code divides
zero by zero. -/
def finishTerm [Field R] [DecidableEq R] (total : ℕ) (s : R × R) : Outcome (R × Outcome R) :=
  (divScalar s.1 (total : R)).bind fun value =>
  (divScalar s.2 (total : R)).bind fun square =>
  .ok (value, divScalar (square - value * value) ((total - 1 : ℕ) : R))

/-- The same for all terms. -/
def finishTerms [Field R] [DecidableEq R] (total : ℕ) :
    List (Observer α × R × R) → Outcome (List (R × Outcome R))
  | [] => .ok []
  | x :: l =>
    (finishTerm total x.2).bind fun r => (finishTerms total l).bind fun rs => .ok (r :: rs)

/-- sampling_gradient_lattice.hpp 265: the gradient of a site; `s` is `holes_with_Es` and `holes`. -/
def gradientAt [DecidableEq α] (e : NetEnv ν α β) (ops : GradOps α R) (total : ℕ) (sumEs : α)
    (s : Tensor ν NoSymmetry α × Tensor ν NoSymmetry α) : Outcome (Tensor ν NoSymmetry α) :=
  if (total : α) = 0 then .error "nan"
  else
    (scalarNumber e.junk (fun y => y / (total : α)) s.1).bind fun a =>
    (scalarNumber e.junk (fun y => 2 * y) a).bind fun a =>
    (scalarNumber e.junk (fun y => y / (total : α)) s.2).bind fun b =>
    (scalarNumber e.junk (fun y => 2 * (sumEs / (total : α)) * y) b).bind fun b =>
    scalarOp ops.env e.junk id id (· - ·) a b

/-- sampling_gradient_lattice.hpp 172-174: `same_shape().zero()` -/
def zeroLike (e : NetEnv ν α β) (t : Tensor ν NoSymmetry α) : Outcome (Tensor ν NoSymmetry α) :=
  (sameShape e.junk t).bind fun r => .ok (zero r)

/-- sampling_gradient_lattice.hpp 154-272 `markov`; `observers` are the terms of the other kinds, `hamiltonians`
those of the energy, `hop` the terms of `_markov_sampling_positions_sequence` and `random` the random numbers of
every step.  `result` has entries only after a step, so that without steps or without hamiltonians
`result_variance_square.at("Energy")` fails.  Without gradient the vectors of tensors are empty. -/
def markov [DecidableEq α] [Field R] [LinearOrder R] (e : NetEnv ν α β) (ops : GradOps α R) {M N : ℕ}
    (d cut : ℕ) (lattice : ℕ → ℕ → Tensor ν NoSymmetry α) (hop : List ((ElementTable α × List Pos) × Char))
    (observers hamiltonians : List (ElementTable α × List Pos)) (total : ℕ) (energy gradient : Bool)
    (random : ℕ → ℕ → ℕ × R) (st : SpinState M N ν α) :
    Outcome (SpinState M N ν α × List (R × Outcome R) × Option (LatticeSite M N → Tensor ν NoSymmetry α)) :=
  let energy := energy || gradient
  let terms := observers.map (fun t => ⟨false, t.1, t.2⟩) ++
    if energy then hamiltonians.map (fun t => (⟨true, t.1, t.2⟩ : Observer α)) else []
  (if gradient then
      forSites (fun x => (zeroLike e (lattice x.1 x.2)).bind fun t => .ok (t, t)) fun _ => (oneTensor, oneTensor)
    else .ok fun _ => (oneTensor, oneTensor)).bind fun holes =>
  (spinValue e cut st).bind fun ws =>
  ((List.range total).foldlM (fun s step => observeStep e ops d cut lattice hop gradient s (random step))
    (⟨st, ws, terms.map fun o => (o, 0, 0), 0, holes⟩ : MarkovState M N ν α R)).bind fun s =>
  (finishTerms total (if total = 0 then [] else s.sums)).bind fun results =>
  if energy = true ∧ (total = 0 ∨ hamiltonians = []) then .error "map::at"
  else if gradient then
    (forSites (fun x => gradientAt e ops total s.sumEs (s.holes x)) fun _ => oneTensor).bind fun g =>
    .ok (s.spin, results, some g)
  else .ok (s.spin, results, none)

/-- sampling_gradient_lattice.hpp 352-366 `equilibrate`: the steps of `markov` without observing.  Printing is left
out. -/
def equilibrate [DecidableEq α] [Field R] [LinearOrder R] (e : NetEnv ν α β) (ops : ScalarOps α R) {M N : ℕ} (cut : ℕ)
    (lattice : ℕ → ℕ → Tensor ν NoSymmetry α) (hop : List ((ElementTable α × List Pos) × Char)) (total : ℕ)
    (random : ℕ → ℕ → ℕ × R) (st : SpinState M N ν α) : Outcome (SpinState M N ν α) :=
  (spinValue e cut st).bind fun ws =>
  ((List.range total).foldlM (fun s step => spinMarkovSweep e ops cut lattice hop s (random step)) (st, ws)).bind fun s =>
  .ok s.1

end TAT
