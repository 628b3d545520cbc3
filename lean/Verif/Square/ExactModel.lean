import Verif.Contract.Model
import Verif.Scalar.Model
import Verif.EdgeMisc.Model
import Verif.Square.UpdateModel

/-!
# The exact lattice

include/square/exact_lattice.hpp.  The vector of the whole lattice is one tensor with an edge for each
site.  Simplified: the scalars of an observable are those of the lattice (the conversion to a common type
is left out), `M` and `N` are not negative, and a division by zero, which gives `inf` or `nan` in the
code, is the outcome `error`.  Reports on the terminal are left out.
-/

namespace TAT

variable {ν α ρ : Type}

/-- What the calls of the tensor library are given: the arguments of `contract` and of the arithmetic
which have no influence on the results, the names of strings (`Name(const char*)`, name.hpp), the modulus
and the conversions between the scalars and the reals. -/
structure ExactEnv (ν α ρ : Type) where
  ce : ContractEnv NoSymmetry α
  cn : ContractNames ν
  env : Env NoSymmetry α
  junk : List NoSymmetry → ℕ → α
  nm : String → ν
  abs : α → ρ
  ofReal : ρ → α
  re : α → ρ

/-- `"P-" + std::to_string(i) + "-" + std::to_string(j)` -/
def physName (nm : String → ν) (p : Pos) : ν := nm ("P-" ++ toString p.1 ++ "-" ++ toString p.2)

/-- `"I" + std::to_string(i)` -/
def inName (nm : String → ν) (k : ℕ) : ν := nm ("I" ++ toString k)

/-- `"O" + std::to_string(i)` -/
def outName (nm : String → ν) (k : ℕ) : ν := nm ("O" ++ toString k)

/-- exact_lattice.hpp 70-76, 102-108: `map_in` and `map_out`; `side` is `inName` or `outName`. -/
def siteDictionary [LinearOrder ν] (nm : String → ν) (side : ℕ → ν) (positions : TermKey) :
    List (ν × ν) :=
  OMap.ofList (positions.zipIdx.map fun e => (side e.2, physName nm e.1))

/-- exact_lattice.hpp 49-54: `name_list` -/
def siteNames (nm : String → ν) (M N : ℕ) : List ν :=
  (counters M).flatMap fun i => (counters N).map fun j => physName nm (i, j)

/-- tensor.hpp 228-233 `operator ScalarType`, with `is_scalar` (221-223) -/
def onlyElement (t : Tensor ν NoSymmetry α) : Outcome α :=
  match t.core.blocks with
  | [(_, [x])] => .ok x
  | _ => .error "Try to get the only element of the tensor which contains more than one element"

variable [LinearOrder ν] [Field α] [LinearOrder ρ] [Field ρ]

/-- exact_lattice.hpp 48-57: the constructor; `gen` with the state `s` is the generator of random
numbers. -/
def exactNew {S : Type} (e : ExactEnv ν α ρ) (gen : S → α × S) (s : S) (M N d : ℕ) :
    Outcome (Tensor ν NoSymmetry α) :=
  (mkTensor e.junk (siteNames e.nm M N) (List.replicate (M * N) ⟨false, [(0, d)]⟩)).bind fun t =>
  let t := setWith gen s t
  let norm := normMax e.abs t
  if norm = 0 then .error "division by zero"
  else .ok (scalarInplaceNumber (fun x => x / e.ofReal norm) t)

/-- exact_lattice.hpp 77, 109-110: a term applied to the vector. -/
def applyTerm (e : ExactEnv ν α ρ) (v : Tensor ν NoSymmetry α)
    (term : TermKey × Tensor ν NoSymmetry α) : Outcome (Tensor ν NoSymmetry α) :=
  (contractAllEdge e.ce e.cn v
    (edgeRename term.2 (siteDictionary e.nm (inName e.nm) term.1))).bind fun r =>
  .ok (edgeRename r (siteDictionary e.nm (outName e.nm) term.1))

/-- exact_lattice.hpp 67-78: `temporary_vector` after all terms. -/
def applyTerms (e : ExactEnv ν α ρ) (v : Tensor ν NoSymmetry α) :
    List (TermKey × Tensor ν NoSymmetry α) → Tensor ν NoSymmetry α → Outcome (Tensor ν NoSymmetry α)
  | [], acc => .ok acc
  | term :: terms, acc =>
    (applyTerm e v term).bind fun r =>
    (scalarInplace e.env (· + ·) acc r).bind fun acc => applyTerms e v terms acc

/-- exact_lattice.hpp 67-84: one step, with `total_approximate_energy` = `a`; gives the energy of the
whole lattice and the new vector. -/
def exactStep (e : ExactEnv ν α ρ) (terms : List (TermKey × Tensor ν NoSymmetry α)) (a : ρ)
    (v : Tensor ν NoSymmetry α) : Outcome (ρ × Tensor ν NoSymmetry α) :=
  (sameShape e.junk v).bind fun t =>
  (applyTerms e v terms (zero t)).bind fun temporary =>
  (scalarInplace e.env (· - ·) (scalarInplaceNumber (fun x => x * e.ofReal a) v) temporary).bind
    fun w =>
  let norm := normMax e.abs w
  if norm = 0 then .error "division by zero"
  else .ok (a - norm, scalarInplaceNumber (fun x => x / e.ofReal norm) w)

/-- exact_lattice.hpp 66-87: the loop over the steps. -/
def exactSteps (e : ExactEnv ν α ρ) (terms : List (TermKey × Tensor ν NoSymmetry α)) (a : ρ) :
    ℕ → ρ × Tensor ν NoSymmetry α → Outcome (ρ × Tensor ν NoSymmetry α)
  | 0, s => .ok s
  | n + 1, s => (exactStep e terms a s.2).bind fun s => exactSteps e terms a n s

/-- exact_lattice.hpp 62-90 `update`; gives the energy for each site and the new vector. -/
def exactUpdate (e : ExactEnv ν α ρ) (M N : ℕ) (terms : List (TermKey × Tensor ν NoSymmetry α))
    (totalStep : ℕ) (approximateEnergy : ρ) (v : Tensor ν NoSymmetry α) :
    Outcome (ρ × Tensor ν NoSymmetry α) :=
  (exactSteps e terms (|approximateEnergy| * M * N) totalStep (0, v)).bind fun s =>
  if (M * N : ρ) = 0 then .error "division by zero"
  else .ok (s.1 / (M * N), s.2)

/-- exact_lattice.hpp 92-94 `denominator` -/
def exactDenominator (e : ExactEnv ν α ρ) (v : Tensor ν NoSymmetry α) : Outcome ρ :=
  (contractAllEdge e.ce e.cn v v).bind fun r => onlyElement (convertTo e.re r)

/-- exact_lattice.hpp 97-118 `observe`; `observer` has its positions. -/
def exactObserve (e : ExactEnv ν α ρ) (v : Tensor ν NoSymmetry α)
    (observer : TermKey × Tensor ν NoSymmetry α) (calculateDenominator : Bool) : Outcome ρ :=
  (applyTerm e v observer).bind fun r =>
  (contractAllEdge e.ce e.cn r v).bind fun r =>
  (onlyElement (convertTo e.re r)).bind fun numerator =>
  if calculateDenominator then
    (exactDenominator e v).bind fun denominator =>
    if denominator = 0 then .error "division by zero" else .ok (numerator / denominator)
  else .ok numerator

/-- exact_lattice.hpp 121-124: the sum over the terms. -/
def sumObserved (e : ExactEnv ν α ρ) (v : Tensor ν NoSymmetry α) :
    List (TermKey × Tensor ν NoSymmetry α) → ρ → Outcome ρ
  | [], energy => .ok energy
  | term :: terms, energy =>
    (exactObserve e v term false).bind fun x => sumObserved e v terms (energy + x)

/-- exact_lattice.hpp 120-126 `observe_energy` -/
def exactObserveEnergy (e : ExactEnv ν α ρ) (M N : ℕ)
    (terms : List (TermKey × Tensor ν NoSymmetry α)) (v : Tensor ν NoSymmetry α) : Outcome ρ :=
  (sumObserved e v terms 0).bind fun energy =>
  (exactDenominator e v).bind fun denominator =>
  if denominator = 0 ∨ (M * N : ρ) = 0 then .error "division by zero"
  else .ok (energy / denominator / (M * N))

end TAT
