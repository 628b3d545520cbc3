import Verif.Square.AuxModel
import Verif.Shrink.Model

/-!
# Networks with environments

include/square/simple_update_lattice.hpp 199-324: what the simple update does with the tensors, and
include/square/conversion.hpp.  The lattice is a function of the positions, and the environments are those of
`UpdateState`.  A division by zero, which gives `inf` or `nan` in the code, is the outcome `error`.
-/

namespace TAT

variable {ν α β : Type}

/-- `Singular::value` of a tensor without symmetry (tensor.hpp 51-60) -/
abbrev SingularTable (β : Type) := List (NoSymmetry × List β)

/-- The lattice and its environments. -/
abbrev NetState (ν α β : Type) := UpdateState (Tensor ν NoSymmetry α) (SingularTable β)

/-- What the operations of tensors are given (see `AuxEnv`), and the modulus of a scalar. -/
structure NetEnv (ν α β : Type) extends AuxEnv ν α β where
  abs : α → β

variable [LinearOrder ν] [Field α] [LinearOrder β] [Field β]

/-- simple_update_lattice.hpp 302-324 `try_multiple`, once the environment has been looked up: the name of the
edge and the direction. -/
def tryMultiple (e : NetEnv ν α β) (division : Bool) (t : Tensor ν NoSymmetry α)
    (x : String × Char × Option (SingularTable β)) : Outcome (Tensor ν NoSymmetry α) :=
  match x.2.2 with
  | none => .ok t
  | some S =>
    if division = true ∧ ∃ y ∈ S, ∃ z ∈ y.2, z = 0 then .error "division by zero"
    else multiple e.junk (fun x y => x * e.c y) (fun x => x⁻¹) t S (e.nm x.1) x.2.1 division

/-- Several calls of `try_multiple`. -/
def tryMultiples (e : NetEnv ν α β) (division : Bool) (t : Tensor ν NoSymmetry α) :
    List (String × Char × Option (SingularTable β)) → Outcome (Tensor ν NoSymmetry α)
  | [] => .ok t
  | x :: l => (tryMultiple e division t x).bind fun t => tryMultiples e division t l

/-- `t /= t.template norm<-1>()` -/
def normalised (e : NetEnv ν α β) (t : Tensor ν NoSymmetry α) : Outcome (Tensor ν NoSymmetry α) :=
  if normMax e.abs t = 0 then .error "division by zero"
  else .ok (scalarInplaceNumber (fun x => x / e.c (normMax e.abs t)) t)

/-- tensor.hpp 61-71 `Singular::norm<-1>` -/
def singularMax (S : SingularTable β) : β :=
  S.foldl (fun m x => x.2.foldl (fun m y => if m < |y| then |y| else m) m) 0

/-- `s /= s.template norm<-1>()`: scalar.hpp 177-190 -/
def singularNormalised (S : SingularTable β) : Outcome (SingularTable β) :=
  if singularMax S = 0 then .error "division by zero"
  else .ok (S.map fun x => (x.1, x.2.map fun y => y / singularMax S))

/-! ## Simple update -/

/-- simple_update_lattice.hpp 231-234 `_single_term_simple_update_single_site` -/
def singleUpdate (e : NetEnv ν α β) (updater t : Tensor ν NoSymmetry α) : Outcome (Tensor ν NoSymmetry α) :=
  (e.join t updater [("P", "I0")]).bind fun t => .ok (e.rename t [("O0", "P")])

/-- simple_update_lattice.hpp 236-267, 269-300: `_single_term_simple_update_horizontal_bond`, and
`_single_term_simple_update_vertical_bond` with the directions "U" and "D" in place of "L" and "R".  The
environments `inside` and `around` are those of the first tensor with and without the bond, `around'` those of
the second without the bond. -/
def bondUpdate (e : NetEnv ν α β) (D : ℕ) (left right : String) (updater : Tensor ν NoSymmetry α)
    (t : Tensor ν NoSymmetry α) (inside around : List (String × Char × Option (SingularTable β)))
    (t' : Tensor ν NoSymmetry α) (around' : List (String × Char × Option (SingularTable β))) :
    Outcome (Tensor ν NoSymmetry α × SingularTable β × Tensor ν NoSymmetry α) :=
  (tryMultiples e false t inside).bind fun t =>
  (tryMultiples e false t' around').bind fun t' =>
  (qr e.lp e.qrEnv e.qrJunk e.qn t 'r' [e.nm "P", e.nm right] (e.nm right) (e.nm left)).bind fun f =>
  (qr e.lp e.qrEnv e.qrJunk e.qn t' 'r' [e.nm "P", e.nm left] (e.nm left) (e.nm right)).bind fun f' =>
  (e.join (e.rename f.2 [("P", "P0")]) (e.rename f'.2 [("P", "P1")]) [(right, left)]).bind fun x =>
  (e.join x updater [("P0", "I0"), ("P1", "I1")]).bind fun x =>
  (svd e.gesvd e.svdEnv e.svdJunk e.sn x [e.nm left, e.nm "O0"] (e.nm right) (e.nm left) D).bind fun g =>
  (singularNormalised g.2.1).bind fun S =>
  (e.join g.1 f.1 [(left, right)]).bind fun u =>
  (tryMultiples e true (e.rename u [("O0", "P")]) around).bind fun u =>
  (normalised e u).bind fun u =>
  (e.join g.2.2 f'.1 [(right, left)]).bind fun v =>
  (tryMultiples e true (e.rename v [("O1", "P")]) around').bind fun v =>
  (normalised e v).bind fun v => .ok (u, S, v)

/-- Environments of which some could not be computed. -/
def allEnvironments : List (Option (Outcome (SingularTable β))) → Outcome (List (Option (SingularTable β)))
  | [] => .ok []
  | none :: l => (allEnvironments l).bind fun l => .ok (none :: l)
  | some x :: l => x.bind fun x => (allEnvironments l).bind fun l => .ok (some x :: l)

/-- simple_update_lattice.hpp 236-267: the environments are left, up, down and right of the first site, and up,
down and right of the second. -/
def horizontalUpdate (e : NetEnv ν α β) (D : ℕ) (updater t : Tensor ν NoSymmetry α)
    (s : List (Option (SingularTable β))) (t' : Tensor ν NoSymmetry α) (s' : List (Option (SingularTable β))) :
    Outcome (Tensor ν NoSymmetry α × SingularTable β × Tensor ν NoSymmetry α) :=
  match s, s' with
  | [l, u, d, r], [u', d', r'] =>
    bondUpdate e D "L" "R" updater t [("L", 'v', l), ("U", 'v', u), ("D", 'u', d), ("R", 'u', r)]
      [("L", 'v', l), ("U", 'v', u), ("D", 'u', d)] t' [("U", 'v', u'), ("D", 'u', d'), ("R", 'u', r')]
  | _, _ => .ub

/-- simple_update_lattice.hpp 269-300: the environments are left, up, down and right of the first site, and
left, down and right of the second. -/
def verticalUpdate (e : NetEnv ν α β) (D : ℕ) (updater t : Tensor ν NoSymmetry α)
    (s : List (Option (SingularTable β))) (t' : Tensor ν NoSymmetry α) (s' : List (Option (SingularTable β))) :
    Outcome (Tensor ν NoSymmetry α × SingularTable β × Tensor ν NoSymmetry α) :=
  match s, s' with
  | [l, u, d, r], [l', d', r'] =>
    bondUpdate e D "U" "D" updater t [("L", 'v', l), ("U", 'v', u), ("D", 'u', d), ("R", 'u', r)]
      [("L", 'v', l), ("U", 'v', u), ("R", 'u', r)] t' [("L", 'v', l'), ("D", 'u', d'), ("R", 'u', r')]
  | _, _ => .ub

/-- The three results of a bond. -/
def bondResult {T E : Type} (r : Outcome (T × E × T)) : Outcome T × Outcome E × Outcome T :=
  (r.bind fun r => .ok r.1, r.bind fun r => .ok r.2.1, r.bind fun r => .ok r.2.2)

/-- The operations of the simple update for `UpdateOps`.  An exception ends the program; here it is left in the
state, so that everything computed from it is an exception too. -/
def netOps (e : NetEnv ν α β) (D : ℕ) :
    UpdateOps (Tensor ν NoSymmetry α) (Outcome (Tensor ν NoSymmetry α)) (Outcome (SingularTable β)) where
  single updater t := t.bind fun t => singleUpdate e updater t
  horizontal updater t s t' s' := bondResult
    (t.bind fun t => t'.bind fun t' => (allEnvironments s).bind fun s => (allEnvironments s').bind fun s' =>
      horizontalUpdate e D updater t s t' s')
  vertical updater t s t' s' := bondResult
    (t.bind fun t => t'.bind fun t' => (allEnvironments s).bind fun s => (allEnvironments s').bind fun s' =>
      verticalUpdate e D updater t s t' s')

/-! ## Conversions -/

/-- The positions of the loops `for i … for j …`. -/
def sitePositions (M N : ℕ) : List (ℕ × ℕ) := (List.range M).flatMap fun i => (List.range N).map fun j => (i, j)

/-- conversion.hpp 33-35, 65-67: a site with the environments below and on its right. -/
def siteWithEnvironment (e : NetEnv ν α β) (s : NetState ν α β) (i j : ℕ) : Outcome (Tensor ν NoSymmetry α) :=
  tryMultiples e false (s.site (i, j)) [("D", 'u', s.env true (i, j)), ("R", 'u', s.env false (i, j))]

/-- conversion.hpp 28-41 `SamplingGradientLattice(const SimpleUpdateLattice<T>&, Size)`: the tensors of the
lattice -/
def samplingOfUpdate (e : NetEnv ν α β) (M N : ℕ) (s : NetState ν α β) :
    Outcome (ℕ → ℕ → Tensor ν NoSymmetry α) :=
  (sitePositions M N).foldlM (fun lattice p =>
    (siteWithEnvironment e s p.1 p.2).bind fun t => (normalised e t).bind fun t =>
    .ok fun i j => if i = p.1 ∧ j = p.2 then t else lattice i j) fun i j => s.site (i, j)

/-- conversion.hpp 44 `SimpleUpdateLattice(const SamplingGradientLattice<T>&)` -/
def updateOfSampling (lattice : Pos → Tensor ν NoSymmetry α) : NetState ν α β := ⟨lattice, fun _ _ => none⟩

/-- conversion.hpp 52-55, 68-71: the next site is contracted with the vector. -/
def addSite (e : NetEnv ν α β) (vector t : Tensor ν NoSymmetry α) (i j : ℕ) : Outcome (Tensor ν NoSymmetry α) :=
  (e.join vector (e.rename t [("D", "D" ++ toString j), ("P", "P-" ++ toString (i : ℤ) ++ "-" ++ toString (j : ℤ))])
    [("R", "L"), ("D" ++ toString j, "U")]).bind fun t => normalised e t

/-- conversion.hpp 46-59 `ExactLattice(const SamplingGradientLattice<T>&)` -/
def exactOfSampling (e : NetEnv ν α β) (M N : ℕ) (lattice : ℕ → ℕ → Tensor ν NoSymmetry α) :
    Outcome (Tensor ν NoSymmetry α) :=
  (sitePositions M N).foldlM (fun vector p => addSite e vector (lattice p.1 p.2) p.1 p.2) oneTensor

/-- conversion.hpp 61-76 `ExactLattice(const SimpleUpdateLattice<T>&)` -/
def exactOfUpdate (e : NetEnv ν α β) (M N : ℕ) (s : NetState ν α β) : Outcome (Tensor ν NoSymmetry α) :=
  (sitePositions M N).foldlM (fun vector p =>
    (siteWithEnvironment e s p.1 p.2).bind fun t => addSite e vector t p.1 p.2) oneTensor

/-! ## Amplitudes -/

/-- sampling_gradient_lattice.hpp 65 `owner->lattice[x][y].shrink({{"P", spin}})` -/
def siteAtSpin (e : NetEnv ν α β) (t : Tensor ν NoSymmetry α) (spin : ℕ) : Outcome (Tensor ν NoSymmetry α) :=
  shrink e.ce e.junk e.cn t [(e.nm "P", (0, spin))] none false

end TAT
