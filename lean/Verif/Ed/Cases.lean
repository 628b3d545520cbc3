import Verif.Ed.Props
import Verif.Diag.Cases

/-!
# C89 for small lattices
-/

namespace TAT.Ed

open Diag (diagEnv0 diagEnv0_ok ham0)
open Mps

/-- The numbers of a list. -/
def listed0 (l : List ℚ) (k : ℕ) : ℚ × ℕ := (l.getD k 0, k + 1)

/-- square_heisenberg_ed.cpp 52: the elements of `SS`. -/
def ss0 : Tensor String NoSymmetry ℚ :=
  ⟨["I1", "I2", "O1", "O2"], [plainEdge 2, plainEdge 2, plainEdge 2, plainEdge 2], [([0, 0, 0, 0], ham0)]⟩

def shown0 (r : Outcome (Lattice String ℚ ℚ)) : Option (List String × List ℚ × ℕ × Option ℚ) :=
  match r with
  | .ok l => some (l.state.names, allElems l.state, l.bonds.length, l.energy)
  | _ => none

def energy0 (r : Outcome (Lattice String ℚ ℚ)) : Option ℚ :=
  match r with
  | .ok l => l.energy
  | _ => none

def message0 (r : Outcome (Lattice String ℚ ℚ)) : Option String :=
  match r with
  | .error s => some s
  | _ => none

def run0 (l : List ℚ) (n1 n2 N : ℕ) : Outcome (Lattice String ℚ ℚ) :=
  (squareLattice diagEnv0 (listed0 l) 0 ss0 n1 n2).bind fun lattice => updates diagEnv0 Diag.env0 N lattice

theorem ss0_ok : IsMatrix ss0 "I1" "I2" "O1" "O2" where
  dense := by
    have h := dense_set (ν := String) diagEnv0.junk (listed0 ham0) 0 (names := ["I1", "I2", "O1", "O2"])
      (dims := [2, 2, 2, 2]) (by decide) rfl (by decide)
    obtain ⟨t, t1, t2, -⟩ := h
    have : (mkTensor diagEnv0.junk ["I1", "I2", "O1", "O2"] ([2, 2, 2, 2].map plainEdge)).bind
        (fun t => .ok (setWith (listed0 ham0) 0 t)) = .ok ss0 := by decide +kernel
    rw [t1, Outcome.bind] at this
    rw [← Outcome.ok.inj this]
    exact t2
  names := rfl
  legs := by decide

/-- The operator on two sites has the elements of the list. -/
example : matrixOf ss0 "I1" "I2" "O1" "O2" 0 1 1 0 = 1 / 2 ∧ matrixOf ss0 "I1" "I2" "O1" "O2" 0 1 0 1 = -1 / 4 := by
  decide +kernel

example : squareBonds 2 2 = [((0, 0), (1, 0)), ((0, 1), (1, 1)), ((0, 0), (0, 1)), ((1, 0), (1, 1))] := by decide

/-- One site in a direction, and none. -/
example : squareBonds 1 3 = [((0, 0), (0, 1)), ((0, 1), (0, 2))] ∧ squareBonds 1 1 = [] ∧ squareBonds 0 2 = [] := by
  decide

/-- What is assumed holds for the lattice of two rows and three columns. -/
example : ∃ lat, ∃ bs : List (((Fin 2 × Fin 3) × (Fin 2 × Fin 3)) × Matrix4 ℚ),
    squareLattice diagEnv0 (listed0 []) 0 ss0 2 3 = .ok lat ∧ IsLattice diagEnv0.nm (squareNode 2 3) lat bs := by
  obtain ⟨lat, ls, h1, -, -, h2, -⟩ := C89_square (e := diagEnv0) (fun _ _ h => h) (listed0 []) 0 ss0_ok 2 3
  exact ⟨lat, _, h1, h2⟩

/-- The energy has no value before the first update. -/
example : shown0 (run0 [1, 2, 3, 5] 1 2 0) = some (["0.0", "0.1"], [1, 2, 3, 5], 1, none) := by decide +kernel

/-- `(1 - H) ψ` divided by 5. -/
example : shown0 (run0 [1, 2, 3, 5] 2 1 1) = some (["0.0", "1.0"], [3/20, 1/5, 11/20, 3/4], 1, some (-4)) := by
  decide +kernel

example : shown0 (run0 [1, 2, 3, 5] 2 1 2) = some (["0.0", "1.0"], [3/20, -1/30, 47/60, 3/4], 1, some (1/4)) := by
  decide +kernel

example : shown0 (run0 [1, 2, 3, 4, 5, 6, 7, 9] 3 1 1) =
    some (["0.0", "1.0", "2.0"], [1/18, 1/18, 1/9, 1/9, 7/18, 7/18, 4/9, 1/2], 2, some (-8)) := by decide +kernel

/-- The eigenvector of two sites with the smallest eigenvalue, and one with the other eigenvalue. -/
example : energy0 (run0 [0, 1, -1, 0] 1 2 2) = some (-3/4) ∧ energy0 (run0 [1, 0, 0, 0] 1 2 2) = some (1/4) := by
  decide +kernel

/-- Zero is sent to an error. -/
example : message0 (run0 [0, 0, 0, 0] 1 2 1) = some "division by zero" := by decide +kernel

/-- All values the same on two rows and two columns: the eigenvalue is one, `1 - H` gives zero, and the next update
divides by zero. -/
example : message0 (run0 [1] 2 2 2) = some "division by zero" ∧ shown0 (run0 [1] 2 2 1) =
    some (["0.0", "0.1", "1.0", "1.1"], List.replicate 16 0, 4, some 0) := by decide +kernel

/-- **C89**: with `a = 0` the energy of an eigenvector with a positive eigenvalue has the wrong sign: for the value 1/4
it is -1/4. -/
theorem C89_sign :
    energy0 ((newLattice diagEnv0 (listed0 [1, 0, 0, 0]) 0 (nodeNames 1 2) 0).bind fun lattice =>
      updates diagEnv0 Diag.env0 2 (setBond diagEnv0 lattice "0.0" "0.1" ss0)) = some (-1/4) ∧
    energy0 ((newLattice diagEnv0 (listed0 [1, 0, 0, 0]) 0 (nodeNames 1 2) 1).bind fun lattice =>
      updates diagEnv0 Diag.env0 2 (setBond diagEnv0 lattice "0.0" "0.1" ss0)) = some (1/4) := by decide +kernel

end TAT.Ed
