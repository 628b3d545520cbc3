import Verif.Ed.Model
import Verif.Diag.Spec
import Mathlib.Logic.Function.Basic
import Mathlib.Logic.Function.Iterate
import Mathlib.Data.Fintype.Prod

/-!
# What `examples/square_heisenberg_ed.cpp` should do

A state is a function of the configurations of a set of sites with two values each.
-/

namespace TAT.Ed

/-- The values of the sites. -/
abbrev Spins (P : Type) := P → Fin 2

/-- An operator on two sites: the two values before and the two after. -/
abbrev Matrix4 (α : Type) := ℕ → ℕ → ℕ → ℕ → α

/-- An operator applied to two sites. -/
def applyTo {P α : Type} [DecidableEq P] [CommSemiring α] (h : Matrix4 α) (ψ : Spins P → α) (l : P × P)
    (s : Spins P) : α :=
  ∑ a : Fin 2, ∑ b : Fin 2, ψ (Function.update (Function.update s l.1 a) l.2 b) * h a b (s l.1) (s l.2)

/-- A Hamiltonian is a sum of operators on two sites. -/
def hamiltonian {P α : Type} [DecidableEq P] [CommSemiring α] (bs : List ((P × P) × Matrix4 α)) (ψ : Spins P → α)
    (s : Spins P) : α :=
  (bs.map fun b => applyTo b.2 ψ b.1 s).sum

/-- `a - H` -/
def shifted {P α : Type} [DecidableEq P] [CommRing α] (a : α) (bs : List ((P × P) × Matrix4 α)) (ψ : Spins P → α)
    (s : Spins P) : α :=
  a * ψ s - hamiltonian bs ψ s

/-- Two sites of a lattice, the second one below or on the right of the first one. -/
def Neighbours {n1 n2 : ℕ} (p q : Fin n1 × Fin n2) : Prop :=
  (q.1.val = p.1.val + 1 ∧ q.2 = p.2) ∨ (q.1 = p.1 ∧ q.2.val = p.2.val + 1)

instance {n1 n2 : ℕ} (p q : Fin n1 × Fin n2) : Decidable (Neighbours p q) := by
  unfold Neighbours
  infer_instance

variable {ν α β P : Type} [LinearOrder ν]

/-- The names of sites are different, also with an underscore, and from those of the operator. -/
structure NodesOk (node : P → String) : Prop where
  inj : Function.Injective node
  prime : ∀ p q, node p ≠ "_" ++ node q
  op : ∀ p, node p ∉ ["I1", "I2", "O1", "O2"]

/-- The indices of a tensor at a configuration. -/
noncomputable def spinsAt (nm : String → ν) (node : P → String) (s : Spins P) : ν → ℕ :=
  Function.extend (fun p => nm (node p)) (fun p => (s p).val) fun _ => 0

/-- The amplitude of a configuration. -/
noncomputable def ampOf [Zero α] (nm : String → ν) (node : P → String) (t : Tensor ν NoSymmetry α) (s : Spins P) : α :=
  val t (spinsAt nm node s)

/-- A tensor with an edge of dimension two for each site, and no others. -/
structure IsState (nm : String → ν) (node : P → String) (t : Tensor ν NoSymmetry α) : Prop where
  dense : Dense t
  site : ∀ p, leg t (nm (node p)) = some 2
  only : ∀ m, leg t m ≠ none → ∃ p, m = nm (node p)

/-- A tensor for an operator on two sites: edges of dimension two with these names in this order. -/
structure IsMatrix (t : Tensor ν NoSymmetry α) (n0 n1 n2 n3 : ν) : Prop where
  dense : Dense t
  names : t.names = [n0, n1, n2, n3]
  legs : ∀ m ∈ [n0, n1, n2, n3], leg t m = some 2

/-- The elements of such a tensor. -/
def matrixOf [Zero α] (t : Tensor ν NoSymmetry α) (n0 n1 n2 n3 : ν) : Matrix4 α := fun x y a b =>
  val t fun n => if n = n0 then x else if n = n1 then y else if n = n2 then a else if n = n3 then b else 0

/-- A tensor for an operator on two given sites. -/
def IsBond [Zero α] (nm : String → ν) (node : P → String) (t : Tensor ν NoSymmetry α) (b : (P × P) × Matrix4 α) : Prop :=
  b.1.1 ≠ b.1.2 ∧
  IsMatrix t (nm (node b.1.1)) (nm (node b.1.2)) (nm ("_" ++ node b.1.1)) (nm ("_" ++ node b.1.2)) ∧
  ∀ x y a c, matrixOf t (nm (node b.1.1)) (nm (node b.1.2)) (nm ("_" ++ node b.1.1)) (nm ("_" ++ node b.1.2)) x y a c =
    b.2 x y a c

/-- A lattice with the Hamiltonian `bs`. -/
structure IsLattice [Zero α] (nm : String → ν) (node : P → String) (lat : Lattice ν α β)
    (bs : List ((P × P) × Matrix4 α)) : Prop where
  state : IsState nm node lat.state
  bonds : List.Forall₂ (IsBond nm node) lat.bonds bs

/-- The name of a site of the square lattice. -/
def squareNode (n1 n2 : ℕ) (p : Fin n1 × Fin n2) : String := nodeName (p.1.val, p.2.val)

end TAT.Ed
