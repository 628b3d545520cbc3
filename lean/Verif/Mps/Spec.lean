import Verif.Square.Dense
import Mathlib.Algebra.BigOperators.Fin

/-!
# What a chain of tensors stands for

A chain stands for a function of the configurations of its sites, the amplitude: the product of the
matrices which its tensors have at the values of the sites.  Nothing here is about contraction or about
the order of the calculation.
-/

namespace TAT.Mps

/-- One site: the dimension of the bond on its right and its elements, by the value of the site and the
indices of the bonds on its left and on its right. -/
abbrev MpsSite (α : Type) := ℕ × (ℕ → ℕ → ℕ → α)

/-- The product of the matrices at the values of the sites, with the index of the bond on the left
given. -/
def psi {α : Type} [CommSemiring α] : List (MpsSite α) → ℕ → List ℕ → α
  | [], _, _ => 1
  | (m, a) :: q, l, s => ∑ r ∈ Finset.range m, a (s.headD 0) l r * psi q r s.tail

/-- The sum over all configurations of `n` sites with `d` values. -/
def sumSites {α : Type} [CommSemiring α] (d : ℕ) : ℕ → (List ℕ → α) → α
  | 0, f => f []
  | n + 1, f => ∑ s ∈ Finset.range d, sumSites d n fun ss => f (s :: ss)

/-- The square of the norm, with the indices of the bonds on the left given. -/
def overlap {α : Type} [CommSemiring α] (d : ℕ) (p : List (MpsSite α)) (l1 l2 : ℕ) : α :=
  sumSites d p.length fun s => psi p l1 s * psi p l2 s

/-- The expectation value, without the norm, of an operator at the sites `i` and `i + 1`. -/
def bondSum {α : Type} [CommSemiring α] (d : ℕ) (h : ℕ → ℕ → ℕ → ℕ → α) (i : ℕ) (p : List (MpsSite α))
    (l1 l2 : ℕ) : α :=
  sumSites d p.length fun s => ∑ a ∈ Finset.range d, ∑ b ∈ Finset.range d,
    psi p l1 s * h (s.getD i 0) (s.getD (i + 1) 0) a b * psi p l2 ((s.set i a).set (i + 1) b)

variable {ν α : Type} [LinearOrder ν]

/-- The elements of a tensor by the indices of its edges `Phy`, `Left` and `Right`; an edge which does
not exist is not looked at. -/
def siteVal [Zero α] (nm : String → ν) (t : Tensor ν NoSymmetry α) (s l r : ℕ) : α :=
  val t fun n => if n = nm "Phy" then s else if n = nm "Left" then l else if n = nm "Right" then r else 0

def mpsSites [Zero α] (nm : String → ν) (chain : List (Tensor ν NoSymmetry α)) : List (MpsSite α) :=
  chain.map fun t => (legDim t (nm "Right"), siteVal nm t)

/-- A tensor with the edge `Phy` and the edges `Left` and `Right` where there are bonds. -/
structure IsSite (nm : String → ν) (d : ℕ) (b b' : Option ℕ) (t : Tensor ν NoSymmetry α) : Prop where
  dense : Dense t
  legs : ∀ n, leg t n = if n = nm "Phy" then some d else if n = nm "Left" then b else
    if n = nm "Right" then b' else none

/-- Tensors one after the other, with equal dimensions on both sides of a bond and with nothing on the
right of the last one. -/
def IsChain (nm : String → ν) (d : ℕ) : Option ℕ → List (Tensor ν NoSymmetry α) → Prop
  | b, [] => b = none
  | b, t :: ts => ∃ b', IsSite nm d b b' t ∧ IsChain nm d b' ts

/-- An operator at two sites. -/
structure IsOperator (nm : String → ν) (d : ℕ) (t : Tensor ν NoSymmetry α) : Prop where
  dense : Dense t
  legs : ∀ n, leg t n = if n ∈ [nm "I0", nm "I1", nm "O0", nm "O1"] then some d else none

def operatorVal [Zero α] (nm : String → ν) (t : Tensor ν NoSymmetry α) (x y a b : ℕ) : α :=
  val t fun n => if n = nm "I0" then x else if n = nm "I1" then y else if n = nm "O0" then a else
    if n = nm "O1" then b else 0

end TAT.Mps
