import Verif.Mps.UpdateSpec
import Verif.Square.NetSpec

/-!
# What `examples/diag.cpp` should do

A state is a function of the configurations of `n` sites with two values each.
-/

namespace TAT.Diag

/-- The values of `n` sites. -/
abbrev Spins (n : ℕ) := Fin n → Fin 2

/-- A pair of sites. -/
abbrev Link (n : ℕ) := Fin n × Fin n

/-- An operator applied to two sites.  The first two indices of the operator are summed over. -/
def applyTo {α : Type} [CommSemiring α] {n : ℕ} (h : ℕ → ℕ → ℕ → ℕ → α) (ψ : Spins n → α) (l : Link n)
    (s : Spins n) : α :=
  ∑ a : Fin 2, ∑ b : Fin 2, ψ (Function.update (Function.update s l.1 a) l.2 b) * h a b (s l.1) (s l.2)

/-- An operator applied to all links, one after the other. -/
def applyAll {α : Type} [CommSemiring α] {n : ℕ} (h : ℕ → ℕ → ℕ → ℕ → α) (ls : List (Link n)) (ψ : Spins n → α) :
    Spins n → α :=
  ls.foldl (applyTo h) ψ

/-- The sum of an operator over all links. -/
def sumOver {α : Type} [CommSemiring α] {n : ℕ} (h : ℕ → ℕ → ℕ → ℕ → α) (ls : List (Link n)) (ψ : Spins n → α)
    (s : Spins n) : α :=
  (ls.map fun l => applyTo h ψ l s).sum

/-- The product of two states. -/
def product {α : Type} [CommSemiring α] {n : ℕ} (φ ψ : Spins n → α) : α := ∑ s, φ s * ψ s

/-- The operator which a list of sixteen numbers stands for. -/
def listed {α : Type} [Zero α] (h : List α) (x y a b : ℕ) : α := h.getD (8 * x + 4 * y + 2 * a + b) 0

/-- The links as the program has them. -/
def codeLinks {n : ℕ} (ls : List (Link n)) : List (ℕ × ℕ) := ls.map fun l => (l.1.val, l.2.val)

variable {ν α β : Type} [LinearOrder ν]

/-- The indices of a tensor at a configuration. -/
def spinsAt {n : ℕ} (nm : String → ν) (s : Spins n) (m : ν) : ℕ :=
  match (List.finRange n).find? fun k => decide (nm (toString k.val) = m) with
  | some k => (s k).val
  | none => 0

/-- The amplitude of a configuration. -/
def ampOf [Zero α] {n : ℕ} (nm : String → ν) (t : Tensor ν NoSymmetry α) (s : Spins n) : α := val t (spinsAt nm s)

/-- A tensor with an edge of dimension two for each of `n` sites, and no others. -/
structure IsState (nm : String → ν) (n : ℕ) (t : Tensor ν NoSymmetry α) : Prop where
  dense : Dense t
  site : ∀ k : Fin n, leg t (nm (toString k.val)) = some 2
  only : ∀ m, leg t m ≠ none → ∃ k : Fin n, m = nm (toString k.val)

/-- What is assumed of BLAS, of the names and of the modulus. -/
structure DiagEnvOk [Field α] [LinearOrder β] [Field β] (e : NetEnv ν α β) : Prop where
  gemm : GemmOk e.ce.gemm
  names : [e.cn.c0, e.cn.c1, e.cn.c2].Nodup
  inj : Function.Injective e.nm
  abs_nonneg : ∀ x, 0 ≤ e.abs x
  abs_zero : ∀ x, e.abs x = 0 ↔ x = 0
  abs_mul : ∀ x y, e.abs (x * y) = e.abs x * e.abs y
  abs_c : ∀ r, 0 ≤ r → e.abs (e.c r) = r

end TAT.Diag
