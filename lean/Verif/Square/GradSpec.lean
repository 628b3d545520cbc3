import Verif.Square.NetSpec
import Verif.Square.GradModel
import Verif.Square.ErgodicLemmas
import Verif.Square.AuxProps

/-!
# What is claimed of the statistics and the gradient
-/

namespace TAT

variable {ν α R : Type} [LinearOrder ν]

/-- The scalars: `conj` is a homomorphism and its own inverse, the identity for real scalars. -/
structure GradLaws [Field α] [Field R] (ops : GradOps α R) (conj : α →+* α) : Prop where
  scalar : ScalarLaws ops.toScalarOps conj
  conj_eq : ∀ x, ops.conj x = conj x
  conj_conj : ∀ x, conj (conj x) = x
  real : ops.isReal = true → ∀ x, conj x = x

/-- An observable: its matrix elements, and the table, the positions and the sites of the term. -/
structure Observable (M N : ℕ) (α : Type) where
  value : List ℕ → α
  table : ElementTable α
  positions : List Pos
  sites : List (LatticeSite M N)

/-- The table has been made by `_find_element`, the positions are in the lattice and different from each other. -/
structure ObservableOk [Zero α] [DecidableEq α] {M N : ℕ} (d : ℕ) (o : Observable M N α) : Prop where
  table : findElement d o.positions.length o.value = .ok o.table
  sites : sitesAt M N o.positions = .ok o.sites
  nodup : o.sites.Nodup

/-- The local value of an observable `O` in a configuration `c`: `⟨c|O|ψ⟩ / ⟨c|ψ⟩`, where `⟨c|ψ⟩ = w c`. -/
def localValue [Field α] {M N d : ℕ} (w : SpinConfig M N d → α) (o : Observable M N α) (c : SpinConfig M N d) : α :=
  ∑ c' : SpinConfig M N d,
    if ∀ x, x ∉ o.sites → c x = c' x then
      o.value ((o.sites.map fun x => (c x).val) ++ o.sites.map fun x => (c' x).val) * w c' / w c
    else 0

/-- `⟨a|b⟩` for two tensors with the edges of a site. -/
def siteInner [CommRing α] (conj : α → α) (nm : String → ν) (h v : ℕ → ℕ → Option ℕ) (d : ℕ) {M N : ℕ}
    (x : LatticeSite M N) (a b : Tensor ν NoSymmetry α) : α :=
  ∑ l ∈ Finset.range ((h x.1 x.2).getD 1), ∑ r ∈ Finset.range ((h x.1 (x.2 + 1)).getD 1),
    ∑ u ∈ Finset.range ((v x.1 x.2).getD 1), ∑ b' ∈ Finset.range ((v (x.1 + 1) x.2).getD 1),
      ∑ p ∈ Finset.range d, conj (val a (netIndex nm l r u b' p)) * val b (netIndex nm l r u b' p)

/-- A tensor with the edges of the site. -/
def EdgesAt (nm : String → ν) (h v : ℕ → ℕ → Option ℕ) (d : ℕ) {M N : ℕ} (x : LatticeSite M N)
    (t : Tensor ν NoSymmetry α) : Prop :=
  SiteEdges nm t (h x.1 x.2) (h x.1 (x.2 + 1)) (v x.1 x.2) (v (x.1 + 1) x.2) d

/-- The configurations after every step, where step `k` uses the random numbers `random k`. -/
def Visits [Field α] [DecidableEq α] [Field R] [LinearOrder R] (ops : ScalarOps α R) {M N d : ℕ}
    (w : SpinConfig M N d → α) (hop : List (ElementTable α × List Pos)) (random : ℕ → ℕ → ℕ × R) :
    SpinConfig M N d → ℕ → List (SpinConfig M N d) → Prop
  | _, _, [] => True
  | c, k, c' :: cs =>
    markovSweep ops w hop (c, w c) (random k) = .ok (c', w c') ∧ Visits ops w hop random c' (k + 1) cs

/-- The mean of a function over a list of configurations. -/
def meanOver {A K : Type} [Field K] (cs : List A) (f : A → K) : K := (cs.map f).sum / (cs.length : K)

end TAT
