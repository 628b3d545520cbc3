import Verif.Square.NetModel
import Verif.Square.NetSum
import Verif.Square.ExactLemmas

/-!
# What a network with environments stands for

The amplitude of a configuration is the sum over all indices of the edges of the product of the elements of all
sites at the given spins, with the singular value of every edge that has an environment as a factor.
-/

namespace TAT

variable {ν α β : Type} [LinearOrder ν]

/-- Indices for the edges of a site. -/
def netIndex (nm : String → ν) (l r u d p : ℕ) (n : ν) : ℕ :=
  if n = nm "L" then l else if n = nm "R" then r else if n = nm "U" then u else if n = nm "D" then d
  else if n = nm "P" then p else 0

/-- A tensor with the edges of a site, of which some of "L", "R", "U", "D" may be missing, and no others. -/
structure SiteEdges (nm : String → ν) (t : Tensor ν NoSymmetry α) (l r u d : Option ℕ) (p : ℕ) : Prop where
  dense : Dense t
  left : leg t (nm "L") = l
  right : leg t (nm "R") = r
  up : leg t (nm "U") = u
  down : leg t (nm "D") = d
  phys : leg t (nm "P") = some p
  only : ∀ n, leg t n ≠ none → n = nm "L" ∨ n = nm "R" ∨ n = nm "U" ∨ n = nm "D" ∨ n = nm "P"

/-- A lattice of `M` rows and `N` columns of sites with a physical edge: `h i j` is the edge on the left of site
`i j`, `v i j` that above.  There are no edges at the border. -/
structure SitesOn (nm : String → ν) (M N d : ℕ) (site : ℕ → ℕ → Tensor ν NoSymmetry α) (h v : ℕ → ℕ → Option ℕ) :
    Prop where
  fits : ∀ i < M, ∀ j < N, SiteEdges nm (site i j) (h i j) (h i (j + 1)) (v i j) (v (i + 1) j) d
  left : ∀ i, h i 0 = none
  right : ∀ i, h i N = none
  top : ∀ j, v 0 j = none
  bottom : ∀ j, v M j = none

/-- The environments are tables for edges of the lattice, with one value for every index. -/
structure EnvironmentsOn (M N : ℕ) (env : Bool → Pos → Option (SingularTable β)) (h v : ℕ → ℕ → Option ℕ) :
    Prop where
  right : ∀ p S, env false p = some S → ∃ i j : ℕ, p = ((i : ℤ), (j : ℤ)) ∧ i < M ∧ j + 1 < N ∧
    ∃ l, S = [(0, l)] ∧ h i (j + 1) = some l.length
  down : ∀ p S, env true p = some S → ∃ i j : ℕ, p = ((i : ℤ), (j : ℤ)) ∧ i + 1 < M ∧ j < N ∧
    ∃ l, S = [(0, l)] ∧ v (i + 1) j = some l.length

/-- The lattice of a simple update. -/
structure NetworkOn (nm : String → ν) (M N d : ℕ) (s : NetState ν α β) (h v : ℕ → ℕ → Option ℕ) : Prop where
  sites : SitesOn nm M N d (fun i j => s.site (i, j)) h v
  envs : EnvironmentsOn M N s.env h v

/-- The spin of a site. -/
def spinAt {M N d : ℕ} (s : SpinConfig M N d) (i j : ℕ) : ℕ :=
  if h : i < M ∧ j < N then (s (⟨i, h.1⟩, ⟨j, h.2⟩)).val else 0

section

variable [CommRing α]

/-- The amplitude of a lattice of tensors. -/
def sitesAmp (nm : String → ν) {M N d : ℕ} (h v : ℕ → ℕ → Option ℕ) (site : ℕ → ℕ → Tensor ν NoSymmetry α)
    (s : SpinConfig M N d) : α :=
  netVal M N (fun i j => (h i j).getD 1) (fun i j => (v i j).getD 1)
    fun i j l r u d => val (site i j) (netIndex nm l r u d (spinAt s i j))

/-- The singular value of an edge at an index, one if there is no environment. -/
def envWeight [Zero β] (c : β → α) (S : Option (SingularTable β)) (k : ℕ) : α :=
  match S with
  | none => 1
  | some S => c (((OMap.find? S 0).getD []).getD k 0)

/-- The amplitude of a lattice with environments. -/
def networkAmp [Zero β] (nm : String → ν) (c : β → α) {M N d : ℕ} (h v : ℕ → ℕ → Option ℕ) (x : NetState ν α β)
    (s : SpinConfig M N d) : α :=
  netVal M N (fun i j => (h i j).getD 1) (fun i j => (v i j).getD 1) fun i j l r u d =>
    val (x.site (i, j)) (netIndex nm l r u d (spinAt s i j)) * envWeight c (x.env false (i, j)) r *
      envWeight c (x.env true (i, j)) d

end

/-! ## Names -/

/-- The names of edges used by the simple update and the conversions. -/
inductive NetLabel
  | left | right | up | below | phys | phys0 | phys1 | in0 | in1 | out0 | out1
  | column (j : ℕ)
  | at (i j : ℕ)
deriving DecidableEq

/-- The string of a label. -/
def NetLabel.string : NetLabel → String
  | .left => "L"
  | .right => "R"
  | .up => "U"
  | .below => "D"
  | .phys => "P"
  | .phys0 => "P0"
  | .phys1 => "P1"
  | .in0 => "I0"
  | .in1 => "I1"
  | .out0 => "O0"
  | .out1 => "O1"
  | .column j => "D" ++ toString j
  | .at i j => "P-" ++ toString (i : ℤ) ++ "-" ++ toString (j : ℤ)

/-- The name of a label. -/
def netName (nm : String → ν) (g : NetLabel) : ν := nm g.string

/-- What is assumed of the external functions, the names and the reals among the scalars. -/
structure NetEnvOk [Field α] [LinearOrder β] [Field β] (e : NetEnv ν α β) : Prop where
  gemm : GemmOk e.ce.gemm
  names : [e.cn.c0, e.cn.c1, e.cn.c2].Nodup
  qr : LapackQrOk e.lp
  svd : GesvdOk e.c e.gesvd
  inj : Function.Injective e.nm
  qn : e.qn.x1 ≠ e.qn.x2
  x1 : ∀ g, e.qn.x1 ≠ netName e.nm g
  x2 : ∀ g, e.qn.x2 ≠ netName e.nm g
  sn : e.sn.u ≠ e.sn.v
  u : ∀ g, e.sn.u ≠ netName e.nm g
  v : ∀ g, e.sn.v ≠ netName e.nm g
  c_zero : ∀ x, e.c x = 0 ↔ x = 0
  c_mul : ∀ x y, e.c (x * y) = e.c x * e.c y
  abs_nonneg : ∀ x, 0 ≤ e.abs x
  abs_zero : ∀ x, e.abs x = 0 ↔ x = 0

end TAT
