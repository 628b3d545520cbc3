import Verif.Mps.Props
import Verif.Square.NetExample

/-!
# C84 for chains of up to three sites
-/

namespace TAT

open Mps

def mpsEnv0 : AuxEnv String ℚ ℚ :=
  auxEnv0 ⟨fun _ _ _ => none, fun _ _ _ _ _ => none, fun _ _ _ => none, fun _ _ _ _ _ => none⟩

def mpsChain0 : List (Tensor String NoSymmetry ℚ) :=
  [cube ["Right", "Phy"] [1, 2, 0, 1], cube ["Left", "Phy", "Right"] [1, 0, 0, 1, 2, 1, 0, 3],
    cube ["Phy", "Left"] [1, 1, 0, 2]]

/-- The same state with another basis of the second bond, multiplied by three. -/
def mpsChain1 : List (Tensor String NoSymmetry ℚ) :=
  [cube ["Right", "Phy"] [1, 2, 0, 1], cube ["Left", "Phy", "Right"] [1, 1, 0, 1, 2, 3, 0, 3],
    cube ["Phy", "Left"] [0, 3, -6, 6]]

/-- mps.cpp 167: the Hamiltonian in `main`. -/
def mpsHamiltonian0 : Tensor String NoSymmetry ℚ :=
  cube ["I0", "I1", "O0", "O1"] [1/4, 0, 0, 0, 0, -1/4, 2/4, 0, 0, 2/4, -1/4, 0, 0, 0, 0, 1/4]

/-- A Hamiltonian which distinguishes its two sites and the two sides. -/
def mpsHamiltonian1 : Tensor String NoSymmetry ℚ :=
  cube ["I0", "I1", "O0", "O1"] [1, 2, 0, 3, 5, 0, 1, 0, 0, 0, 2, 7, 0, 1, 1, 4]

def mpsIdentity0 : Tensor String NoSymmetry ℚ :=
  cube ["I0", "I1", "O0", "O1"] [6, 0, 0, 0, 0, 6, 0, 0, 0, 0, 6, 0, 0, 0, 0, 6]

theorem mpsEnv0_ok : MpsEnvOk mpsEnv0 :=
  ⟨refGemm_ok, by decide, fun _ _ h => h⟩

theorem cube_isSite {names : List String} (hn : names.Nodup) {d : List ℚ} (hd : d.length = 2 ^ names.length)
    {b b' : Option ℕ} (hm : ∀ m, (if m ∈ names then some 2 else none) = if m = "Phy" then some 2 else
      if m = "Left" then b else if m = "Right" then b' else none) : IsSite (ν := String) id 2 b b' (cube names d) := by
  obtain ⟨h1, h2⟩ := cube_edges hn hd
  exact ⟨h1, fun m => (h2 m).trans (hm m)⟩

theorem cube_isOperator {d : List ℚ} (hd : d.length = 16) :
    IsOperator (ν := String) id 2 (cube ["I0", "I1", "O0", "O1"] d) := by
  obtain ⟨h1, h2⟩ := cube_edges (names := ["I0", "I1", "O0", "O1"]) (by decide) hd
  exact ⟨h1, h2⟩

theorem chain3_ok {x y z : List ℚ} (hx : x.length = 4) (hy : y.length = 8) (hz : z.length = 4) :
    IsChain (ν := String) id 2 none [cube ["Right", "Phy"] x, cube ["Left", "Phy", "Right"] y,
      cube ["Phy", "Left"] z] := by
  refine ⟨some 2, cube_isSite (by decide) hx fun m => ?_, some 2, cube_isSite (by decide) hy fun m => ?_,
    none, cube_isSite (by decide) hz fun m => ?_, rfl⟩
  all_goals
    by_cases h1 : m = "Phy"
    · simp [h1]
    by_cases h2 : m = "Left"
    · simp [h2]
    by_cases h3 : m = "Right"
    · simp [h3]
    simp [h1, h2, h3]

/-- The hypotheses of `C84_energy` and `C84_norm`, and what is calculated: the bonds differ. -/
example : MpsEnvOk mpsEnv0 ∧ IsChain mpsEnv0.nm 2 none mpsChain0 ∧ mpsChain0 ≠ [] ∧
    IsOperator mpsEnv0.nm 2 mpsHamiltonian1 ∧
    overlap 2 (mpsSites id mpsChain0) 0 0 = 160 ∧
    bondSum 2 (operatorVal id mpsHamiltonian1) 0 (mpsSites id mpsChain0) 0 0 = 975 ∧
    bondSum 2 (operatorVal id mpsHamiltonian1) 1 (mpsSites id mpsChain0) 0 0 = 1166 ∧
    mpsEnergy mpsEnv0 mpsChain0 mpsHamiltonian1 = .ok (2141 / 480) :=
  ⟨mpsEnv0_ok, chain3_ok rfl rfl rfl, by simp [mpsChain0], cube_isOperator rfl, by decide +kernel,
    by decide +kernel, by decide +kernel, by decide +kernel⟩

/-- The Hamiltonian of the program. -/
example : IsOperator mpsEnv0.nm 2 mpsHamiltonian0 ∧
    mpsEnergy mpsEnv0 mpsChain0 mpsHamiltonian0 = .ok (67 / 480) :=
  ⟨cube_isOperator rfl, by decide +kernel⟩

/-- A configuration of three sites. -/
theorem three_sites {P : List ℕ → Prop} (h : ∀ a < 2, ∀ b < 2, ∀ c < 2, P [a, b, c]) (s : List ℕ)
    (hs : s.length = 3) (hd : ∀ x ∈ s, x < 2) : P s := by
  obtain ⟨a, b, c, rfl⟩ := List.length_eq_three.1 hs
  exact h a (hd a (by simp)) b (hd b (by simp)) c (hd c (by simp))

/-- The hypotheses of `C84_same_state`; the tensors differ. -/
example : IsChain mpsEnv0.nm 2 none mpsChain1 ∧ mpsChain0.length = mpsChain1.length ∧
    (∀ s : List ℕ, s.length = mpsChain0.length → (∀ x ∈ s, x < 2) →
      psi (mpsSites mpsEnv0.nm mpsChain1) 0 s = 3 * psi (mpsSites mpsEnv0.nm mpsChain0) 0 s) ∧
    psi (mpsSites mpsEnv0.nm mpsChain0) 0 [1, 1, 0] = 5 ∧
    mpsEnergy mpsEnv0 mpsChain1 mpsHamiltonian1 = .ok (2141 / 480) :=
  ⟨chain3_ok rfl rfl rfl, rfl, three_sites (by decide +kernel), by decide +kernel, by decide +kernel⟩

/-- The hypotheses of `C84_multiple`. -/
example : IsOperator mpsEnv0.nm 2 mpsIdentity0 ∧ (∀ x < 2, ∀ y < 2, ∀ a < 2, ∀ b < 2,
      operatorVal mpsEnv0.nm mpsIdentity0 x y a b = if x = a ∧ y = b then 6 else 0) ∧
    mpsEnergy mpsEnv0 mpsChain0 mpsIdentity0 = .ok 4 :=
  ⟨cube_isOperator rfl, by decide +kernel, by decide +kernel⟩

/-- The constructor, with the numbers 1, 2, ... as elements. -/
example : (mpsNew mpsEnv0 (fun k => (k, k + 1)) 1 3 2).bind (fun c => mpsEnergy mpsEnv0 c mpsHamiltonian1) =
    .ok (9566133 / 1948477) := by decide +kernel

/-- `IsChain` is needed: the constructor gives a single site an edge on its right, and `energy` throws. -/
example : (match (mpsNew mpsEnv0 (fun k => (k, k + 1)) 1 1 2).bind fun c => mpsEnergy mpsEnv0 c mpsHamiltonian1
    with | .error _ => true | _ => false) = true := by decide +kernel

/-- A chain without a site, and a state which is zero. -/
example : mpsEnergy mpsEnv0 [] mpsHamiltonian1 = .ub ∧ mpsEnergy mpsEnv0
    [cube ["Right", "Phy"] [1, 2, 0, 0], cube ["Left", "Phy"] [0, 0, 1, 1]] mpsHamiltonian1 =
      .error "the norm is zero" := by decide +kernel

end TAT
