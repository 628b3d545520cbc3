import Verif.Mps.UpdateProps
import Verif.Mps.Cases

/-!
# C85 for chains of two and three sites
-/

namespace TAT

open Mps

theorem netEnv0_mps {lp : LapackQr ℚ} (hlp : LapackQrOk lp) : MpsNetOk (netEnv0 lp) where
  net := netEnv0_ok hlp
  u := fun g h => by
    have h : ",SVD_U" = g.text := h
    cases g <;> exact absurd h (by decide)
  v := fun g h => by
    have h : ",SVD_V" = g.text := h
    cases g <;> exact absurd h (by decide)

def twoChain0 : List (Tensor String NoSymmetry ℚ) :=
  [cube ["Right", "Phy"] [1, 0, 0, 0], cube ["Left", "Phy"] [1, 0, 0, 0]]

/-- An operator which sends 00 to 01, 01 to 00 and 10 to 11. -/
def twoOperator0 : Tensor String NoSymmetry ℚ :=
  cube ["I0", "I1", "O0", "O1"] [0, 1, 0, 0, 1, 0, 0, 0, 0, 0, 0, 1, 0, 0, 0, 0]

theorem twoChain0_ok : IsChain (ν := String) id 2 none twoChain0 := by
  refine ⟨some 2, cube_isSite (by decide) rfl fun m => ?_, none, cube_isSite (by decide) rfl fun m => ?_, rfl⟩
  all_goals
    by_cases h1 : m = "Phy"
    · simp [h1]
    by_cases h2 : m = "Left"
    · simp [h2]
    by_cases h3 : m = "Right"
    · simp [h3]
    simp [h1, h2, h3]

/-- **C85**: the operator which is applied in the sweep to the left is not the one which is applied in the
sweep to the right and which `energy` measures. -/
theorem C85_exchanged : ∃ lp : LapackQr ℚ, MpsNetOk (netEnv0 lp) ∧ IsChain (netEnv0 lp).nm 2 none twoChain0 ∧
    IsOperator (netEnv0 lp).nm 2 twoOperator0 ∧
    ∃ chain, mpsUpdateOnce (netEnv0 lp) 4 twoOperator0 twoChain0 = .ok chain ∧
      ¬ SameState 2 2 (psi (mpsSites (netEnv0 lp).nm chain) 0)
        (sweeps 2 2 (operatorVal (netEnv0 lp).nm twoOperator0) (operatorVal (netEnv0 lp).nm twoOperator0)
          (psi (mpsSites (netEnv0 lp).nm twoChain0) 0)) := by
  obtain ⟨lp, hlp⟩ := exists_lapackQrOk (K := ℚ)
  refine ⟨lp, netEnv0_mps hlp, twoChain0_ok, cube_isOperator rfl, ?_⟩
  have t1 : sweeps 2 2 (operatorVal (ν := String) id twoOperator0) (exchanged (operatorVal id twoOperator0))
    (psi (mpsSites id twoChain0) 0) [1, 1] = 1 := by decide +kernel
  have t2 : sweeps 2 2 (operatorVal (ν := String) id twoOperator0) (operatorVal id twoOperator0)
    (psi (mpsSites id twoChain0) 0) [1, 1] = 0 := by decide +kernel
  rcases C85_update_once (netEnv0_mps hlp) (D := 4) (op := twoOperator0) (chain := twoChain0)
    (cube_isOperator rfl) twoChain0_ok (by simp [twoChain0]) (Or.inl (by decide)) with
    ⟨z, -⟩ | ⟨chain, o1, -, -, c, c0, hc⟩
  · exact absurd (t1.symm.trans (z [1, 1] rfl (by decide))) (by decide)
  · refine ⟨chain, o1, ?_⟩
    rintro ⟨b, -, hb⟩
    have k1 := hc [1, 1] rfl (by decide)
    have k2 := hb [1, 1] rfl (by decide)
    rw [k2] at k1
    have k3 : b * 0 = c * 1 := by
      have := k1
      rwa [show sweeps twoChain0.length 2 (operatorVal (netEnv0 lp).nm twoOperator0)
        (exchanged (operatorVal (netEnv0 lp).nm twoOperator0)) (psi (mpsSites (netEnv0 lp).nm twoChain0) 0) [1, 1] = 1
        from t1, show sweeps 2 2 (operatorVal (netEnv0 lp).nm twoOperator0)
        (operatorVal (netEnv0 lp).nm twoOperator0) (psi (mpsSites (netEnv0 lp).nm twoChain0) 0) [1, 1] = 0
        from t2] at this
    simp only [mul_zero, mul_one] at k3
    exact c0 k3.symm

/-- The operations with nothing for the calls of LAPACK which updates do not use. -/
def mpsNet0 : NetEnv String ℚ ℚ :=
  netEnv0 ⟨fun _ _ _ => none, fun _ _ _ _ _ => none, fun _ _ _ => none, fun _ _ _ _ _ => none⟩

/-- Another chain of two sites. -/
def twoChain1 : List (Tensor String NoSymmetry ℚ) :=
  [cube ["Right", "Phy"] [1, 2, 0, 1], cube ["Left", "Phy"] [1, 3, 2, 0]]

def spins2 : List (List ℕ) := [[0, 0], [0, 1], [1, 0], [1, 1]]

theorem twoChain1_ok : IsChain (ν := String) id 2 none twoChain1 := by
  refine ⟨some 2, cube_isSite (by decide) rfl fun m => ?_, none, cube_isSite (by decide) rfl fun m => ?_, rfl⟩
  all_goals
    by_cases h1 : m = "Phy"
    · simp [h1]
    by_cases h2 : m = "Left"
    · simp [h2]
    by_cases h3 : m = "Right"
    · simp [h3]
    simp [h1, h2, h3]

/-- The hypotheses of `C85_update_once`, and the amplitudes after the update of a chain by an operator
which distinguishes its sites and its sides. -/
example : (∃ lp, MpsNetOk (netEnv0 lp)) ∧ IsOperator mpsNet0.nm 2 mpsHamiltonian1 ∧
    IsChain mpsNet0.nm 2 none twoChain1 ∧ twoChain1 ≠ [] ∧ Keeps (2 ^ (twoChain1.length - 1)) 2 ∧
    (spins2.map (sweeps 2 2 (operatorVal id mpsHamiltonian1) (exchanged (operatorVal id mpsHamiltonian1))
      (psi (mpsSites id twoChain1) 0)) = [101, 88, 87, 324]) ∧
    (mpsUpdateOnce mpsNet0 2 mpsHamiltonian1 twoChain1).bind
      (fun c => .ok (spins2.map (psi (mpsSites id c) 0))) =
      .ok ([101, 88, 87, 324].map fun x => 1 / 648 * x) := by
  obtain ⟨lp, hlp⟩ := exists_lapackQrOk (K := ℚ)
  exact ⟨⟨lp, netEnv0_mps hlp⟩, cube_isOperator rfl, twoChain1_ok, by simp [twoChain1],
    Or.inl (by decide), by decide +kernel, by decide +kernel⟩

/-- The hypotheses for three sites. -/
example : IsOperator mpsNet0.nm 2 mpsHamiltonian1 ∧ IsChain mpsNet0.nm 2 none mpsChain0 ∧ mpsChain0 ≠ [] ∧
    Keeps (2 ^ (mpsChain0.length - 1)) 4 :=
  ⟨cube_isOperator rfl, chain3_ok rfl rfl rfl, by simp [mpsChain0], Or.inl (by decide)⟩

/-- The Hamiltonian of the program is not changed by the exchange of its sites. -/
example : ∀ x < 2, ∀ y < 2, ∀ a < 2, ∀ b < 2,
    operatorVal (ν := String) id mpsHamiltonian0 x y a b = operatorVal id mpsHamiltonian0 y x b a := by
  decide +kernel

/-- The operator zero: the first tensor to be divided is zero. -/
example : mpsUpdateOnce mpsNet0 4
    (cube ["I0", "I1", "O0", "O1"] [0, 0, 0, 0, 0, 0, 0, 0, 0, 0, 0, 0, 0, 0, 0, 0]) twoChain1 =
      .error "division by zero" := by decide +kernel

/-- The hypothesis on the dimension is needed: with one singular value the state is another one.
This is also a case of `C85_cut`. -/
example : (mpsUpdateOnce mpsNet0 1 mpsHamiltonian1 twoChain1).bind
    (fun c => .ok (spins2.map (psi (mpsSites id c) 0), c.map fun t => (legDim t "Left", legDim t "Right"))) =
      .ok ([1, 17 / 101, 0, 0], [(1, 1), (1, 1)]) := by decide +kernel

/-- The Hamiltonian of the program. -/
def mpsData0 : List ℚ := [1/4, 0, 0, 0, 0, -1/4, 2/4, 0, 0, 2/4, -1/4, 0, 0, 0, 0, 1/4]

/-- The hypotheses of `C85_updater`, `C85_second` and `C85_run`, and a step of `update`. -/
example : mpsData0.length = 16 ∧ mpsHamiltonian mpsNet0.toAuxEnv mpsData0 0 = .ok mpsHamiltonian0 ∧
    mpsHamiltonian mpsNet0.toAuxEnv mpsData0 16 = .ub ∧
    spins2.map ((sweeps 2 2 (updaterOf 2 mpsData0) (exchanged (updaterOf 2 mpsData0)))^[1]
      (psi (mpsSites id twoChain1) 0)) = [1 / 4, -9 / 4, 4, 3 / 2] := by decide +kernel

example : (mpsUpdate mpsNet0 ⟨⟨8, 32768, 1, 1⟩, fun _ _ => 555, fun _ => true⟩ 2 mpsHamiltonian0 1 2
    twoChain1).bind (fun c => .ok (spins2.map (psi (mpsSites id c) 0))) =
      .ok ([1 / 4, -9 / 4, 4, 3 / 2].map fun x => 1 / 8 * x) := by decide +kernel

end TAT
