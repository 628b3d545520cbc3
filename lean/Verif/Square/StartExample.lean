import Verif.Square.StartProps
import Verif.Square.PauliProps
import Verif.Square.NetExample
import Mathlib.Data.Complex.Basic

/-!
# C68 and C69 for small lattices
-/

namespace TAT

/-- Random numbers of the sites. -/
def numbers0 (i j k : ℕ) : ℚ := (k : ℚ) - i - 2 * j

/-- C68 applies to a lattice of two rows and three columns. -/
example : ∃ lp : LapackQr ℚ, ∃ rows, latticeNew (netEnv0 lp) numbers0 2 3 2 2 = .ok rows ∧
    SitesOn id 2 3 2 (latticeAt rows) (newAcross 3 2) (newDown 2 2) := by
  obtain ⟨lp, hlp⟩ := exists_lapackQrOk (K := ℚ)
  obtain ⟨rows, h1, -, -, -, h2⟩ := (C68_lattice (M := 2) (N := 3) (e := netEnv0 lp) (netEnv0_ok hlp)
    (fun x y hy => by
      show |x / y| = |x| / y
      rw [abs_div, abs_of_pos hy]) numbers0 (D := 2) (d := 2) (by decide) (by decide)).2 (by decide +kernel)
  exact ⟨lp, rows, h1, h2⟩

/-- A library which is not called. -/
def noQr : LapackQr ℚ := ⟨fun _ _ _ => none, fun _ _ _ _ _ => none, fun _ _ _ => none, fun _ _ _ _ _ => none⟩

/-- The elements of its first tensor, whose largest number is 7. -/
example : siteNew (netEnv0 noQr) (numbers0 0 0) 2 3 2 2 0 0 =
    .ok (cube ["P", "D", "R"] [0, 1 / 7, 2 / 7, 3 / 7, 4 / 7, 5 / 7, 6 / 7, 1]) := by
  decide +kernel

/-- Only one of the numbers of the corner is zero; with all of them zero the code divides by zero. -/
example : siteNew (netEnv0 noQr) (fun _ => 0) 2 3 2 2 0 0 = .error "division by zero" := by
  decide +kernel

/-- Three calls of the setters: the second call of the same setter wins. -/
example [LinearOrder TermKey] :
    let hamiltonians := [(Setter.horizontal, 1), (Setter.site, 2), (Setter.horizontal, 3)].foldl (callSetter 2 3) []
    OMap.find? hamiltonians [(1, 1), (1, 2)] = some 3 ∧ OMap.find? hamiltonians [(1, 2)] = some 2 ∧
    OMap.find? hamiltonians [(0, 0), (1, 0)] = none := by
  refine ⟨?_, ?_, ?_⟩ <;> simp only [List.foldl_cons, List.foldl_nil, C68_setter]
  · rw [if_pos ⟨(1, 1), (1, 2), rfl, rfl, rfl⟩]
  · rw [if_neg (by rintro ⟨x, y, -, -, h⟩; simp at h), if_pos ⟨(1, 2), rfl⟩]
  · rw [if_neg (by rintro ⟨x, y, h1, -, h⟩; simp [sitePos] at h; omega), if_neg (by rintro ⟨x, h⟩; simp at h),
      if_neg (by rintro ⟨x, y, h1, -, h⟩; simp [sitePos] at h; omega)]
    rfl

/-- Real tensors, and complex numbers for `Sy`. -/
noncomputable def spinEnv0 : SpinEnv String ℝ ℂ where
  ce := ⟨refGemm, ⟨⟨8, 32768, 1, 1⟩, fun _ _ => 5, fun _ => true⟩, ⟨⟨8, 32768, 1, 1⟩, fun _ _ => 6, fun _ => true⟩,
    ⟨⟨8, 32768, 1, 1⟩, fun _ _ => 7, fun _ => true⟩, fun _ _ => 8, fun _ _ => 9⟩
  ceC := ⟨refGemm, ⟨⟨8, 32768, 1, 1⟩, fun _ _ => 5, fun _ => true⟩, ⟨⟨8, 32768, 1, 1⟩, fun _ _ => 6, fun _ => true⟩,
    ⟨⟨8, 32768, 1, 1⟩, fun _ _ => 7, fun _ => true⟩, fun _ _ => 8, fun _ _ => 9⟩
  cn := ⟨",Contract_0", ",Contract_1", ",Contract_2"⟩
  env := ⟨⟨8, 32768, 1, 1⟩, fun _ _ => 4, fun _ => true⟩
  junk := fun _ _ => 0
  junkC := fun _ _ => 0
  nm := id
  i := Complex.I
  toT := Complex.re

theorem spinEnv0_ok : SpinEnvOk spinEnv0 where
  gemm := refGemm_ok
  gemmC := refGemm_ok
  names := (by decide : [",Contract_0", ",Contract_1", ",Contract_2"].Nodup)
  inj := fun _ _ h => h
  i_mul := Complex.I_mul_I
  zero := rfl
  quarter := by show (1 / 4 : ℂ).re = 1 / 4; norm_num
  minus := by show (-(1 / 4) : ℂ).re = -(1 / 4); norm_num

/-- C69 applies: a state of two sites which changes its sign when the spins are exchanged has the energy `-3/4`. -/
example : ∃ t, spinSS spinEnv0 = .ok t ∧
    ∀ (ψ : SpinConfig 1 2 2 → ℝ), (∀ s, ψ (s ∘ Equiv.swap (0, 0) (0, 1)) = -ψ s) →
      ∀ s, actOn [(0, 0), (0, 1)] (matrixElement id t) ψ s = -(3 / 4) * ψ s := by
  obtain ⟨t, h1, -, h2⟩ := C69_heisenberg spinEnv0_ok (by norm_num)
  refine ⟨t, h1, fun ψ hψ s => ?_⟩
  rw [show matrixElement id t = matrixElement spinEnv0.nm t from rfl, h2 (by decide), hψ]
  ring

/-- Such a state, which is not zero. -/
example : ∃ ψ : SpinConfig 1 2 2 → ℝ, (∀ s, ψ (s ∘ Equiv.swap (0, 0) (0, 1)) = -ψ s) ∧ ∃ s, ψ s ≠ 0 := by
  refine ⟨fun s => (s (0, 0)).val - (s (0, 1)).val, fun s => ?_, fun x => x.2, ?_⟩ <;> simp

/-- C69 for the commutators applies to the complex numbers. -/
example : ∃ x y z, spinX (fun _ _ => 0) id = .ok x ∧ spinY (fun _ _ => 0) id Complex.I = .ok y ∧
    spinZ (fun _ _ => 0) id = .ok z ∧
    matrixOf id x * matrixOf id y - matrixOf id y * matrixOf id x = -(Complex.I • matrixOf (id : String → String) z) := by
  obtain ⟨x, y, z, h1, h2, h3, -⟩ := C69_matrices (nm := (id : String → String)) (fun _ _ h => h)
    (fun _ _ => 0) Complex.I
  exact ⟨x, y, z, h1, h2, h3, (C69_commutators (fun _ _ h => h) _ Complex.I_mul_I (by norm_num) h1 h2 h3).2.2.2.1⟩

end TAT
