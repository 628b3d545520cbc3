import Mathlib.NumberTheory.Zsqrtd.Basic
import Mathlib.Data.Complex.Basic
import Verif.Contract.MixedProps
import Verif.Contract.LinearCases

/-!
Cases for conversions of scalars (C83): inputs that meet the hypotheses of the theorems in
`MixedProps.lean`.  Whole numbers play the real ones and `ℤ√(-1)` the complex ones.
-/

namespace TAT

def envI {σ : Type} : Env σ (ℤ√(-1)) := ⟨⟨8, 32768, 1, 1⟩, fun _ _ => 0, fun _ => false⟩

def ceI {σ : Type} : ContractEnv σ (ℤ√(-1)) :=
  ⟨refGemm, envI, envI, envI, fun _ _ => 77, fun _ _ => 77⟩

/-- The embedding and the two parts. -/
def intoI : ℤ →+* ℤ√(-1) := Int.castRingHom _

def partRe : ℤ√(-1) →+ ℤ := ⟨⟨Zsqrtd.re, rfl⟩, fun _ _ => rfl⟩

def partIm : ℤ√(-1) →+ ℤ := ⟨⟨Zsqrtd.im, rfl⟩, fun _ _ => rfl⟩

/-- `lawB` with further imaginary parts. -/
def lawBi : Tensor ℕ FermiSymmetry (ℤ√(-1)) :=
  ⟨lawB.names, lawB.core.edges,
    lawB.core.blocks.map fun b => (b.1, b.2.map fun x => ⟨x, 3 * x + 1⟩)⟩

theorem lawBi_wf : WF lawBi := by
  refine ⟨by decide, by decide, by decide, by decide +kernel, by decide +kernel⟩

/-- The parts meet the hypothesis of `C83_part`. -/
example : (∀ x y, partRe (intoI x * y) = x * partRe y) ∧ ∀ x y, partIm (intoI x * y) = x * partIm y := by
  constructor <;> intro x y
  · show (((x : ℤ) : ℤ√(-1)) * y).re = x * y.re
    simp
  · show (((x : ℤ) : ℤ√(-1)) * y).im = x * y.im
    simp

/-- So do the parts of the complex numbers. -/
example : (∀ (x : ℝ) y, Complex.reAddGroupHom (Complex.ofRealHom x * y) = x * Complex.reAddGroupHom y) ∧
    ∀ (x : ℝ) y, Complex.imAddGroupHom (Complex.ofRealHom x * y) = x * Complex.imAddGroupHom y := by
  constructor <;> intro x y <;> simp

/-- The hypotheses of `C83_widen`, and what is computed with numbers of both kinds. -/
example : Sound lawA lawB [(1, 2)] ∧ GemmOk (ceI (σ := FermiSymmetry)).gemm ∧
    (match contract ce0 names0 lawA lawB [(1, 2)],
        contractMixed ceI names0 (.convert intoI) .same lawA (convertTo intoI lawB) [(1, 2)] with
      | .ok r, .ok r' => decide (r' = convertTo intoI r ∧
          r.core.blocks.map Prod.snd = [[35], [65], [-22, -33], [34, 51]])
      | _, _ => false) = true :=
  ⟨sound_single lawA_wf lawB_wf (by decide) (by decide) (by decide) (by decide), refGemm_ok,
    by decide +kernel⟩

/-- The hypotheses of `C83_part`: the product of a real tensor and one with both parts. -/
example : Sound (convertTo intoI lawA) lawBi [(1, 2)] ∧
    (match contractMixed ceI names0 (.convert intoI) .same lawA lawBi [(1, 2)],
        contract ce0 names0 lawA (convertTo partIm lawBi) [(1, 2)],
        contract ce0 names0 lawA (convertTo partRe lawBi) [(1, 2)] with
      | .ok r, .ok r1, .ok r2 => decide (r1 = convertTo partIm r ∧ r2 = convertTo partRe r ∧
          r1.core.blocks.map Prod.snd = [[110], [200], [-68, -102], [104, 156]] ∧
          r2.core.blocks.map Prod.snd = [[35], [65], [-22, -33], [34, 51]])
      | _, _, _ => false) = true :=
  ⟨sound_single (C50_to intoI lawA_wf).2.1 lawBi_wf (by decide +kernel) (by decide +kernel)
    (by decide +kernel) (by decide +kernel), by decide +kernel⟩

/-- The hypotheses of `C83_nosym_contract`. -/
example : Pairs denseX.names denseT.names [(1, 2)] ∧ mapOf denseX 1 = mapOf denseT 2 ∧
    (match contract ce0 names0 denseX denseT [(1, 2)],
        contractMixed ceI names0 (.convert intoI) (.convert intoI) denseX denseT [(1, 2)] with
      | .ok r, .ok r' => decide (r' = convertTo intoI r ∧
          r.core.blocks.map Prod.snd = [[1 * 9 + 2 * 10, 3 * 9 + 4 * 10]])
      | _, _ => false) = true :=
  ⟨⟨by decide, by decide, by decide, by decide⟩, by decide +kernel, by decide +kernel⟩

/-- The hypotheses of `C83_trace`. -/
example : Traceable traceAB [(2, 4)] ∧
    (match traceTensor env0 env0 (fun _ _ => 77) trNames0 traceAB [(2, 4)],
        traceTensor envI envI (fun _ _ => 78) trNames0 (convertTo intoI traceAB) [(2, 4)] with
      | .ok r, .ok r' => decide (r' = convertTo intoI r ∧ r.core.blocks ≠ [])
      | _, _ => false) = true :=
  ⟨traceAB_traceable, by decide +kernel⟩

end TAT
