import Verif.Contract.LinearProps
import Verif.Contract.LawCases
import Verif.Trace.LawCases

/-!
Cases for linearity and conjugation (C76): inputs that meet the hypotheses of the theorems in
`LinearProps.lean`.
-/

namespace TAT

/-! ## contraction -/

/-- The conjugates of `lawA` and `lawB`. -/
def lawAc : Tensor ℕ FermiSymmetry ℤ :=
  ⟨[1, 0], [⟨true, [(⟨0⟩, 1), (⟨1⟩, 1)]⟩, ⟨false, [(⟨-1⟩, 2), (⟨0⟩, 1)]⟩],
    [([⟨0⟩, ⟨0⟩], [5]), ([⟨1⟩, ⟨-1⟩], [-2, -3])]⟩

def lawBc : Tensor ℕ FermiSymmetry ℤ :=
  ⟨[3, 2, 8], [⟨false, [(⟨0⟩, 1), (⟨1⟩, 1)]⟩, ⟨false, [(⟨-1⟩, 1), (⟨0⟩, 1)]⟩,
      ⟨true, [(⟨-1⟩, 1), (⟨0⟩, 1), (⟨1⟩, 1)]⟩],
    [([⟨0⟩, ⟨-1⟩, ⟨1⟩], [-17]), ([⟨0⟩, ⟨0⟩, ⟨0⟩], [13]), ([⟨1⟩, ⟨-1⟩, ⟨0⟩], [-11]),
      ([⟨1⟩, ⟨0⟩, ⟨-1⟩], [-7])]⟩

/-- A tensor like `lawA`, with the edges in the other order. -/
def lawA' : Tensor ℕ FermiSymmetry ℤ :=
  ⟨[0, 1], [⟨true, [(⟨0⟩, 1), (⟨1⟩, 2)]⟩, ⟨false, [(⟨-1⟩, 1), (⟨0⟩, 1)]⟩],
    [([⟨0⟩, ⟨0⟩], [31]), ([⟨1⟩, ⟨-1⟩], [37, 41])]⟩

/-- The sum of the two; the odd edges change places. -/
def lawAs : Tensor ℕ FermiSymmetry ℤ :=
  ⟨[1, 0], [⟨false, [(⟨-1⟩, 1), (⟨0⟩, 1)]⟩, ⟨true, [(⟨0⟩, 1), (⟨1⟩, 2)]⟩],
    [([⟨-1⟩, ⟨1⟩], [-35, -38]), ([⟨0⟩, ⟨0⟩], [36])]⟩

theorem lawAc_wf : WF lawAc := by
  refine ⟨by decide, by decide, by decide, by decide +kernel, by decide +kernel⟩

theorem lawBc_wf : WF lawBc := by
  refine ⟨by decide, by decide, by decide, by decide +kernel, by decide +kernel⟩

theorem lawA'_wf : WF lawA' := by
  refine ⟨by decide, by decide, by decide, by decide +kernel, by decide +kernel⟩

theorem lawAs_wf : WF lawAs := by
  refine ⟨by decide, by decide, by decide, by decide +kernel, by decide +kernel⟩

/-- The hypotheses of `C76_conjugate`: signs appear on both sides. -/
example : conjugate (fun _ _ => 55) (RingHom.id ℤ) true lawA = .ok lawAc ∧
    conjugate (fun _ _ => 55) (RingHom.id ℤ) true lawB = .ok lawBc ∧
    Sound lawA lawB [(1, 2)] ∧ Sound lawAc lawBc [(1, 2)] ∧
    (match contract ce0 names0 lawA lawB [(1, 2)], contract ce0 names0 lawAc lawBc [(1, 2)] with
      | .ok r, .ok r' => match conjugate (fun _ _ => 55) (RingHom.id ℤ) true r with
        | .ok rc => decide (r' = rc ∧ r'.core.blocks.map Prod.snd = [[-34, -51], [22, 33], [65], [-35]] ∧
            r.core.blocks.map Prod.snd = [[35], [65], [-22, -33], [34, 51]])
        | _ => false
      | _, _ => false) = true :=
  ⟨by decide +kernel, by decide +kernel,
    sound_single lawA_wf lawB_wf (by decide) (by decide) (by decide) (by decide),
    sound_single lawAc_wf lawBc_wf (by decide) (by decide) (by decide) (by decide), by decide +kernel⟩

theorem lawA_compatible : ∀ n ∈ lawA.names, CompatibleAt lawA lawA' n := by
  have : ∀ n ∈ lawA.names, ∀ s ∈ OMap.keys (mapOf lawA n), s ∈ OMap.keys (mapOf lawA' n) →
      dimM (mapOf lawA n) s = dimM (mapOf lawA' n) s := by decide +kernel
  exact this

/-- The hypotheses of `C76_left`. -/
example : lawA'.names.Perm lawA.names ∧ (∀ n ∈ lawA.names, CompatibleAt lawA lawA' n) ∧
    scalarOp env0 (fun _ _ => 55) id id (· + ·) lawA lawA' = .ok lawAs ∧
    Sound lawA lawB [(1, 2)] ∧ Sound lawA' lawB [(1, 2)] ∧ Sound lawAs lawB [(1, 2)] ∧
    (match contract ce0 names0 lawA lawB [(1, 2)], contract ce0 names0 lawA' lawB [(1, 2)],
        contract ce0 names0 lawAs lawB [(1, 2)] with
      | .ok r, .ok r', .ok q => match scalarOp env0 (fun _ _ => 55) id id (· + ·) r r' with
        | .ok u => decide (q = u ∧ q.core.blocks.length = 4)
        | _ => false
      | _, _, _ => false) = true :=
  ⟨by decide, lawA_compatible, by decide +kernel,
    sound_single lawA_wf lawB_wf (by decide) (by decide) (by decide) (by decide),
    sound_single lawA'_wf lawB_wf (by decide) (by decide) (by decide) (by decide),
    sound_single lawAs_wf lawB_wf (by decide) (by decide) (by decide) (by decide), by decide +kernel⟩

/-- The hypotheses of `C76_right`, with a difference. -/
example : Sound lawB lawA [(2, 1)] ∧ Sound lawB lawA' [(2, 1)] ∧
    (match scalarOp env0 (fun _ _ => 55) id id (· - ·) lawA lawA' with
      | .ok s => match contract ce0 names0 lawB lawA [(2, 1)], contract ce0 names0 lawB lawA' [(2, 1)],
            contract ce0 names0 lawB s [(2, 1)] with
          | .ok r, .ok r', .ok q => match scalarOp env0 (fun _ _ => 55) id id (· - ·) r r' with
            | .ok u => decide (q = u ∧ q.core.blocks.length = 4 ∧ s.core.blocks ≠ [])
            | _ => false
          | _, _, _ => false
      | _ => false) = true :=
  ⟨sound_single lawB_wf lawA_wf (by decide) (by decide) (by decide) (by decide),
    sound_single lawB_wf lawA'_wf (by decide) (by decide) (by decide) (by decide), by decide +kernel⟩

/-- The hypotheses of `C76_multiple`. -/
example :
    (match scalarNumber (fun _ _ => 55) (2 * ·) lawA, scalarNumber (fun _ _ => 55) (-3 * ·) lawB with
      | .ok s1, .ok s2 => match contract ce0 names0 lawA lawB [(1, 2)],
            contract ce0 names0 s1 s2 [(1, 2)] with
          | .ok r, .ok q => match scalarNumber (fun _ _ => 55) (2 * -3 * ·) r with
            | .ok u => decide (q = u ∧ q.core.blocks.map Prod.snd = [[-210], [-390], [132, 198], [-204, -306]])
            | _ => false
          | _, _ => false
      | _, _ => false) = true := by
  decide +kernel

/-! ## without symmetry -/

/-- Matrices without symmetry. -/
def denseX : Tensor ℕ NoSymmetry ℤ :=
  ⟨[0, 1], [⟨false, [(⟨⟩, 2)]⟩, ⟨false, [(⟨⟩, 2)]⟩], [([⟨⟩, ⟨⟩], [1, 2, 3, 4])]⟩

def denseY : Tensor ℕ NoSymmetry ℤ :=
  ⟨[1, 0], [⟨false, [(⟨⟩, 2)]⟩, ⟨false, [(⟨⟩, 2)]⟩], [([⟨⟩, ⟨⟩], [5, 6, 7, 8])]⟩

def denseT : Tensor ℕ NoSymmetry ℤ :=
  ⟨[2, 3], [⟨false, [(⟨⟩, 2)]⟩, ⟨false, [(⟨⟩, 1)]⟩], [([⟨⟩, ⟨⟩], [9, 10])]⟩

/-- The hypotheses of `C76_nosym_left`, and what is computed. -/
example : WF denseX ∧ WF denseY ∧ WF denseT ∧ denseY.names.Perm denseX.names ∧
    (∀ n ∈ denseX.names, mapOf denseX n = mapOf denseY n) ∧ Pairs denseX.names denseT.names [(1, 2)] ∧
    mapOf denseX 1 = mapOf denseT 2 ∧
    (scalarOp env0 (fun _ _ => 55) id id (· + ·) denseX denseY).bind
      (fun s => contract ce0 names0 s denseT [(1, 2)]) =
      .ok ⟨[0, 3], [⟨false, [(⟨⟩, 2)]⟩, ⟨false, [(⟨⟩, 1)]⟩], [([⟨⟩, ⟨⟩], [6 * 9 + 9 * 10, 9 * 9 + 12 * 10])]⟩ := by
  refine ⟨⟨by decide, by decide, by decide, by decide +kernel, by decide +kernel⟩,
    ⟨by decide, by decide, by decide, by decide +kernel, by decide +kernel⟩,
    ⟨by decide, by decide, by decide, by decide +kernel, by decide +kernel⟩, by decide, by decide +kernel,
    ⟨by decide, by decide, by decide, by decide⟩, by decide +kernel, by decide +kernel⟩

/-! ## trace -/

/-- The hypotheses of `C76_trace_conjugate` and `C76_trace_multiple`. -/
example : Traceable traceAB [(2, 4)] ∧
    (match conjugate (fun _ _ => 55) (RingHom.id ℤ) true traceAB,
        traceTensor env0 env0 (fun _ _ => 77) trNames0 traceAB [(2, 4)] with
      | .ok c, .ok r => match traceTensor env0 env0 (fun _ _ => 77) trNames0 c [(2, 4)],
            conjugate (fun _ _ => 55) (RingHom.id ℤ) true r with
          | .ok r', .ok rc => decide (r' = rc ∧ r'.core.blocks.length = 4 ∧
              (edgeOf c 2).arrow ≠ (edgeOf c 4).arrow ∧
              (∀ s ∈ OMap.keys (mapOf c 2), OMap.find? (mapOf c 2) s = OMap.find? (mapOf c 4) (-s)) ∧
              ∀ s ∈ OMap.keys (mapOf c 4), -s ∈ OMap.keys (mapOf c 2))
          | _, _ => false
      | _, _ => false) = true :=
  ⟨traceAB_traceable, by decide +kernel⟩

/-- The hypotheses of `C76_trace_sum`: a tensor and its double. -/
example :
    (match scalarNumber (fun _ _ => 55) (2 * ·) traceAB with
      | .ok y => match scalarOp env0 (fun _ _ => 55) id id (· + ·) traceAB y,
            traceTensor env0 env0 (fun _ _ => 77) trNames0 traceAB [(2, 4)],
            traceTensor env0 env0 (fun _ _ => 77) trNames0 y [(2, 4)] with
          | .ok s, .ok r, .ok r' => match traceTensor env0 env0 (fun _ _ => 77) trNames0 s [(2, 4)],
                scalarOp env0 (fun _ _ => 55) id id (· + ·) r r' with
              | .ok q, .ok u => decide (q = u ∧ q.core.blocks.length = 4 ∧ s.core.edges = traceAB.core.edges)
              | _, _ => false
          | _, _, _ => false
      | _ => false) = true := by
  decide +kernel

end TAT
