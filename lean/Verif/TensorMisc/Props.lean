import Verif.TensorMisc.Multiple
import Verif.TensorMisc.Conjugate
import Verif.TensorMisc.Identity
import Verif.EdgeMisc.Props
import Mathlib.Data.Rat.Defs

/-!
# Concrete cases of C26, C31 and C37
-/

namespace TAT

/-! ## C31 -/

/-- A table for the edge `7` of `sampleU1` (direction `u`). -/
def sampleTable : List (U1Symmetry × List ℤ) := [(⟨-1⟩, [2]), (⟨0⟩, [3, -1]), (⟨1⟩, [1, 1, 5])]

example : WF sampleU1 ∧ 7 ∈ sampleU1.names ∧ IsDirection 'u' ∧
    TableFits sampleTable 'u' (mapOf sampleU1 7) := by
  refine ⟨sampleU1_wf, by decide, by unfold IsDirection; decide, ?_⟩
  have : ∀ s ∈ OMap.keys (mapOf sampleU1 7),
      (OMap.find? sampleTable (tableSym 'u' s)).map List.length =
        some (dimM (mapOf sampleU1 7) s) := by decide +kernel
  intro s hs
  have := this s hs
  cases hf : OMap.find? sampleTable (tableSym 'u' s) with
  | none => rw [hf] at this; simp at this
  | some v => rw [hf] at this; exact ⟨v, rfl, by simpa using this⟩

example : multiple (fun _ _ => 77) (· * ·) id sampleU1 sampleTable 7 'u' false =
    .ok ⟨[7, 3], sampleU1.core.edges,
      [([⟨-1⟩, ⟨1⟩], [2, 4]), ([⟨0⟩, ⟨0⟩], [9, -4]), ([⟨1⟩, ⟨-1⟩], [5, 6, 7, 8, 45, 50])]⟩ := by
  decide +kernel

/-- In direction `v` the table is read at the opposite symmetry. -/
example : multiple (fun _ _ => 77) (· * ·) id sampleU1
    [(⟨1⟩, [2]), (⟨0⟩, [3, -1]), (⟨-1⟩, [1, 1, 5])] 7 'v' false =
    .ok ⟨[7, 3], sampleU1.core.edges,
      [([⟨-1⟩, ⟨1⟩], [2, 4]), ([⟨0⟩, ⟨0⟩], [9, -4]), ([⟨1⟩, ⟨-1⟩], [5, 6, 7, 8, 45, 50])]⟩ := by
  decide +kernel

/-- The arithmetic law asked for in `C31_restore` holds for non-zero rationals. -/
example (x y : ℚ) (hx : x ≠ 0) : y * x * x⁻¹ = y := by
  rw [Rat.mul_assoc, Rat.mul_inv_cancel x hx, Rat.mul_one]

example : (multiple (fun _ _ => 77) (· * ·) id sampleU1
    [(⟨-1⟩, [2]), (⟨0⟩, [3]), (⟨1⟩, [1, 1, 5])] 7 'u' false).isError = true ∧
    ¬ IsDirection 'x' := by
  refine ⟨by decide +kernel, by unfold IsDirection; decide⟩

/-! ## C26 -/

example : conjugate (fun _ _ => 77) id true sampleFermi = .ok
    ⟨[0, 1, 2],
      [⟨true, [(⟨-1⟩, 1), (⟨0⟩, 1)]⟩, ⟨false, [(⟨0⟩, 1), (⟨1⟩, 1)]⟩,
        ⟨true, [(⟨-1⟩, 2), (⟨0⟩, 1), (⟨1⟩, 1)]⟩],
      [([⟨-1⟩, ⟨0⟩, ⟨1⟩], [-5]), ([⟨-1⟩, ⟨1⟩, ⟨0⟩], [-4]), ([⟨0⟩, ⟨0⟩, ⟨0⟩], [3]),
        ([⟨0⟩, ⟨1⟩, ⟨-1⟩], [-1, -2])]⟩ := by
  decide +kernel

example : WF sampleFermi ∧ ValidPos sampleFermi (fun n =>
    if n = 0 then (⟨0⟩, 0) else if n = 1 then (⟨-1⟩, 0) else (⟨1⟩, 1)) := by
  refine ⟨sampleFermi_wf, ?_⟩
  rw [validPos_iff sampleFermi_wf]
  unfold FineOk
  decide +kernel

/-! ## C37 -/

/-- A matrix with three sectors. -/
def sampleMatrix : Tensor ℕ U1Symmetry ℤ :=
  ⟨[4, 6], [⟨false, [(⟨-1⟩, 1), (⟨0⟩, 2), (⟨1⟩, 2)]⟩, ⟨false, [(⟨-1⟩, 2), (⟨0⟩, 2), (⟨1⟩, 1)]⟩],
    [([⟨-1⟩, ⟨1⟩], [9]), ([⟨0⟩, ⟨0⟩], [9, 9, 9, 9]), ([⟨1⟩, ⟨-1⟩], [9, 9, 9, 9])]⟩

theorem sampleMatrix_wf : WF sampleMatrix := by
  refine ⟨by decide, by decide, by decide, by decide, by decide⟩

theorem sampleMatrix_matches : PairMatches sampleMatrix [(6, 4)] := by
  intro x hx s
  rw [List.mem_singleton] at hx
  subst hx
  have hz : ∀ s : U1Symmetry, s ∉ OMap.keys (mapOf sampleMatrix 6) → -s ∉ OMap.keys (mapOf sampleMatrix 4) := by
    intro s hs hc
    have h4 : ∀ u ∈ OMap.keys (mapOf sampleMatrix 4), -u ∈ OMap.keys (mapOf sampleMatrix 6) := by
      decide +kernel
    exact hs (by simpa using h4 _ hc)
  by_cases hs : s ∈ OMap.keys (mapOf sampleMatrix 6)
  · have : ∀ u ∈ OMap.keys (mapOf sampleMatrix 6),
        dimM (mapOf sampleMatrix 6) u = dimM (mapOf sampleMatrix 4) (-u) := by decide +kernel
    exact this s hs
  · unfold dimM
    rw [OMap.find?_eq_none.2 hs, OMap.find?_eq_none.2 (hz s hs)]

example : WF sampleMatrix ∧ (pairNames [(6, 4)]).Perm sampleMatrix.names ∧
    sampleMatrix.names ≠ [] ∧
    (∀ n ∈ sampleMatrix.names, ∀ s ∈ OMap.keys (mapOf sampleMatrix n),
      0 < dimM (mapOf sampleMatrix n) s) ∧
    PairMatches sampleMatrix [(6, 4)] ∧ PairOpposite sampleMatrix [(6, 4)] :=
  ⟨sampleMatrix_wf, by decide, by decide, by decide +kernel, sampleMatrix_matches,
    C37_matrix (by decide)⟩

example : identity (fun _ _ => 77) sampleMatrix [(6, 4)] = .ok
    ⟨[4, 6], sampleMatrix.core.edges,
      [([⟨-1⟩, ⟨1⟩], [1]), ([⟨0⟩, ⟨0⟩], [1, 0, 0, 1]), ([⟨1⟩, ⟨-1⟩], [1, 0, 0, 1])]⟩ := by
  decide +kernel

/-- A tensor with four edges, to be paired as `(0, 1)` and `(2, 3)`. -/
def sampleFour : Tensor ℕ Z2Symmetry ℤ :=
  ⟨[0, 1, 2, 3], List.replicate 4 ⟨false, [(⟨false⟩, 1), (⟨true⟩, 1)]⟩,
    [([⟨false⟩, ⟨false⟩, ⟨false⟩, ⟨false⟩], [9]), ([⟨false⟩, ⟨false⟩, ⟨true⟩, ⟨true⟩], [9]),
      ([⟨false⟩, ⟨true⟩, ⟨false⟩, ⟨true⟩], [9]), ([⟨false⟩, ⟨true⟩, ⟨true⟩, ⟨false⟩], [9]),
      ([⟨true⟩, ⟨false⟩, ⟨false⟩, ⟨true⟩], [9]), ([⟨true⟩, ⟨false⟩, ⟨true⟩, ⟨false⟩], [9]),
      ([⟨true⟩, ⟨true⟩, ⟨false⟩, ⟨false⟩], [9]), ([⟨true⟩, ⟨true⟩, ⟨true⟩, ⟨true⟩], [9])]⟩

theorem sampleFour_wf : WF sampleFour := by
  refine ⟨by decide, by decide, by decide, by decide +kernel, by decide +kernel⟩

/-- **C37** does not hold for two or more pairs of edges with symmetry: ones are also written to
blocks in which the symmetries of a pair are not opposite. -/
theorem C37_not_opposite :
    WF sampleFour ∧ (pairNames [(0, 1), (2, 3)]).Perm sampleFour.names ∧
    ∃ r, identity (fun _ _ => 77) sampleFour [(0, 1), (2, 3)] = .ok r ∧
      ∃ p, ValidPos sampleFour p ∧ (p 0).1 + (p 1).1 ≠ 0 ∧ elem r p = some 1 := by
  refine ⟨sampleFour_wf, by decide, mapTensor (fun _ => 1) sampleFour, by decide +kernel,
    fun n => if n = 0 ∨ n = 2 then (⟨true⟩, 0) else (⟨false⟩, 0), ?_, by decide +kernel,
    by decide +kernel⟩
  rw [validPos_iff sampleFour_wf]
  unfold FineOk
  decide +kernel

/-- Without any edge, and for a dimension zero, the loop of ones leaves the data. -/
theorem C37_undefined :
    identity (fun _ _ => 77) (⟨[], [], [([], [9])]⟩ : Tensor ℕ Z2Symmetry ℤ) [] = .ub ∧
    identity (fun _ _ => 77) (⟨[0, 1], [⟨false, [(⟨⟩, 0)]⟩, ⟨false, [(⟨⟩, 0)]⟩],
      [([⟨⟩, ⟨⟩], [])]⟩ : Tensor ℕ NoSymmetry ℤ) [(0, 1)] = .ub := by
  decide +kernel

end TAT
