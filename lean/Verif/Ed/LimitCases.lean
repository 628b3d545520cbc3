import Verif.Ed.Limit
import Mathlib.Data.String.Basic
import Verif.Square.DenseNew

/-!
# C89: the limit for two sites
-/

namespace TAT.Ed

open Diag (DiagEnvOk)
open Filter Topology

/-- Real numbers, with nothing for the calls of LAPACK, which are not used. -/
noncomputable def realEnv : NetEnv String ℝ ℝ where
  ce := ⟨refGemm, ⟨⟨8, 32768, 1, 1⟩, fun _ _ => 5, fun _ => true⟩, ⟨⟨8, 32768, 1, 1⟩, fun _ _ => 6, fun _ => true⟩,
    ⟨⟨8, 32768, 1, 1⟩, fun _ _ => 7, fun _ => true⟩, fun _ _ => 8, fun _ _ => 9⟩
  cn := ⟨",Contract_0", ",Contract_1", ",Contract_2"⟩
  lp := ⟨fun _ _ _ => none, fun _ _ _ _ _ => none, fun _ _ _ => none, fun _ _ _ _ _ => none⟩
  qrEnv := ⟨⟨⟨8, 32768, 1, 1⟩, fun _ _ => 0, fun _ => false⟩, fun _ _ => 9, fun _ _ => 9,
    ⟨⟨8, 32768, 1, 1⟩, fun _ _ => 0, fun _ => false⟩, ⟨⟨8, 32768, 1, 1⟩, fun _ _ => 0, fun _ => false⟩⟩
  qrJunk := fun _ => 5
  qn := ⟨",QR_1", ",QR_2"⟩
  gesvd := fun _ _ _ => ([], [], [])
  svdEnv := ⟨⟨⟨8, 32768, 1, 1⟩, fun _ _ => 0, fun _ => false⟩, fun _ _ => 9, fun _ _ => 9,
    ⟨⟨8, 32768, 1, 1⟩, fun _ _ => 0, fun _ => false⟩, ⟨⟨8, 32768, 1, 1⟩, fun _ _ => 0, fun _ => false⟩⟩
  svdJunk := fun _ => 5
  sn := ⟨",SVD_U", ",SVD_V"⟩
  junk := fun _ _ => 3
  c := fun x => x
  inv := fun x => 1 / x
  nm := fun x => x
  abs := fun x => |x|

theorem realEnv_ok : DiagEnvOk realEnv where
  gemm := refGemm_ok
  names := (by decide : [",Contract_0", ",Contract_1", ",Contract_2"].Nodup)
  inj := fun _ _ h => h
  abs_nonneg := fun x => abs_nonneg x
  abs_zero := fun _ => abs_eq_zero
  abs_mul := fun x y => abs_mul x y
  abs_c := fun _ h => abs_of_nonneg h

/-- The state 1, 3, 1, 0 of two sites. -/
noncomputable def realState : Tensor String NoSymmetry ℝ :=
  ⟨["0.0", "0.1"], [plainEdge 2, plainEdge 2], [([0, 0], [1, 3, 1, 0])]⟩

/-- The operator between them. -/
noncomputable def realBond : Tensor String NoSymmetry ℝ :=
  ⟨["0.0", "0.1", "_0.0", "_0.1"], [plainEdge 2, plainEdge 2, plainEdge 2, plainEdge 2],
    [([0, 0, 0, 0], [1/4, 0, 0, 0, 0, -1/4, 1/2, 0, 0, 1/2, -1/4, 0, 0, 0, 0, 1/4])]⟩

noncomputable def realLattice : Lattice String ℝ ℝ := ⟨realState, [realBond], none, 1⟩

noncomputable def realMatrix : Matrix4 ℝ := matrixOf realBond "0.0" "0.1" "_0.0" "_0.1"

theorem val_of {t : Tensor String NoSymmetry ℝ} (h : Dense t) {x : String → ℕ} {r : ℝ}
    (hx : ∀ n, leg t n ≠ none → x n < legDim t n) (he : elem t (fun n => (0, x n)) = some r) : val t x = r :=
  Option.some.inj ((elem_val h.wf hx).symm.trans he)

theorem realState_legs : Dense realState ∧ leg realState "0.0" = some 2 ∧ leg realState "0.1" = some 2 := by
  obtain ⟨h1, h2⟩ := dense_plain (t := realState) (dims := [2, 2]) (by decide : ["0.0", "0.1"].Nodup) rfl rfl rfl
    (by decide)
  exact ⟨h1, h2 0 (show 0 < 2 by decide), h2 1 (show 1 < 2 by decide)⟩

theorem realBond_legs : Dense realBond ∧ ∀ m ∈ ["0.0", "0.1", "_0.0", "_0.1"], leg realBond m = some 2 := by
  obtain ⟨h1, h2⟩ := dense_plain (t := realBond) (dims := [2, 2, 2, 2])
    (by decide : ["0.0", "0.1", "_0.0", "_0.1"].Nodup) rfl rfl rfl (by decide)
  refine ⟨h1, fun m hm => ?_⟩
  simp only [List.mem_cons, List.not_mem_nil, or_false] at hm
  rcases hm with rfl | rfl | rfl | rfl
  exacts [h2 0 (show 0 < 4 by decide), h2 1 (show 1 < 4 by decide), h2 2 (show 2 < 4 by decide),
    h2 3 (show 3 < 4 by decide)]

theorem realLattice_ok :
    IsLattice realEnv.nm (squareNode 1 2) realLattice [(((0, 0), (0, 1)), realMatrix)] := by
  obtain ⟨s1, s2, s3⟩ := realState_legs
  obtain ⟨b1, b2⟩ := realBond_legs
  refine ⟨⟨s1, fun p => ?_, fun m hm => ?_⟩, .cons ⟨by decide, ⟨b1, rfl, b2⟩, fun _ _ _ _ => rfl⟩ .nil⟩
  · obtain ⟨i, j⟩ := p
    fin_cases i; fin_cases j
    · exact s2
    · exact s3
  · have hm : m ∈ ["0.0", "0.1"] := leg_ne_none.1 hm
    simp only [List.mem_cons, List.not_mem_nil, or_false] at hm
    rcases hm with rfl | rfl
    exacts [⟨(0, 0), rfl⟩, ⟨(0, 1), rfl⟩]

theorem realMatrix_val (x y a b : Fin 2) : realMatrix x y a b =
    (if a = y ∧ b = x then 1/2 else 0) - (if a = x ∧ b = y then 1/4 else 0) := by
  obtain ⟨b1, b2⟩ := realBond_legs
  have key : ∀ r : ℝ, elem realBond (fun n => (0, if n = "0.0" then x.val else if n = "0.1" then y.val else
      if n = "_0.0" then a.val else if n = "_0.1" then b.val else 0)) = some r → realMatrix x y a b = r := by
    intro r hr
    refine val_of b1 (fun n hn => ?_) hr
    have hn : n ∈ ["0.0", "0.1", "_0.0", "_0.1"] := leg_ne_none.1 hn
    rw [legDim, b2 n hn]
    show (if n = "0.0" then x.val else if n = "0.1" then y.val else
      if n = "_0.0" then a.val else if n = "_0.1" then b.val else 0) < 2
    split_ifs <;> omega
  fin_cases x <;> fin_cases y <;> fin_cases a <;> fin_cases b <;> rw [key _ rfl] <;> norm_num

/-- The values of the two sites. -/
def first (s : Spins (Fin 1 × Fin 2)) : ℝ := ((s (0, 0)).val : ℝ)
def second (s : Spins (Fin 1 × Fin 2)) : ℝ := ((s (0, 1)).val : ℝ)

theorem real_amp (s : Spins (Fin 1 × Fin 2)) : ampOf realEnv.nm (squareNode 1 2) realState s =
    (second s - first s) + (1 + first s + second s - 3 * first s * second s) := by
  obtain ⟨s1, s2, s3⟩ := realState_legs
  have key : ∀ r : ℝ, elem realState (fun n => (0, if n = "0.0" then (s (0, 0)).val else (s (0, 1)).val)) = some r →
      ampOf realEnv.nm (squareNode 1 2) realState s = r := by
    intro r hr
    rw [← val_of s1 (fun n hn => ?_) hr]
    · refine val_congr fun n hn => ?_
      have hn : n ∈ ["0.0", "0.1"] := leg_ne_none.1 hn
      simp only [List.mem_cons, List.not_mem_nil, or_false] at hn
      rcases hn with rfl | rfl
      · exact spinsAt_site (nm := realEnv.nm) (fun _ _ h => h) (squareNode_ok 1 2) s (0, 0)
      · exact spinsAt_site (nm := realEnv.nm) (fun _ _ h => h) (squareNode_ok 1 2) s (0, 1)
    · have hn : n ∈ ["0.0", "0.1"] := leg_ne_none.1 hn
      simp only [List.mem_cons, List.not_mem_nil, or_false] at hn
      have h2 : legDim realState n = 2 := by
        rcases hn with rfl | rfl
        · rw [legDim, s2]; rfl
        · rw [legDim, s3]; rfl
      rw [h2]
      show (if n = "0.0" then (s (0, 0)).val else (s (0, 1)).val) < 2
      split_ifs <;> omega
  rw [first, second]
  generalize s (0, 0) = x at *
  generalize s (0, 1) = y at *
  fin_cases x <;> fin_cases y <;> rw [key _ rfl] <;> norm_num

/-- What is assumed in the theorem holds for a state which is not an eigenvector; the energy converges to -3/4. -/
example : ∃ E : ℕ → ℝ, (∀ N, ∃ lat', updates realEnv ⟨⟨8, 32768, 1, 1⟩, fun _ _ => 555, fun _ => true⟩ (N + 2) realLattice =
    .ok lat' ∧ lat'.energy = some (E N)) ∧ Tendsto E atTop (𝓝 (-3/4)) := by
  have hm := realMatrix_val
  have hsum : ∀ (w : Spins (Fin 1 × Fin 2) → ℝ) s, hamiltonian [(((0, 0), (0, 1)), realMatrix)] w s =
      ∑ a : Fin 2, ∑ b : Fin 2, w (Function.update (Function.update s (0, 0) a) (0, 1) b) *
        ((if s (0, 0) = b ∧ s (0, 1) = a then 1/2 else 0) - (if s (0, 0) = a ∧ s (0, 1) = b then 1/4 else 0)) := by
    intro w s
    simp only [hamiltonian, List.map_cons, List.map_nil, List.sum_cons, List.sum_nil, add_zero, applyTo, hm]
  have h1 : ∀ s : Spins (Fin 1 × Fin 2), ∀ a b, first (Function.update (Function.update s (0, 0) a) (0, 1) b) = a.val ∧
      second (Function.update (Function.update s (0, 0) a) (0, 1) b) = b.val := by
    intro s a b
    simp [first, second, Function.update]
  refine C89_lowest realEnv_ok (fun _ => rfl) (fun _ => rfl) (squareNode_ok 1 2) _ realLattice_ok
    (φ := fun s => second s - first s) (x := -3/4) (K := Unit)
    (χ := fun _ s => 1 + first s + second s - 3 * first s * second s) (y := fun _ => 1/4) (fun s => ?_) ?_ ?_
    (fun _ s => ?_) ?_ (fun s => ?_)
  · rw [hsum]
    simp only [h1, Fin.sum_univ_two]
    rw [first, second]
    generalize s (0, 0) = x
    generalize s (0, 1) = y
    fin_cases x <;> fin_cases y <;> norm_num
  · exact ⟨fun p => if p = (0, 0) then 1 else 0, by simp [first, second]⟩
  · show (-3/4 : ℝ) < 1
    norm_num
  · rw [hsum]
    simp only [h1, Fin.sum_univ_two]
    rw [first, second]
    generalize s (0, 0) = x
    generalize s (0, 1) = y
    fin_cases x <;> fin_cases y <;> norm_num
  · intro _
    show (-3/4 : ℝ) < 1/4 ∧ (1/4 : ℝ) < 2 * 1 - -3/4
    norm_num
  · rw [show realLattice.state = realState from rfl, real_amp]
    simp

end TAT.Ed
