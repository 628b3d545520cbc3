import Verif.Grid.Props
import Verif.Square.NetExample
import Mathlib.Tactic.IntervalCases

/-!
# C86 for lattices of up to two rows and columns
-/

namespace TAT.Grid

def gridEnv0 : AuxEnv String ℚ ℚ :=
  auxEnv0 ⟨fun _ _ _ => none, fun _ _ _ _ _ => none, fun _ _ _ => none, fun _ _ _ _ _ => none⟩

theorem grid_inside : ∀ n ∈ [",SVD_U", ",SVD_V"], ∀ g : Leg, n ≠ toolString sides g := by decide +kernel

theorem toolString_sides : Function.Injective (toolString sides) := by
  have h : ∀ x y : Leg, toolString sides x = toolString sides y → x = y := by decide +kernel
  exact fun x y => h x y

/-- What is assumed holds for the names of the program. -/
theorem gridEnv0_ok : GridEnvOk gridEnv0 sides where
  gemm := refGemm_ok
  names := (by decide : [",Contract_0", ",Contract_1", ",Contract_2"].Nodup)
  svd := refGesvd_ok
  inj := fun _ _ h => h
  sn := (by decide : ",SVD_U" ≠ ",SVD_V")
  u := grid_inside ",SVD_U" (by simp)
  v := grid_inside ",SVD_V" (by simp)
  dirs := toolString_sides

/-- Four sites, with different orders of the edges. -/
def gridSite0 : ℕ → ℕ → Tensor String NoSymmetry ℚ
  | 0, 0 => cube ["right", "down"] [1, 2, 3, 4]
  | 0, _ => cube ["down", "left"] [1, 0, 2, 1]
  | _, 0 => cube ["up", "right"] [0, 1, 1, 1]
  | _, _ => cube ["left", "up"] [2, 1, 0, 3]

theorem cube_isSite {names : List String} (hn : names.Nodup) {d : List ℚ} (hd : d.length = 2 ^ names.length)
    (hm : ∀ n ∈ names, ∃ x, n = sides x) : IsSite (ν := String) id sides (cube names d)
      (if "left" ∈ names then some 2 else none) (if "right" ∈ names then some 2 else none)
      (if "up" ∈ names then some 2 else none) (if "down" ∈ names then some 2 else none) := by
  obtain ⟨h1, h2⟩ := cube_edges hn hd
  refine ⟨h1, h2 _, h2 _, h2 _, h2 _, fun n h => hm n ?_⟩
  by_contra hn
  rw [h2, if_neg hn] at h
  exact h rfl

theorem sides_mem : ∀ n ∈ ["up", "down", "left", "right"], ∃ x, n = sides x := by
  intro n hn
  simp only [List.mem_cons, List.not_mem_nil, or_false] at hn
  rcases hn with rfl | rfl | rfl | rfl
  exacts [⟨.up, rfl⟩, ⟨.down, rfl⟩, ⟨.left, rfl⟩, ⟨.right, rfl⟩]

theorem gridSite0_ok : IsGrid (ν := String) id 2 gridSite0 (fun _ j => newBond 2 2 j) fun i _ => newBond 2 2 i := by
  refine ⟨fun i hi => ⟨rfl, rfl, fun j hj => ?_⟩, fun _ => rfl, fun _ => rfl⟩
  interval_cases i <;> interval_cases j
  · exact cube_isSite (names := ["right", "down"]) (by decide) rfl fun n hn => sides_mem n (by revert n; decide)
  · exact cube_isSite (names := ["down", "left"]) (by decide) rfl fun n hn => sides_mem n (by revert n; decide)
  · exact cube_isSite (names := ["up", "right"]) (by decide) rfl fun n hn => sides_mem n (by revert n; decide)
  · exact cube_isSite (names := ["left", "up"]) (by decide) rfl fun n hn => sides_mem n (by revert n; decide)

/-- The hypotheses of `C86_exact`, `C86_contract`, `C86_same` and `C86_contract_cut`, and what is calculated. -/
example : GridEnvOk gridEnv0 sides ∧
    IsGrid gridEnv0.nm 2 gridSite0 (fun _ j => newBond 2 2 j) (fun i _ => newBond 2 2 i) ∧
    gridValue gridEnv0.nm 2 (fun _ j => newBond 2 2 j) (fun i _ => newBond 2 2 i) gridSite0 = 51 ∧
    getExact gridEnv0 2 gridSite0 = .ok 51 ∧ contractLines gridEnv0 2 gridSite0 (2 ^ 64 - 1) = .ok 51 ∧
    contractLines gridEnv0 2 gridSite0 1 = .ok 51 :=
  ⟨gridEnv0_ok, gridSite0_ok, by decide +kernel, by decide +kernel, by decide +kernel, by decide +kernel⟩

/-- The cut is not zero: with zero an edge has no index and the program reads an element which is not there. -/
example : contractLines gridEnv0 2 gridSite0 0 = .ub := by decide +kernel

/-- The first rows of a lattice of three. -/
def gridRow0 : ℕ → Tensor String NoSymmetry ℚ
  | 0 => cube ["right", "down"] [1, 2, 3, 4]
  | _ => cube ["down", "left"] [1, 0, 2, 1]

def gridRow1 : ℕ → Tensor String NoSymmetry ℚ
  | 0 => cube ["up", "right", "down"] [0, 1, 1, 1, 2, 0, 1, 3]
  | _ => cube ["left", "up", "down"] [2, 1, 0, 3, 1, 1, 0, 2]

theorem gridRows_ok : IsRow (ν := String) id sides 2 gridRow0 (newBond 2 2) (fun _ => none) (fun _ => some 2) ∧
    IsRow (ν := String) id sides 2 gridRow1 (newBond 2 2) (fun _ => some 2) (fun _ => some 2) := by
  refine ⟨⟨rfl, rfl, fun j hj => ?_⟩, ⟨rfl, rfl, fun j hj => ?_⟩⟩
  · interval_cases j
    · exact cube_isSite (names := ["right", "down"]) (by decide) rfl fun n hn => sides_mem n (by revert n; decide)
    · exact cube_isSite (names := ["down", "left"]) (by decide) rfl fun n hn => sides_mem n (by revert n; decide)
  · interval_cases j
    · exact cube_isSite (names := ["up", "right", "down"]) (by decide) rfl
        fun n hn => sides_mem n (by revert n; decide)
    · exact cube_isSite (names := ["left", "up", "down"]) (by decide) rfl
        fun n hn => sides_mem n (by revert n; decide)

/-- What the row calculated stands for, for the indices 0 and 1 below it. -/
def rowCase (cut : ℕ) : Outcome ℚ :=
  (twoLineToOneLine gridEnv0 "up" "down" "left" "right" [gridRow0 0, gridRow0 1] [gridRow1 0, gridRow1 1] cut).bind
    fun l => .ok (rowValue gridEnv0.nm sides 2 (fun j => l.getD j oneTensor) (newBond 2 cut) (fun _ => 0) id)

/-- The hypotheses of `C86_two_lines` and `C86_two_lines_cut`.  With the cut two nothing is removed, with the cut one
the result differs. -/
example : IsRow gridEnv0.nm sides 2 gridRow0 (newBond 2 2) (fun _ => none) (fun _ => some 2) ∧
    IsRow gridEnv0.nm sides 2 gridRow1 (newBond 2 2) (fun _ => some 2) (fun _ => some 2) ∧
    (∑ z ∈ Fintype.piFinset fun _ : Fin 2 => Finset.range 2,
      rowValue gridEnv0.nm sides 2 gridRow0 (newBond 2 2) (fun _ => 0) (allIdx z) *
        rowValue gridEnv0.nm sides 2 gridRow1 (newBond 2 2) (allIdx z) id) = 81 ∧
    rowCase 2 = .ok 81 ∧ rowCase 1 = .ok 0 :=
  ⟨gridRows_ok.1, gridRows_ok.2, by decide +kernel, by decide +kernel, by decide +kernel⟩

/-- The hypothesis of `C86_length`. -/
example : [gridRow0 0, gridRow0 1].length ≠ [gridRow1 0].length := by decide

/-- The constructor, with the numbers 1, 2, ... as elements: a corner, a side and the middle of a lattice of three
rows, and the elements of the last site. -/
example : (newLattice gridEnv0 (fun k => (k, k + 1)) 1 3 2).bind (fun l => .ok (l.map fun p => p.2.names.length)) =
      .ok [2, 3, 2, 3, 4, 3, 2, 3, 2] ∧
    (newLattice gridEnv0 (fun k => (k, k + 1)) 1 2 2).bind (fun l => .ok (l.map fun p => (p.1, allElems p.2))) =
      .ok [((0, 0), [1, 2, 3, 4]), ((0, 1), [5, 6, 7, 8]), ((1, 0), [9, 10, 11, 12]), ((1, 1), [13, 14, 15, 16])] := by
  decide +kernel

end TAT.Grid
