import Verif.Torus.LinesProps
import Verif.Torus.Cases

/-!
# C90 for lattices of one and two rows and columns
-/

namespace TAT.Torus

open TAT.Grid (IsSite sides GridEnvOk gridEnv0 gridEnv0_ok)

def traceEnv0 : TraceEnv String ℚ :=
  ⟨⟨⟨8, 32768, 1, 1⟩, fun _ _ => 555, fun _ => true⟩, ⟨⟨8, 32768, 1, 1⟩, fun _ _ => 444, fun _ => false⟩, fun _ _ => 77, ⟨",Trace_1", ",Trace_2", ",Trace_3"⟩⟩

theorem traceEnv0_ok : TraceEnvOk traceEnv0 := ⟨by decide +kernel⟩

theorem lines_inside : ∀ n ∈ [",SVD_U", ",SVD_V"], ∀ x : Side, n ≠ sides x ++ "1" ∧ n ≠ sides x ++ "2" := by
  decide +kernel

/-- What is assumed holds for the names of the program. -/
theorem linesEnv0_ok : LinesEnvOk gridEnv0 where
  grid := gridEnv0_ok
  one := fun x => ⟨(lines_inside ",SVD_U" (by simp) x).1, (lines_inside ",SVD_V" (by simp) x).1⟩
  two := fun x => ⟨(lines_inside ",SVD_U" (by simp) x).2, (lines_inside ",SVD_V" (by simp) x).2⟩

/-- Edges of two dimensions: those of the rows have two indices, those of the columns one. -/
def torusSite3 (i j : ℕ) : Tensor String NoSymmetry ℚ :=
  ⟨["up", "left", "right", "down"],
    ⟨[⟨false, [(0, 1)]⟩, ⟨false, [(0, 2)]⟩, ⟨false, [(0, 2)]⟩, ⟨false, [(0, 1)]⟩],
      [([0, 0, 0, 0], [1, (i : ℚ) + 2, j, 3])]⟩⟩

theorem torusSite3_ok : IsTorus (ν := String) id 2 torusSite3 (fun _ _ => 2) fun _ _ => 1 := by
  refine ⟨fun i _ j _ => ?_, fun _ _ => rfl, fun _ _ => rfl⟩
  obtain ⟨h1, h2⟩ := dense_plain (t := torusSite3 i j) (dims := [1, 2, 2, 1])
    (by decide : ["up", "left", "right", "down"].Nodup) rfl rfl rfl (by decide)
  refine ⟨h1, h2 1 (show 1 < 4 by decide), h2 2 (show 2 < 4 by decide), h2 0 (show 0 < 4 by decide),
    h2 3 (show 3 < 4 by decide), fun n hn => Grid.sides_mem n ?_⟩
  have hm : n ∈ ["up", "left", "right", "down"] := by
    by_contra h
    exact hn (leg_eq_none.2 h)
  simp only [List.mem_cons, List.not_mem_nil, or_false] at hm ⊢
  tauto

/-- The hypotheses of `C90_contract`, `C90_contract_cut` and `C90_same`, and what is calculated.  A smaller cut gives
another number. -/
example : LinesEnvOk gridEnv0 ∧ TraceEnvOk traceEnv0 ∧
    IsTorus gridEnv0.nm 2 torusSite3 (fun _ _ => 2) (fun _ _ => 1) ∧
    torusValue gridEnv0.nm 2 (fun _ _ => 2) (fun _ _ => 1) torusSite3 = 156 ∧
    contractLines gridEnv0 traceEnv0 2 torusSite3 (2 ^ 64 - 1) = .ok 156 ∧
    contractLines gridEnv0 traceEnv0 2 torusSite3 3 = .ok 75 :=
  ⟨linesEnv0_ok, traceEnv0_ok, torusSite3_ok, by decide +kernel, by decide +kernel, by decide +kernel⟩

/-- The edges between the sites after cuts, as in `C90_contract_cut`: without cut there are four indices. -/
example : ([3, 1, 2 ^ 64 - 1].map fun cut => (lines gridEnv0 2 torusSite3 cut 1).bind fun l =>
    .ok (l.map fun t => (legDim t "left", legDim t "right"))) = [.ok [(3, 3), (3, 3)], .ok [(1, 1), (1, 1)],
      .ok [(4, 4), (4, 4)]] := by decide +kernel

/-- The cut is not zero: with zero an edge has no index and the program reads an element which is not there. -/
example : contractLines gridEnv0 traceEnv0 2 torusSite3 0 = .ub := by decide +kernel

/-- The hypotheses of `C90_one`.  With `get_exact` the same lattice is an error (`C88_single`). -/
example : IsTorus gridEnv0.nm 1 torusSite0 (fun _ _ => 2) (fun _ _ => 2) ∧
    torusValue gridEnv0.nm 1 (fun _ _ => 2) (fun _ _ => 2) torusSite0 = 5 ∧
    contractLines gridEnv0 traceEnv0 1 torusSite0 0 = .ok 5 :=
  ⟨torusSite0_ok (by decide), by decide +kernel, by decide +kernel⟩

/-- What the line calculated stands for, for given indices above and below. -/
def ringCase (cut : ℕ) (z y : Fin 2 → ℕ) : Outcome ℚ :=
  ((Grid.twoLineToOneLine gridEnv0 "up" "down" "left" "right" [torusSite3 0 0, torusSite3 0 1]
    [torusSite3 1 0, torusSite3 1 1] cut).bind fun l => closeLine gridEnv0 cut l).bind fun l =>
    .ok (ringValue gridEnv0.nm 2 (fun j => if j = 1 then legDim (l.getD 0 oneTensor) "right" else
      legDim (l.getD 0 oneTensor) "left") (fun j => l.getD j oneTensor) z y)

/-- The hypotheses of `C90_step`, and what is calculated. -/
example : IsRing gridEnv0.nm 2 (torusSite3 0) (fun _ => 2) (fun _ => 1) (fun _ => 1) ∧
    IsRing gridEnv0.nm 2 (torusSite3 1) (fun _ => 2) (fun _ => 1) (fun _ => 1) ∧
    (∑ q ∈ Fintype.piFinset fun _ : Fin 2 => Finset.range 1,
      ringValue gridEnv0.nm 2 (fun _ => 2) (torusSite3 0) ![0, 0] q *
        ringValue gridEnv0.nm 2 (fun _ => 2) (torusSite3 1) q ![0, 0]) = 156 ∧
    ringCase 64 ![0, 0] ![0, 0] = .ok 156 :=
  ⟨⟨fun j hj => torusSite3_ok.site 0 (by decide) j hj, rfl⟩,
    ⟨fun j hj => torusSite3_ok.site 1 (by decide) j hj, rfl⟩, by decide +kernel, by decide +kernel⟩

/-- The hypotheses of `C90_ring`, and what is calculated. -/
example : IsRing gridEnv0.nm 2 (torusSite0 0) (fun _ => 2) (fun _ => 2) (fun _ => 2) ∧
    (∑ q ∈ Fintype.piFinset fun _ : Fin 2 => Finset.range 2,
      ringValue gridEnv0.nm 2 (fun _ => 2) (torusSite0 0) q q) = 14 ∧
    ((joinLine gridEnv0 traceEnv0 [torusSite0 0 0, torusSite0 0 1] oneTensor).bind fun r =>
      (traced gridEnv0 traceEnv0 r [("left", "right")]).bind onlyElement) = .ok 14 :=
  ⟨⟨fun j hj => (torusSite0_ok le_rfl).site 0 (by decide) j hj, rfl⟩, by decide +kernel, by decide +kernel⟩

end TAT.Torus
