import Verif.Torus.Single
import Verif.Grid.Cases

/-!
# C88 for lattices of one and two rows and columns
-/

namespace TAT.Torus

open TAT.Grid (IsSite sides GridEnvOk gridEnv0 gridEnv0_ok cube_isSite sides_mem)

/-- Four sites, with different orders of the edges. -/
def torusSite0 : ℕ → ℕ → Tensor String NoSymmetry ℚ
  | 0, 0 => cube ["left", "right", "up", "down"] [1, 2, 0, 1, 3, 1, 1, 0, 0, 1, 2, 1, 1, 0, 1, 2]
  | 0, _ => cube ["up", "left", "down", "right"] [0, 1, 1, 2, 1, 0, 1, 1, 2, 1, 0, 1, 1, 0, 0, 3]
  | _, 0 => cube ["down", "up", "right", "left"] [1, 1, 0, 2, 0, 1, 1, 0, 1, 2, 1, 0, 0, 1, 0, 1]
  | _, _ => cube ["right", "down", "left", "up"] [2, 0, 1, 0, 1, 1, 0, 1, 0, 2, 1, 1, 0, 1, 1, 0]

theorem torusSite0_ok {L : ℕ} (hL : L ≤ 2) :
    IsTorus (ν := String) id L torusSite0 (fun _ _ => 2) fun _ _ => 2 := by
  refine ⟨fun i hi j hj => ?_, fun _ _ => rfl, fun _ _ => rfl⟩
  have hi' : i < 2 := by omega
  have hj' : j < 2 := by omega
  clear hi hj
  interval_cases i <;> interval_cases j
  · exact cube_isSite (names := ["left", "right", "up", "down"]) (by decide) rfl
      fun n hn => sides_mem n (by revert n; decide)
  · exact cube_isSite (names := ["up", "left", "down", "right"]) (by decide) rfl
      fun n hn => sides_mem n (by revert n; decide)
  · exact cube_isSite (names := ["down", "up", "right", "left"]) (by decide) rfl
      fun n hn => sides_mem n (by revert n; decide)
  · exact cube_isSite (names := ["right", "down", "left", "up"]) (by decide) rfl
      fun n hn => sides_mem n (by revert n; decide)

/-- The hypotheses of `C88_exact_partial`, and what is calculated. -/
example : GridEnvOk gridEnv0 sides ∧ IsTorus gridEnv0.nm 2 torusSite0 (fun _ _ => 2) (fun _ _ => 2) ∧
    torusValue gridEnv0.nm 2 (fun _ _ => 2) (fun _ _ => 2) torusSite0 = 149 ∧
    getExact gridEnv0 2 torusSite0 = .ok 149 :=
  ⟨gridEnv0_ok, torusSite0_ok le_rfl, by decide +kernel, by decide +kernel⟩

/-- **C88**: a lattice with one site is on a torus like any other, but its edges do not meet in `contract`, which
joins edges of two tensors only.  The result keeps all four edges and is not a number. -/
theorem C88_single : GridEnvOk gridEnv0 sides ∧ IsTorus gridEnv0.nm 1 torusSite0 (fun _ _ => 2) (fun _ _ => 2) ∧
    torusValue gridEnv0.nm 1 (fun _ _ => 2) (fun _ _ => 2) torusSite0 = 5 ∧
    getExact gridEnv0 1 torusSite0 =
      .error "Try to get the only element of the tensor which contains more than one element" :=
  ⟨gridEnv0_ok, torusSite0_ok (by decide), by decide +kernel, by decide +kernel⟩

/-- One site with edges of dimension one. -/
def torusSite2 (_ _ : ℕ) : Tensor String NoSymmetry ℚ :=
  ⟨["left", "right", "up", "down"],
    ⟨[⟨false, [(0, 1)]⟩, ⟨false, [(0, 1)]⟩, ⟨false, [(0, 1)]⟩, ⟨false, [(0, 1)]⟩], [([0, 0, 0, 0], [7])]⟩⟩

theorem torusSite2_ok (L : ℕ) : IsTorus (ν := String) id L torusSite2 (fun _ _ => 1) fun _ _ => 1 := by
  refine ⟨fun i _ j _ => ?_, fun _ _ => rfl, fun _ _ => rfl⟩
  obtain ⟨h1, h2⟩ := dense_plain (t := torusSite2 i j) (dims := [1, 1, 1, 1])
    (by decide : ["left", "right", "up", "down"].Nodup) rfl rfl rfl (by decide)
  refine ⟨h1, h2 0 (show 0 < 4 by decide), h2 1 (show 1 < 4 by decide), h2 2 (show 2 < 4 by decide),
    h2 3 (show 3 < 4 by decide), fun n hn => sides_mem n ?_⟩
  have hm : n ∈ ["left", "right", "up", "down"] := by
    by_contra h
    exact hn (leg_eq_none.2 h)
  simp only [List.mem_cons, List.not_mem_nil, or_false] at hm ⊢
  tauto

example : IsTorus gridEnv0.nm 1 torusSite2 (fun _ _ => 1) (fun _ _ => 1) ∧ getExact gridEnv0 1 torusSite2 = .ok 7 :=
  ⟨torusSite2_ok 1, by decide +kernel⟩

/-- Edges of two dimensions: those of the rows have one index, those of the columns two. -/
def torusSite1 (i j : ℕ) : Tensor String NoSymmetry ℚ :=
  ⟨["left", "right", "up", "down"],
    ⟨[⟨false, [(0, 1)]⟩, ⟨false, [(0, 1)]⟩, ⟨false, [(0, 2)]⟩, ⟨false, [(0, 2)]⟩],
      [([0, 0, 0, 0], [1, (i : ℚ) + 2, j, 3])]⟩⟩

theorem torusSite1_ok : IsTorus (ν := String) id 2 torusSite1 (fun _ _ => 1) fun _ _ => 2 := by
  refine ⟨fun i _ j _ => ?_, fun _ _ => rfl, fun _ _ => rfl⟩
  obtain ⟨h1, h2⟩ := dense_plain (t := torusSite1 i j) (dims := [1, 1, 2, 2])
    (by decide : ["left", "right", "up", "down"].Nodup) rfl rfl rfl (by decide)
  refine ⟨h1, h2 0 (show 0 < 4 by decide), h2 1 (show 1 < 4 by decide), h2 2 (show 2 < 4 by decide), h2 3 (show 3 < 4 by decide), fun n hn => sides_mem n ?_⟩
  have hm : n ∈ ["left", "right", "up", "down"] := by
    by_contra h
    exact hn (leg_eq_none.2 h)
  simp only [List.mem_cons, List.not_mem_nil, or_false] at hm ⊢
  tauto

example : IsTorus gridEnv0.nm 2 torusSite1 (fun _ _ => 1) (fun _ _ => 2) ∧
    torusValue gridEnv0.nm 2 (fun _ _ => 1) (fun _ _ => 2) torusSite1 = 150 ∧
    getExact gridEnv0 2 torusSite1 = .ok 150 :=
  ⟨torusSite1_ok, by decide +kernel, by decide +kernel⟩

/-- The constructor with a generator which counts. -/
example : 0 < 2 ∧ ∃ site, newLattice gridEnv0 (fun s : ℕ => ((s : ℚ), s + 1)) 3 2 2 = .ok site ∧
    site.map (fun p => (p.1, p.2.names, p.2.core.blocks.map fun b => b.2.take 3)) =
      [((0, 0), ["left", "right", "up", "down"], [[3, 4, 5]]), ((0, 1), ["left", "right", "up", "down"], [[19, 20, 21]]),
       ((1, 0), ["left", "right", "up", "down"], [[35, 36, 37]]), ((1, 1), ["left", "right", "up", "down"], [[51, 52, 53]])] :=
  ⟨by decide, _, rfl, by decide +kernel⟩

end TAT.Torus
