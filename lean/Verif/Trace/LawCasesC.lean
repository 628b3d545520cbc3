import Verif.Trace.LawCases

/-!
Further cases for the laws of the trace (C74).
-/

namespace TAT

/-- The hypotheses of `C74_trace_of_trace`. -/
example : Traceable sampleTrZ2 [(0, 2)] ∧ Traceable sampleTrZ2 ([(0, 2)] ++ [(3, 1)]) ∧
    Traceable (⟨[1, 3], [⟨false, [(⟨false⟩, 1), (⟨true⟩, 1)]⟩, ⟨false, [(⟨false⟩, 1), (⟨true⟩, 1)]⟩],
      [([⟨false⟩, ⟨false⟩], [7]), ([⟨true⟩, ⟨true⟩], [11])]⟩ : Tensor ℕ Z2Symmetry ℤ) [(3, 1)] ∧
    traceTensor env0 env0 (fun _ _ => 77) trNames0 sampleTrZ2 [(0, 2)] =
      .ok ⟨[1, 3], [⟨false, [(⟨false⟩, 1), (⟨true⟩, 1)]⟩, ⟨false, [(⟨false⟩, 1), (⟨true⟩, 1)]⟩],
        [([⟨false⟩, ⟨false⟩], [7]), ([⟨true⟩, ⟨true⟩], [11])]⟩ ∧
    traceTensor env0 env0 (fun _ _ => 77) trNames0
      (⟨[1, 3], [⟨false, [(⟨false⟩, 1), (⟨true⟩, 1)]⟩, ⟨false, [(⟨false⟩, 1), (⟨true⟩, 1)]⟩],
        [([⟨false⟩, ⟨false⟩], [7]), ([⟨true⟩, ⟨true⟩], [11])]⟩ : Tensor ℕ Z2Symmetry ℤ) [(3, 1)] =
      .ok ⟨[], [], [([], [18])]⟩ ∧
    traceTensor env0 env0 (fun _ _ => 77) trNames0 sampleTrZ2 ([(0, 2)] ++ [(3, 1)]) =
      .ok ⟨[], [], [([], [18])]⟩ := by
  have neg : ∀ s : Z2Symmetry, -s = s := fun ⟨b⟩ => by cases b <;> decide
  refine ⟨⟨by decide, by decide, ⟨fun h => absurd h (by decide), fun c hc => ?_⟩, Or.inr neg⟩,
    ⟨by decide, by decide, ⟨fun h => absurd h (by decide), fun c hc => ?_⟩, Or.inr neg⟩,
    ⟨by decide, by decide, ⟨fun h => absurd h (by decide), fun c hc => ?_⟩, Or.inr neg⟩,
    by decide +kernel, by decide +kernel, by decide +kernel⟩
  · rw [List.mem_singleton] at hc
    subst hc
    exact maps_of_keys (by decide +kernel) (by decide +kernel)
  · simp only [List.cons_append, List.nil_append, List.mem_cons, List.not_mem_nil, or_false] at hc
    rcases hc with rfl | rfl <;> exact maps_of_keys (by decide +kernel) (by decide +kernel)
  · rw [List.mem_singleton] at hc
    subst hc
    exact maps_of_keys (by decide +kernel) (by decide +kernel)

/-- `sampleTrU1` traced over its first pair. -/
def sampleTrU1' : Tensor ℕ U1Symmetry ℤ :=
  ⟨[1, 3], [⟨false, [(⟨-1⟩, 1), (⟨0⟩, 1)]⟩, ⟨false, [(⟨0⟩, 1), (⟨1⟩, 1)]⟩],
    [([⟨-1⟩, ⟨1⟩], [2]), ([⟨0⟩, ⟨0⟩], [2])]⟩

/-- The hypotheses of `C74_one_by_one`: the trace which `C30_two_pairs_wrong` gets wrong in one call,
2 instead of 4, is right one pair after the other. -/
example : TraceChain env0 env0 (fun _ _ => 77) trNames0 sampleTrU1 [(0, 2), (1, 3)]
      ⟨[], [], [([], [4])]⟩ ∧ traced sampleTrU1 [(0, 2), (1, 3)] (at0 []) = 4 := by
  refine ⟨.cons (u := sampleTrU1') ⟨fun h => absurd h (by decide), fun c hc => ?_⟩ (by decide +kernel)
    (.cons ⟨fun h => absurd h (by decide), fun c hc => ?_⟩ (by decide +kernel) (.nil _)),
    by decide +kernel⟩
  · rw [List.mem_singleton] at hc
    subst hc
    exact maps_of_keys (by decide +kernel) (by decide +kernel)
  · rw [List.mem_singleton] at hc
    subst hc
    exact maps_of_keys (by decide +kernel) (by decide +kernel)

/-- A check that a chain over the edges 3 and 7 exists and gives an element. -/
def chainCheck (x : Outcome (Tensor ℕ FermiSymmetry ℤ)) : Bool :=
  match x with
  | .ok r => decide ((edgeOf r 3).arrow ≠ (edgeOf r 7).arrow ∧
      (∀ s ∈ OMap.keys (mapOf r 3), OMap.find? (mapOf r 3) s = OMap.find? (mapOf r 7) (-s)) ∧
      ∀ s ∈ OMap.keys (mapOf r 7), -s ∈ OMap.keys (mapOf r 3)) &&
      (match traceTensor env0 env0 (fun _ _ => 77) trNames0 r [(3, 7)] with
        | .ok u => decide (u.names = [] ∧ elem u (at0 []) = some 29)
        | _ => false)
  | _ => false

theorem of_chainCheck {x : Outcome (Tensor ℕ FermiSymmetry ℤ)} (key : chainCheck x = true) :
    ∃ r u, x = .ok r ∧ TraceChain env0 env0 (fun _ _ => 77) trNames0 r [(3, 7)] u ∧
      u.names = [] ∧ elem u (at0 []) = some 29 := by
  unfold chainCheck at key
  cases x with
  | ok r =>
    dsimp only at key
    rw [Bool.and_eq_true, decide_eq_true_eq] at key
    obtain ⟨⟨k1, k2, k3⟩, k4⟩ := key
    cases hu : traceTensor env0 env0 (fun _ _ => 77) trNames0 r [(3, 7)] with
    | ok u =>
      rw [hu] at k4
      dsimp only at k4
      rw [decide_eq_true_eq] at k4
      refine ⟨r, u, rfl, .cons ⟨fun _ c hc => ?_, fun c hc => ?_⟩ hu (.nil _), k4.1, k4.2⟩
      · rw [List.mem_singleton] at hc
        subst hc
        exact k1
      · rw [List.mem_singleton] at hc
        subst hc
        exact maps_of_keys k2 k3
    | error m => rw [hu] at k4; cases k4
    | ub => rw [hu] at k4; cases k4
  | error m => cases key
  | ub => cases key

/-- Two fermionic tensors which `C28_two_edges_wrong` is about as well: two edges are contracted, both
with two symmetries of the same total. -/
def traceC : Tensor ℕ FermiSymmetry ℤ :=
  ⟨[1, 3], [⟨false, [(⟨0⟩, 1), (⟨1⟩, 1)]⟩, ⟨true, [(⟨-1⟩, 1), (⟨0⟩, 1)]⟩],
    [([⟨0⟩, ⟨0⟩], [2]), ([⟨1⟩, ⟨-1⟩], [3])]⟩

def traceD : Tensor ℕ FermiSymmetry ℤ :=
  ⟨[6, 7], [⟨true, [(⟨-1⟩, 1), (⟨0⟩, 1)]⟩, ⟨false, [(⟨0⟩, 1), (⟨1⟩, 1)]⟩],
    [([⟨-1⟩, ⟨1⟩], [5]), ([⟨0⟩, ⟨0⟩], [7])]⟩

/-- The hypotheses of `C74_contract_one_by_one`: the contraction which one call gets wrong, 31 instead
of 29, is right with one edge contracted and the other traced. -/
example : Pairs traceC.names traceD.names [(1, 6), (3, 7)] ∧
    (∃ r u, contract ce0 names0 traceC traceD [(1, 6)] = .ok r ∧
      TraceChain env0 env0 (fun _ _ => 77) trNames0 r [(3, 7)] u ∧ u.names = [] ∧
      elem u (at0 []) = some 29) ∧
    contracted traceC traceD [(1, 6), (3, 7)] (at0 []) = 29 ∧
    contract ce0 names0 traceC traceD [(1, 6), (3, 7)] = .ok ⟨[], [], [([], [31])]⟩ :=
  ⟨⟨by decide, by decide, by decide, by decide⟩, of_chainCheck (by decide +kernel), by decide +kernel,
    by decide +kernel⟩

/-- The hypotheses of `C74_transpose` with fermions; the arguments differ by signs. -/
example : sampleTr.names.Perm [2, 1, 0] ∧ Traceable sampleTr [(0, 2)] ∧
    Traceable (⟨[2, 1, 0], [⟨true, [(⟨-1⟩, 2), (⟨0⟩, 1)]⟩, ⟨true, [(⟨0⟩, 2)]⟩, ⟨false, [(⟨0⟩, 1), (⟨1⟩, 2)]⟩],
      [([⟨-1⟩, ⟨0⟩, ⟨1⟩], [-1, -5, -3, -7, -2, -6, -4, -8]), ([⟨0⟩, ⟨0⟩, ⟨0⟩], [10, 20])]⟩ :
      Tensor ℕ FermiSymmetry ℤ) [(0, 2)] ∧
    transpose env0 sampleTr [2, 1, 0] =
      .ok ⟨[2, 1, 0], [⟨true, [(⟨-1⟩, 2), (⟨0⟩, 1)]⟩, ⟨true, [(⟨0⟩, 2)]⟩, ⟨false, [(⟨0⟩, 1), (⟨1⟩, 2)]⟩],
        [([⟨-1⟩, ⟨0⟩, ⟨1⟩], [-1, -5, -3, -7, -2, -6, -4, -8]), ([⟨0⟩, ⟨0⟩, ⟨0⟩], [10, 20])]⟩ ∧
    (transpose env0 sampleTr [2, 1, 0]).bind
        (fun u => traceTensor env0 env0 (fun _ _ => 77) trNames0 u [(0, 2)]) =
      traceTensor env0 env0 (fun _ _ => 77) trNames0 sampleTr [(0, 2)] := by
  refine ⟨by decide, traceable_single (by decide) (by decide) (by decide) sampleTr_matched,
    traceable_single (by decide) (by decide) (by decide) ⟨fun _ => by decide, fun c hc => ?_⟩,
    by decide +kernel, by decide +kernel⟩
  rw [List.mem_singleton] at hc
  subst hc
  exact maps_of_keys (by decide +kernel) (by decide +kernel)

end TAT
