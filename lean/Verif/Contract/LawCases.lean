import Verif.Contract.LawProps
import Verif.Contract.FermiProps

/-!
Cases for the laws of contraction (C73): inputs that meet the hypotheses of the theorems in
`LawProps.lean`, and inputs for which one of two contractions throws.
-/

namespace TAT

/-! ## cases -/

/-- Three fermionic tensors in a chain. -/
def lawA : Tensor ℕ FermiSymmetry ℤ :=
  ⟨[1, 0], [⟨false, [(⟨-1⟩, 1), (⟨0⟩, 1)]⟩, ⟨true, [(⟨0⟩, 1), (⟨1⟩, 2)]⟩],
    [([⟨-1⟩, ⟨1⟩], [2, 3]), ([⟨0⟩, ⟨0⟩], [5])]⟩

def lawB : Tensor ℕ FermiSymmetry ℤ :=
  ⟨[3, 2, 8], [⟨true, [(⟨-1⟩, 1), (⟨0⟩, 1)]⟩, ⟨true, [(⟨0⟩, 1), (⟨1⟩, 1)]⟩,
      ⟨false, [(⟨-1⟩, 1), (⟨0⟩, 1), (⟨1⟩, 1)]⟩],
    [([⟨-1⟩, ⟨0⟩, ⟨1⟩], [7]), ([⟨-1⟩, ⟨1⟩, ⟨0⟩], [11]), ([⟨0⟩, ⟨0⟩, ⟨0⟩], [13]), ([⟨0⟩, ⟨1⟩, ⟨-1⟩], [17])]⟩

def lawC : Tensor ℕ FermiSymmetry ℤ :=
  ⟨[5, 4], [⟨false, [(⟨-1⟩, 1), (⟨0⟩, 1)]⟩, ⟨false, [(⟨0⟩, 1), (⟨1⟩, 1)]⟩],
    [([⟨-1⟩, ⟨1⟩], [19]), ([⟨0⟩, ⟨0⟩], [23])]⟩

theorem lawA_wf : WF lawA := by
  refine ⟨by decide, by decide, by decide, by decide +kernel, by decide +kernel⟩

theorem lawB_wf : WF lawB := by
  refine ⟨by decide, by decide, by decide, by decide +kernel, by decide +kernel⟩

theorem lawC_wf : WF lawC := by
  refine ⟨by decide, by decide, by decide, by decide +kernel, by decide +kernel⟩

/-- The hypotheses of `C73_chain`: all four contractions succeed with blocks, and the results agree. -/
example : WF lawA ∧ WF lawB ∧ WF lawC ∧
    (match contract ce0 names0 lawA lawB [(1, 2)], contract ce0 names0 lawB lawC [(3, 4)] with
      | .ok ab, .ok bc =>
        match contract ce0 names0 ab lawC [(3, 4)], contract ce0 names0 lawA bc [(1, 2)] with
          | .ok l, .ok r => decide (ab.core.blocks ≠ [] ∧ bc.core.blocks ≠ [] ∧ l.core.blocks.length = 4 ∧ l = r)
          | _, _ => false
      | _, _ => false) = true :=
  ⟨lawA_wf, lawB_wf, lawC_wf, by decide +kernel⟩

/-- The hypotheses of `C73_exchange`, and a sign: the edges 0 and 3 are odd and change places. -/
example : knownPairs lawA lawB [(1, 2)] = [(1, 2)] ∧ knownPairs lawB lawA [(2, 1)] = [(2, 1)] ∧
    Sound lawA lawB [(1, 2)] ∧ Sound lawB lawA [(2, 1)] ∧
    (match contract ce0 names0 lawA lawB [(1, 2)], contract ce0 names0 lawB lawA [(2, 1)] with
      | .ok r, .ok r' => decide (r.names = [0, 3, 8] ∧ r'.names = [3, 8, 0] ∧
          amp r (at0 [(0, ⟨1⟩, 1), (3, ⟨-1⟩, 0)]) ≠ 0 ∧
          amp r' (at0 [(0, ⟨1⟩, 1), (3, ⟨-1⟩, 0)]) = - amp r (at0 [(0, ⟨1⟩, 1), (3, ⟨-1⟩, 0)]))
      | _, _ => false) = true :=
  ⟨by decide, by decide, sound_single lawA_wf lawB_wf (by decide) (by decide) (by decide) (by decide),
    sound_single lawB_wf lawA_wf (by decide) (by decide) (by decide) (by decide), by decide +kernel⟩

/-- The hypotheses of `C73_transpose`, and a sign. -/
example : lawA.names.Perm [0, 1] ∧ lawB.names.Perm [8, 2, 3] ∧
    (match transpose env0 lawA [0, 1], transpose env0 lawB [8, 2, 3] with
      | .ok u1, .ok u2 => match contract ce0 names0 lawA lawB [(1, 2)], contract ce0 names0 u1 u2 [(1, 2)] with
        | .ok r, .ok r' => decide (u1.core.blocks ≠ [] ∧ u2.core.blocks ≠ [] ∧ r.names = [0, 3, 8] ∧
            r'.names = [0, 8, 3] ∧ amp r (at0 [(3, ⟨-1⟩, 0), (8, ⟨1⟩, 0)]) ≠ 0 ∧
            amp r' (at0 [(3, ⟨-1⟩, 0), (8, ⟨1⟩, 0)]) = - amp r (at0 [(3, ⟨-1⟩, 0), (8, ⟨1⟩, 0)]))
        | _, _ => false
      | _, _ => false) = true :=
  ⟨by decide, by decide, by decide +kernel⟩

/-- The hypotheses of `C73_reverse`; the arguments do change. -/
example :
    (match reverseEdge env0 lawA [1] true [], reverseEdge env0 lawB [2] false [] with
      | .ok u1, .ok u2 => match contract ce0 names0 lawA lawB [(1, 2)], contract ce0 names0 u1 u2 [(1, 2)] with
        | .ok r, .ok r' => decide (u1.core.blocks ≠ lawA.core.blocks ∧ u2.core.edges ≠ lawB.core.edges ∧
            r.core.blocks ≠ [] ∧ r = r')
        | _, _ => false
      | _, _ => false) = true := by
  decide +kernel

/-- Tensors with two edges between the first and the second. -/
def orderA : Tensor ℕ U1Symmetry ℤ :=
  ⟨[0, 1, 2], [⟨false, [(⟨-3⟩, 1), (⟨0⟩, 1)]⟩, ⟨false, [(⟨0⟩, 1), (⟨1⟩, 1)]⟩, ⟨false, [(⟨0⟩, 1), (⟨2⟩, 1)]⟩],
    [([⟨-3⟩, ⟨1⟩, ⟨2⟩], [5]), ([⟨0⟩, ⟨0⟩, ⟨0⟩], [3])]⟩

def orderB : Tensor ℕ U1Symmetry ℤ :=
  ⟨[3, 4, 5], [⟨false, [(⟨-1⟩, 1), (⟨0⟩, 1)]⟩, ⟨false, [(⟨-2⟩, 1), (⟨0⟩, 1)]⟩,
      ⟨false, [(⟨0⟩, 1), (⟨1⟩, 1), (⟨2⟩, 1), (⟨3⟩, 1)]⟩],
    [([⟨-1⟩, ⟨-2⟩, ⟨3⟩], [2]), ([⟨-1⟩, ⟨0⟩, ⟨1⟩], [7]), ([⟨0⟩, ⟨-2⟩, ⟨2⟩], [11]), ([⟨0⟩, ⟨0⟩, ⟨0⟩], [13])]⟩

def orderC : Tensor ℕ U1Symmetry ℤ :=
  ⟨[6, 7], [⟨false, [(⟨-3⟩, 1), (⟨-2⟩, 1), (⟨-1⟩, 1), (⟨0⟩, 1)]⟩,
      ⟨false, [(⟨0⟩, 1), (⟨1⟩, 1), (⟨2⟩, 1), (⟨3⟩, 1)]⟩],
    [([⟨-3⟩, ⟨3⟩], [2]), ([⟨-2⟩, ⟨2⟩], [3]), ([⟨-1⟩, ⟨1⟩], [5]), ([⟨0⟩, ⟨0⟩], [7])]⟩

theorem orderA_wf : WF orderA := by
  refine ⟨by decide, by decide, by decide, by decide +kernel, by decide +kernel⟩

theorem orderB_wf : WF orderB := by
  refine ⟨by decide, by decide, by decide, by decide +kernel, by decide +kernel⟩

theorem orderC_wf : WF orderC := by
  refine ⟨by decide, by decide, by decide, by decide +kernel, by decide +kernel⟩

/-- **C73**: with two edges between neighbours one way to contract a chain may throw although the
other succeeds, even if all edges have opposite symmetries: the first contraction removes symmetries
from an edge which the third tensor still has. -/
theorem C73_order_may_throw :
    WF orderA ∧ WF orderB ∧ WF orderC ∧ Matched orderA orderB [(1, 3), (2, 4)] ∧
    Matched orderB orderC [(5, 6)] ∧
    ((contract ce0 names0 orderA orderB [(1, 3), (2, 4)]).bind fun r =>
      contract ce0 names0 r orderC [(5, 6)]) = .error "map::at" ∧
    ((contract ce0 names0 orderB orderC [(5, 6)]).bind fun r =>
      contract ce0 names0 orderA r [(1, 3), (2, 4)]) =
      .ok ⟨[0, 7], [⟨false, [(⟨-3⟩, 1), (⟨0⟩, 1)]⟩, ⟨false, [(⟨0⟩, 1), (⟨3⟩, 1)]⟩],
        [([⟨-3⟩, ⟨3⟩], [5 * 2 * 2]), ([⟨0⟩, ⟨0⟩], [3 * 13 * 7])]⟩ := by
  refine ⟨orderA_wf, orderB_wf, orderC_wf, ⟨fun h => absurd h (by decide), fun c hc => ?_⟩,
    ⟨fun h => absurd h (by decide), fun c hc => ?_⟩, by decide +kernel, by decide +kernel⟩
  · simp only [List.mem_cons, List.not_mem_nil, or_false] at hc
    rcases hc with rfl | rfl <;> exact maps_of_keys (by decide +kernel) (by decide +kernel)
  · rw [List.mem_singleton] at hc
    subst hc
    exact maps_of_keys (by decide +kernel) (by decide +kernel)

/-- **C73**: for fermions a contraction may throw although it succeeds with the arguments exchanged. -/
theorem C73_exchange_may_throw :
    let a : Tensor ℕ FermiSymmetry ℤ :=
      ⟨[0, 1], [⟨false, [(⟨0⟩, 1), (⟨1⟩, 1)]⟩, ⟨false, [(⟨-1⟩, 1), (⟨0⟩, 1)]⟩],
        [([⟨0⟩, ⟨0⟩], [2]), ([⟨1⟩, ⟨-1⟩], [5])]⟩
    let b : Tensor ℕ FermiSymmetry ℤ :=
      ⟨[2, 3], [⟨true, [(⟨0⟩, 1)]⟩, ⟨false, [(⟨0⟩, 1)]⟩], [([⟨0⟩, ⟨0⟩], [3])]⟩
    contract ce0 names0 a b [(1, 2)] =
      .ok ⟨[0, 3], [⟨false, [(⟨0⟩, 1)]⟩, ⟨false, [(⟨0⟩, 1)]⟩], [([⟨0⟩, ⟨0⟩], [6])]⟩ ∧
    contract ce0 names0 b a [(2, 1)] = .error "map::at" := by
  decide +kernel

/-- **C73**: whether a second contraction throws may depend on uninitialised memory.  If no edge of a
group which is merged has a nonzero symmetry, the arrow of the merged edge is not set
(edge_operator.hpp 402, 458); the edges of the result get it and the next contraction compares it. -/
theorem C73_arrow_uninitialised :
    let a : Tensor ℕ FermiSymmetry ℤ :=
      ⟨[0, 1, 2], [⟨false, [(⟨0⟩, 1)]⟩, ⟨false, [(⟨0⟩, 1)]⟩, ⟨false, [(⟨0⟩, 1)]⟩],
        [([⟨0⟩, ⟨0⟩, ⟨0⟩], [2])]⟩
    let b : Tensor ℕ FermiSymmetry ℤ :=
      ⟨[3, 4], [⟨true, [(⟨0⟩, 1)]⟩, ⟨false, [(⟨0⟩, 1)]⟩], [([⟨0⟩, ⟨0⟩], [3])]⟩
    let c : Tensor ℕ FermiSymmetry ℤ :=
      ⟨[5, 6], [⟨true, [(⟨0⟩, 1)]⟩, ⟨false, [(⟨0⟩, 1)]⟩], [([⟨0⟩, ⟨0⟩], [5])]⟩
    let ce1 : ContractEnv FermiSymmetry ℤ := { ce0 with env1 := ⟨⟨8, 32768, 1, 1⟩, fun _ _ => 0, fun _ => true⟩ }
    ((contract ce0 names0 a b [(2, 3)]).bind fun r => contract ce0 names0 r c [(0, 5)]) =
      .ok ⟨[1, 4, 6], [⟨false, [(⟨0⟩, 1)]⟩, ⟨false, [(⟨0⟩, 1)]⟩, ⟨false, [(⟨0⟩, 1)]⟩],
        [([⟨0⟩, ⟨0⟩, ⟨0⟩], [30])]⟩ ∧
    ((contract ce1 names0 a b [(2, 3)]).bind fun r => contract ce1 names0 r c [(0, 5)]).isError = true := by
  decide +kernel

/-- The hypotheses of `C73_chain_bosons` for three tensors. -/
example : (∀ s, OMap.find? (mapOf orderB 5) s = OMap.find? (mapOf orderC 6) (-s)) ∧
    (∀ s, OMap.find? (mapOf orderC 7) s =
      OMap.find? (mapOf (edgeRename orderC [(6, 8), (7, 9)]) 8) (-s)) ∧
    (others orderB.names [5] ++ others orderC.names [6]).Nodup := by
  refine ⟨maps_of_keys (by decide +kernel) (by decide +kernel),
    maps_of_keys (by decide +kernel) (by decide +kernel), by decide⟩

/-- The hypotheses of `C73_nosym_associative` and `C73_nosym_exchange`. -/
example :
    let a : Tensor ℕ NoSymmetry ℤ := ⟨[0, 1, 2], [⟨false, [(⟨⟩, 1)]⟩, ⟨false, [(⟨⟩, 2)]⟩, ⟨false, [(⟨⟩, 2)]⟩],
      [([⟨⟩, ⟨⟩, ⟨⟩], [1, 2, 3, 4])]⟩
    let b : Tensor ℕ NoSymmetry ℤ := ⟨[3, 4, 5], [⟨false, [(⟨⟩, 2)]⟩, ⟨false, [(⟨⟩, 2)]⟩, ⟨false, [(⟨⟩, 3)]⟩],
      [([⟨⟩, ⟨⟩, ⟨⟩], [1, 2, 3, 4, 5, 6, 7, 8, 9, 10, 11, 12])]⟩
    let c : Tensor ℕ NoSymmetry ℤ := ⟨[7, 6], [⟨false, [(⟨⟩, 2)]⟩, ⟨false, [(⟨⟩, 3)]⟩],
      [([⟨⟩, ⟨⟩], [1, 0, 2, 0, 1, 3])]⟩
    WF a ∧ WF b ∧ WF c ∧ (∀ x ∈ [(1, 4), (2, 3)], mapOf a x.1 = mapOf b x.2) ∧
    (∀ x ∈ [(5, 6)], mapOf b x.1 = mapOf c x.2) ∧
    ((contract ce0 names0 a b [(1, 4), (2, 3)]).bind fun r => contract ce0 names0 r c [(5, 6)]) =
      ((contract ce0 names0 b c [(5, 6)]).bind fun r => contract ce0 names0 a r [(1, 4), (2, 3)]) ∧
    ((contract ce0 names0 b c [(5, 6)]).bind fun r => contract ce0 names0 a r [(1, 4), (2, 3)]) =
      .ok ⟨[0, 7], [⟨false, [(⟨⟩, 1)]⟩, ⟨false, [(⟨⟩, 2)]⟩], [([⟨⟩, ⟨⟩], [241, 338])]⟩ := by
  refine ⟨⟨by decide, by decide, by decide, by decide +kernel, by decide +kernel⟩,
    ⟨by decide, by decide, by decide, by decide +kernel, by decide +kernel⟩,
    ⟨by decide, by decide, by decide, by decide +kernel, by decide +kernel⟩, by decide, by decide,
    by decide +kernel, by decide +kernel⟩

end TAT
