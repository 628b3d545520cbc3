import Verif.Trace.LawProps

/-!
Cases for the laws of the trace (C74): inputs that meet the hypotheses of the theorems in
`LawProps.lean`.
-/

namespace TAT

/-- Two fermionic tensors with two edges between them. -/
def traceA : Tensor ℕ FermiSymmetry ℤ :=
  ⟨[0, 1, 2], [⟨false, [(⟨-4⟩, 1), (⟨-3⟩, 1), (⟨-1⟩, 1), (⟨0⟩, 1)]⟩, ⟨false, [(⟨0⟩, 1), (⟨1⟩, 2)]⟩,
      ⟨true, [(⟨0⟩, 1), (⟨3⟩, 1)]⟩],
    [([⟨-4⟩, ⟨1⟩, ⟨3⟩], [2, 3]), ([⟨-3⟩, ⟨0⟩, ⟨3⟩], [5]), ([⟨-1⟩, ⟨1⟩, ⟨0⟩], [7, 11]),
      ([⟨0⟩, ⟨0⟩, ⟨0⟩], [13])]⟩

def traceB : Tensor ℕ FermiSymmetry ℤ :=
  ⟨[3, 4, 5], [⟨true, [(⟨-1⟩, 2), (⟨0⟩, 1)]⟩, ⟨false, [(⟨-3⟩, 1), (⟨0⟩, 1)]⟩,
      ⟨true, [(⟨0⟩, 1), (⟨1⟩, 1), (⟨3⟩, 1), (⟨4⟩, 1)]⟩],
    [([⟨-1⟩, ⟨-3⟩, ⟨4⟩], [1, 4]), ([⟨-1⟩, ⟨0⟩, ⟨1⟩], [6, 8]), ([⟨0⟩, ⟨-3⟩, ⟨3⟩], [9]),
      ([⟨0⟩, ⟨0⟩, ⟨0⟩], [10])]⟩

/-- The contraction of the edges 1 and 3. -/
def traceAB : Tensor ℕ FermiSymmetry ℤ :=
  ⟨[0, 2, 4, 5], [⟨false, [(⟨-4⟩, 1), (⟨-3⟩, 1), (⟨-1⟩, 1), (⟨0⟩, 1)]⟩, ⟨true, [(⟨0⟩, 1), (⟨3⟩, 1)]⟩,
      ⟨false, [(⟨-3⟩, 1), (⟨0⟩, 1)]⟩, ⟨true, [(⟨0⟩, 1), (⟨1⟩, 1), (⟨3⟩, 1), (⟨4⟩, 1)]⟩],
    [([⟨-4⟩, ⟨0⟩, ⟨0⟩, ⟨4⟩], [0]), ([⟨-4⟩, ⟨3⟩, ⟨-3⟩, ⟨4⟩], [14]), ([⟨-4⟩, ⟨3⟩, ⟨0⟩, ⟨1⟩], [36]),
      ([⟨-3⟩, ⟨0⟩, ⟨0⟩, ⟨3⟩], [0]), ([⟨-3⟩, ⟨3⟩, ⟨-3⟩, ⟨3⟩], [45]), ([⟨-3⟩, ⟨3⟩, ⟨0⟩, ⟨0⟩], [50]),
      ([⟨-1⟩, ⟨0⟩, ⟨-3⟩, ⟨4⟩], [-51]), ([⟨-1⟩, ⟨0⟩, ⟨0⟩, ⟨1⟩], [-130]), ([⟨-1⟩, ⟨3⟩, ⟨-3⟩, ⟨1⟩], [0]),
      ([⟨0⟩, ⟨0⟩, ⟨-3⟩, ⟨3⟩], [117]), ([⟨0⟩, ⟨0⟩, ⟨0⟩, ⟨0⟩], [130]), ([⟨0⟩, ⟨3⟩, ⟨-3⟩, ⟨0⟩], [0])]⟩

/-- The contraction of the edges 4 and 2, in the other order. -/
def traceBA : Tensor ℕ FermiSymmetry ℤ :=
  ⟨[3, 5, 0, 1], [⟨true, [(⟨-1⟩, 2), (⟨0⟩, 1)]⟩, ⟨true, [(⟨0⟩, 1), (⟨1⟩, 1), (⟨3⟩, 1), (⟨4⟩, 1)]⟩,
      ⟨false, [(⟨-4⟩, 1), (⟨-3⟩, 1), (⟨-1⟩, 1), (⟨0⟩, 1)]⟩, ⟨false, [(⟨0⟩, 1), (⟨1⟩, 2)]⟩],
    [([⟨-1⟩, ⟨0⟩, ⟨0⟩, ⟨1⟩], [0, 0, 0, 0]), ([⟨-1⟩, ⟨1⟩, ⟨-1⟩, ⟨1⟩], [42, 66, 56, 88]),
      ([⟨-1⟩, ⟨1⟩, ⟨0⟩, ⟨0⟩], [78, 104]), ([⟨-1⟩, ⟨3⟩, ⟨-3⟩, ⟨1⟩], [0, 0, 0, 0]),
      ([⟨-1⟩, ⟨4⟩, ⟨-4⟩, ⟨1⟩], [2, 3, 8, 12]), ([⟨-1⟩, ⟨4⟩, ⟨-3⟩, ⟨0⟩], [5, 20]),
      ([⟨0⟩, ⟨0⟩, ⟨-1⟩, ⟨1⟩], [70, 110]), ([⟨0⟩, ⟨0⟩, ⟨0⟩, ⟨0⟩], [130]), ([⟨0⟩, ⟨1⟩, ⟨-1⟩, ⟨0⟩], [0]),
      ([⟨0⟩, ⟨3⟩, ⟨-4⟩, ⟨1⟩], [-18, -27]), ([⟨0⟩, ⟨3⟩, ⟨-3⟩, ⟨0⟩], [-45]), ([⟨0⟩, ⟨4⟩, ⟨-4⟩, ⟨0⟩], [0])]⟩

theorem traceA_wf : WF traceA := by
  refine ⟨by decide, by decide, by decide, by decide +kernel, by decide +kernel⟩

theorem traceB_wf : WF traceB := by
  refine ⟨by decide, by decide, by decide, by decide +kernel, by decide +kernel⟩

section
variable {ν σ α : Type} [LinearOrder ν] [TatSym σ]

/-- One pair can be traced if the edges have opposite symmetries, and opposite arrows. -/
theorem traceable_single {t : Tensor ν σ α} {a b : ν} (hab : a ≠ b) (ha : a ∈ t.names)
    (hb : b ∈ t.names) (hm : Matched t t [(a, b)]) : Traceable t [(a, b)] :=
  ⟨by simp [pairNames, hab], by
    intro n hn
    simp only [pairNames, List.flatMap_cons, List.flatMap_nil, List.append_nil, List.mem_cons,
      List.not_mem_nil, or_false] at hn
    rcases hn with rfl | rfl
    · exact ha
    · exact hb, hm, Or.inl fun p q _ _ hs n hn => by
      obtain rfl : n = a := by simpa using hn
      simpa using hs⟩

end

theorem traceA_traceB_sound : Sound traceA traceB [(1, 3), (2, 4)] := by
  refine ⟨Or.inl ?_, fun _ => ?_, Or.inl (by decide)⟩
  · intro p q hp hq hs
    have k1 : OMap.keys (mapOf traceA 1) = [⟨0⟩, ⟨1⟩] := by decide
    have k2 : OMap.keys (mapOf traceA 2) = [⟨0⟩, ⟨3⟩] := by decide
    have p1 := (hp (1, 3) (by simp)).1
    have p2 := (hp (2, 4) (by simp)).1
    have q1 := (hq (1, 3) (by simp)).1
    have q2 := (hq (2, 4) (by simp)).1
    dsimp only at p1 p2 q1 q2
    rw [k1] at p1 q1
    rw [k2] at p2 q2
    simp only [List.mem_cons, List.not_mem_nil, or_false] at p1 p2 q1 q2
    simp only [List.map_cons, List.map_nil] at hs
    intro n hn
    simp only [List.mem_cons, List.not_mem_nil, or_false] at hn
    rcases p1 with p1 | p1 <;> rcases p2 with p2 | p2 <;> rcases q1 with q1 | q1 <;>
      rcases q2 with q2 | q2 <;> rw [p1, p2, q1, q2] at hs <;> rcases hn with rfl | rfl <;>
      dsimp only <;>
      first | (rw [p1, q1]; done) | (rw [p2, q2]; done) | exact absurd hs (by decide)
  · intro _ p hp _ _
    have h0 := hp 0 (by decide)
    rw [show OMap.keys (mapOf traceA 0) = [⟨-4⟩, ⟨-3⟩, ⟨-1⟩, ⟨0⟩] by decide] at h0
    have ho : others traceA.names ([(1, 3), (2, 4)].map Prod.fst) = [0] := by decide
    simp only [List.mem_cons, List.not_mem_nil, or_false] at h0
    rw [ho]
    simp only [List.mem_singleton, forall_eq]
    rcases h0 with h0 | h0 | h0 | h0 <;> rw [h0]
    · exact ⟨at0 [(0, ⟨-4⟩, 0), (1, ⟨1⟩, 0), (2, ⟨3⟩, 0)], by decide +kernel, by decide +kernel, rfl⟩
    · exact ⟨at0 [(0, ⟨-3⟩, 0), (2, ⟨3⟩, 0)], by decide +kernel, by decide +kernel, rfl⟩
    · exact ⟨at0 [(0, ⟨-1⟩, 0), (1, ⟨1⟩, 0)], by decide +kernel, by decide +kernel, rfl⟩
    · exact ⟨at0 [], by decide +kernel, by decide +kernel, rfl⟩

theorem traceAB_traceable : Traceable traceAB [(2, 4)] := by
  refine traceable_single (by decide) (by decide) (by decide) ⟨fun _ => by decide, fun c hc => ?_⟩
  rw [List.mem_singleton] at hc
  subst hc
  exact maps_of_keys (by decide +kernel) (by decide +kernel)

theorem traceBA_traceable : Traceable traceBA [(3, 1)] := by
  refine traceable_single (by decide) (by decide) (by decide) ⟨fun _ => by decide, fun c hc => ?_⟩
  rw [List.mem_singleton] at hc
  subst hc
  exact maps_of_keys (by decide +kernel) (by decide +kernel)

/-- The hypotheses of `C74_trace_of_contraction`; the edges have odd symmetries. -/
example : WF traceA ∧ WF traceB ∧ Sound traceA traceB [(1, 3)] ∧
    Sound traceA traceB ([(1, 3)] ++ [(2, 4)]) ∧ Traceable traceAB [(2, 4)] ∧
    contract ce0 names0 traceA traceB [(1, 3)] = .ok traceAB ∧
    traceTensor env0 env0 (fun _ _ => 77) trNames0 traceAB [(2, 4)] =
      contract ce0 names0 traceA traceB ([(1, 3)] ++ [(2, 4)]) ∧
    (traceTensor env0 env0 (fun _ _ => 77) trNames0 traceAB [(2, 4)]).toOption.isSome = true := by
  refine ⟨traceA_wf, traceB_wf, sound_single traceA_wf traceB_wf (by decide) (by decide) (by decide)
    (by decide), traceA_traceB_sound, traceAB_traceable, by decide +kernel, by decide +kernel,
    by decide +kernel⟩

end TAT
