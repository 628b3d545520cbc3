import Verif.Trace.LawCases

/-!
Further cases for the laws of the trace (C74).
-/

namespace TAT

/-- The hypotheses of `C74_cyclic`, and signs: the edges left are odd and change places. -/
example : Pairs traceA.names traceB.names ([(1, 3)] ++ [(2, 4)]) ∧
    Sound traceB traceA ([(2, 4)].map Prod.swap) ∧ Traceable traceBA ([(1, 3)].map Prod.swap) ∧
    contract ce0 names0 traceB traceA ([(2, 4)].map Prod.swap) = .ok traceBA ∧
    (match traceTensor env0 env0 (fun _ _ => 77) trNames0 traceAB [(2, 4)],
        traceTensor env0 env0 (fun _ _ => 77) trNames0 traceBA ([(1, 3)].map Prod.swap) with
      | .ok u, .ok u' => decide (u.names = [0, 5] ∧ u'.names = [5, 0] ∧
          amp u (at0 [(0, ⟨-3⟩, 0), (5, ⟨3⟩, 0)]) = 45 ∧ amp u' (at0 [(0, ⟨-3⟩, 0), (5, ⟨3⟩, 0)]) = -45 ∧
          amp u (at0 [(0, ⟨-4⟩, 0), (5, ⟨4⟩, 0)]) = 14 ∧ amp u' (at0 [(0, ⟨-4⟩, 0), (5, ⟨4⟩, 0)]) = 14)
      | _, _ => false) = true :=
  ⟨⟨by decide, by decide, by decide, by decide⟩,
    sound_single traceB_wf traceA_wf (by decide) (by decide) (by decide) (by decide),
    traceBA_traceable, by decide +kernel, by decide +kernel⟩

end TAT
