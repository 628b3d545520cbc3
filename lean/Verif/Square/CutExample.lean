import Verif.Square.CutProps
import Verif.Square.SimpleExample

/-!
# The simple update with a cut of a lattice of two rows and two columns

The cases of C66.
-/

namespace TAT

/-- The case of `C66_term`: the lattice without a cut has two amplitudes in the right ratio, and what the cut makes
of it. -/
example : ∃ lp : LapackQr ℚ, ∃ K s' κ, κ ≠ 0 ∧
    bondAmp (netEnv0 lp) [leftSite, rightSite] K auxH0 auxV0 s' (fun _ : LatticeSite 2 2 => (0 : Fin 2)) = κ * 230 ∧
    bondAmp (netEnv0 lp) [leftSite, rightSite] K auxH0 auxV0 s' (fun x : LatticeSite 2 2 => (x.1 : Fin 2)) =
      κ * 477 ∧
    ∀ D, D ≠ 0 → D < K → D < 2 ^ 64 - 1 →
      (∃ s'' κ', κ' ≠ 0 ∧
        updateTerm (netOps (netEnv0 lp) D) bondOp0 [(0, 0), (0, 1)] (okState netState0) = .ok (okState s'') ∧
        ∀ x : SpinConfig 2 2 2, bondAmp (netEnv0 lp) [leftSite, rightSite] D auxH0 auxV0 s'' x =
          κ' * bondAmp (netEnv0 lp) [leftSite, rightSite] D auxH0 auxV0 s' x) ∨
      ((∃ st, updateTerm (netOps (netEnv0 lp) D) bondOp0 [(0, 0), (0, 1)] (okState netState0) = .ok st ∧
        Spoiled st) ∧
        ∀ x : SpinConfig 2 2 2, bondAmp (netEnv0 lp) [leftSite, rightSite] D auxH0 auxV0 s' x = 0) := by
  obtain ⟨lp, hlp⟩ := exists_lapackQrOk (K := ℚ)
  obtain ⟨K, s', κ, h1, -, -, h4, h5⟩ := C66_term (netEnv0_ok hlp) netState0_on bond0_term (cube_operator2 _ rfl)
    netState0_around ⟨fun _ => 0, fun h => absurd (bondOp0_acts.1.symm.trans h) (by decide)⟩
  refine ⟨lp, K, s', κ, h1, (h4 _).trans (congrArg _ bondOp0_acts.1), (h4 _).trans (congrArg _ bondOp0_acts.2.1),
    fun D h0 h1 h2 => (h5 D h0 h1 h2).imp_left ?_⟩
  rintro ⟨s'', κ', a, b, -, c⟩
  exact ⟨s'', κ', a, b, c⟩

/-- The case of `C66_lossless`. -/
example : ∃ lp : LapackQr ℚ, ∃ K s', (∀ D, Keeps K D →
      updateTerm (netOps (netEnv0 lp) D) bondOp0 [(0, 0), (0, 1)] (okState netState0) = .ok (okState s')) ∧
    ∀ D, D ≠ 0 → D < K → D < 2 ^ 64 - 1 → ∀ l, bondEnv s' [leftSite, rightSite] = some [(0, l)] →
      (∀ k, D ≤ k → l.getD k 0 = 0) → ∃ s'' κ, κ ≠ 0 ∧
        updateTerm (netOps (netEnv0 lp) D) bondOp0 [(0, 0), (0, 1)] (okState netState0) = .ok (okState s'') ∧
        bondAmp (netEnv0 lp) [leftSite, rightSite] D auxH0 auxV0 s'' (fun _ : LatticeSite 2 2 => (0 : Fin 2)) =
          κ * 230 := by
  obtain ⟨lp, hlp⟩ := exists_lapackQrOk (K := ℚ)
  obtain ⟨K, s', h1, h2⟩ := C66_lossless (netEnv0_ok hlp) netState0_on bond0_term (cube_operator2 _ rfl)
    netState0_around ⟨fun _ => 0, fun h => absurd (bondOp0_acts.1.symm.trans h) (by decide)⟩
  refine ⟨lp, K, s', h1, fun D h0 hK hD l hl hl0 => ?_⟩
  obtain ⟨s'', κ, a, b, -, c⟩ := h2 D h0 hK hD l hl hl0
  exact ⟨s'', κ, a, b, (c _).trans (congrArg _ bondOp0_acts.1)⟩

/-- The case of `C66_run`: with the dimension one the two edges of the terms have one index at the end. -/
example : ∃ lp : LapackQr ℚ,
    (∃ s' h' v', sequentialUpdate (netOps (netEnv0 lp) 1) (fun k => some (simpleOp0 k)) simpleKeys0
        (okState netState0) = .ok (okState s') ∧ NetworkOn id 2 2 2 s' h' v' ∧
      (∃ n ≤ 1, h' 0 1 = some n) ∧ (∃ n ≤ 1, v' 1 1 = some n) ∧ (∃ n ≤ 2, h' 1 1 = some n)) ∨
    ∃ st, sequentialUpdate (netOps (netEnv0 lp) 1) (fun k => some (simpleOp0 k)) simpleKeys0
        (okState netState0) = .ok st ∧ Spoiled st := by
  obtain ⟨lp, hlp⟩ := exists_lapackQrOk (K := ℚ)
  refine ⟨lp, (C66_run (netEnv0_ok hlp) one_ne_zero (by norm_num) (fun k => some (simpleOp0 k)) simpleSites0
    simpleOp0 simpleKeys0 simpleKeys0_ok netState0_on).imp_left ?_⟩
  rintro ⟨s', h', v', a, b, c, f⟩
  refine ⟨s', h', v', a, b, f [(0, 0), (0, 1)] (by decide) leftSite rightSite (by decide),
    f [(1, 1), (0, 1)] (by decide) rightSite belowSite (by decide), ?_⟩
  rcases (c 1 1).1 with q | ⟨n, q1, q2⟩
  · exact ⟨2, le_rfl, q⟩
  · exact ⟨n, by omega, q2⟩

/-- The case of `C66_parallel`: three processes with the dimension one. -/
example : ∃ lp : LapackQr ℚ, ∃ st P', simpleUpdate (netOps (netEnv0 lp) 1) (.ok []) (fun k => some (simpleOp0 k)) 3 2
      simpleKeys0 (fun _ => okState netState0) = .ok P' ∧ (∀ r < 3, P' r = st) ∧
    (Spoiled st ∨ ∃ s' h' v', st = okState s' ∧ NetworkOn id 2 2 2 s' h' v' ∧
      (∃ n ≤ 1, h' 0 1 = some n) ∧ ∃ n ≤ 1, v' 1 1 = some n) := by
  obtain ⟨lp, hlp⟩ := exists_lapackQrOk (K := ℚ)
  obtain ⟨st, P', p1, p2, p3⟩ := C66_parallel (netEnv0_ok hlp) one_ne_zero (by norm_num) (.ok [])
    (fun k => some (simpleOp0 k)) simpleSites0 simpleOp0 3 2 (by decide) (by decide) simpleKeys0 (by decide)
    (fun p q h h' => (by decide : ∀ k ∈ simpleKeys0, k.length = 2 → k.reverse ∉ simpleKeys0) [p, q] h rfl h')
    simpleKeys0_ok netState0_on (fun _ => okState netState0) (fun _ _ => rfl)
  refine ⟨lp, st, P', p1, p2, p3.imp_right ?_⟩
  rintro ⟨s', h', v', a, b, -, f⟩
  exact ⟨s', h', v', a, b, f [(0, 0), (0, 1)] (by decide) leftSite rightSite (by decide),
    f [(1, 1), (0, 1)] (by decide) rightSite belowSite (by decide)⟩

end TAT
