import Verif.Square.SpinRun
import Verif.Square.NetExample

/-!
# C64 for a lattice of two rows and two columns
-/

namespace TAT

/-- All spins are set, one of them twice. -/
def spinSets0 : List (LatticeSite 2 2 × Option (Fin 2)) :=
  [((1, 0), some 0), ((0, 0), some 0), ((0, 1), some 0), ((1, 1), some 1), ((1, 0), none), ((1, 0), some 1)]

example : codeSets spinSets0 = [((1, 0), some 0), ((0, 0), some 0), ((0, 1), some 0), ((1, 1), some 1),
    ((1, 0), none), ((1, 0), some 1)] := rfl

theorem spinSets0_last (x : LatticeSite 2 2) : lastSpin spinSets0 x = some (x.1 : Fin 2).val := by
  revert x
  decide

/-- The sites of the example. -/
def spinLattice0 (i j : ℕ) : Tensor String NoSymmetry ℚ := netSite0 (i, j)

theorem spinLattice0_on : SitesOn id 2 2 2 spinLattice0 auxH0 auxV0 := netState0_on.sites

/-- The amplitudes before and after changes of the spins. -/
theorem spinAmp0 : sitesAmp id auxH0 auxV0 spinLattice0 (fun x : LatticeSite 2 2 => (x.1 : Fin 2)) = 22 ∧
    sitesAmp id auxH0 auxV0 spinLattice0
      (Function.update (Function.update (fun x : LatticeSite 2 2 => (x.1 : Fin 2)) (0, 1) 1) (1, 1) 0) = 37 := by
  decide +kernel

/-- C64 applies: setting all spins, the value, and the value with two neighbours and with two other sites replaced;
the second replacement has an entry without a change. -/
example : ∃ lp : LapackQr ℚ, ∃ st : SpinState 2 2 String ℚ, ∃ cut,
    setSpins (netEnv0 lp) spinLattice0 .empty (codeSets spinSets0) = .ok st ∧
    spinValue (netEnv0 lp) cut st = .ok 22 ∧
    spinReplace (netEnv0 lp) cut spinLattice0 st (assignSpins [(1, 1), (0, 1), (0, 0)] [0, 1, 0] []) 22 'v' = .ok 37 ∧
    spinReplace (netEnv0 lp) cut spinLattice0 st (assignSpins [(0, 0)] [0] []) 5 ' ' = .ok 5 ∧
    spinReplace (netEnv0 lp) cut spinLattice0 st (assignSpins [(0, 1), (1, 0)] [1, 0] []) 22 ' ' =
      .error "Unsupported replacement style" := by
  obtain ⟨lp, hlp⟩ := exists_lapackQrOk (K := ℚ)
  obtain ⟨st, h1, h2, h3⟩ := C64_set (e := netEnv0 lp) (auxEnv0_ok hlp) spinLattice0_on spinSets0
  have hc : ∀ x, st.conf x = some (x.1 : Fin 2).val := fun x => (h3 x).trans (spinSets0_last x)
  obtain ⟨B, hB⟩ := computesAmp (e := netEnv0 lp) (auxEnv0_ok hlp) spinLattice0_on (by decide) (by decide)
  have hw := hB B (Or.inl le_rfl)
  refine ⟨lp, st, B, h1, ?_, ?_, ?_, ?_⟩
  · rw [hw.value (fun x => x.1) st h2 hc]
    exact congrArg _ spinAmp0.1
  · rw [hw.replace (fun x => x.1) (Function.update (Function.update (fun x : LatticeSite 2 2 => (x.1 : Fin 2)) (0, 1) 1)
      (1, 1) 0) st h2 hc _ [(1, 1), (0, 1), (0, 0)] [0, 1, 0] (by decide +kernel)
      (congrArg Outcome.ok (by decide))]
    exact congrArg Outcome.ok spinAmp0.2
  · rw [hw.replace (fun x => x.1) (fun x => x.1) st h2 hc _ [(0, 0)] [0] (by decide +kernel) (congrArg Outcome.ok (by decide))]
    rfl
  · rw [hw.replace (fun x => x.1) (Function.update (Function.update (fun x : LatticeSite 2 2 => (x.1 : Fin 2)) (0, 1) 1)
      (1, 0) 0) st h2 hc _ [(0, 1), (1, 0)] _ (by decide +kernel) (by decide +kernel)]
    rfl

/-- C64 applies: an expectation value which is not an amplitude, and a chain. -/
example : ∃ lp : LapackQr ℚ, ∃ cut, ∃ t, findElement 2 2 (exchangeValueOf ℚ) = .ok t ∧
    (∀ E, spinErgodic (M := 2) (N := 2) (netEnv0 lp) ratOps 2 cut spinLattice0 t [(0, 0), (0, 1)] .empty = .ok E →
      E = (∑ c : SpinConfig 2 2 2, ∑ c' : SpinConfig 2 2 2,
        if ∀ x, x ∉ [((0 : Fin 2), (0 : Fin 2)), (0, 1)] → c x = c' x then
          sitesAmp id auxH0 auxV0 spinLattice0 c *
            exchangeValueOf ℚ [(c (0, 0)).val, (c (0, 1)).val, (c' (0, 0)).val, (c' (0, 1)).val] *
            sitesAmp id auxH0 auxV0 spinLattice0 c'
        else 0) / ∑ c : SpinConfig 2 2 2,
          sitesAmp id auxH0 auxV0 spinLattice0 c * sitesAmp id auxH0 auxV0 spinLattice0 c) := by
  obtain ⟨lp, hlp⟩ := exists_lapackQrOk (K := ℚ)
  obtain ⟨t, ht, -⟩ := findElement_spec (d := 2) (body := 2) (by decide) (by decide) (exchangeValueOf ℚ)
  obtain ⟨B, hB⟩ := C64_ergodic (e := netEnv0 lp) (auxEnv0_ok hlp) spinLattice0_on C56_real_laws
    (ps := [(0, 0), (0, 1)]) (xs := [(0, 0), (0, 1)]) (by decide) (by decide) ht
  exact ⟨lp, B, t, ht, fun E hE => hB B (Or.inl le_rfl) .empty ⟨fun _ _ => rfl, fun _ _ h => by cases h⟩ E hE⟩

/-- A position outside of the lattice. -/
example (lp : LapackQr ℚ) : setSpin (M := 2) (N := 2) (netEnv0 lp) spinLattice0 .empty (2, 0) (some 0) = .ub := rfl

end TAT
