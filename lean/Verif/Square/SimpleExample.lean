import Verif.Square.SimpleProps
import Verif.Square.NetExample
import Verif.Square.ExactProps

/-!
# The simple update of a lattice of two rows and two columns

The cases of C65.
-/

namespace TAT

theorem cube_operator1 (d : List ℚ) (hd : d.length = 4) : OperatorOn 2 1 id (cube ["I0", "O0"] d) := by
  obtain ⟨h1, h2⟩ := cube_edges (names := ["I0", "O0"]) (by decide) (d := d) hd
  refine ⟨h1, fun i hi => ?_, fun i hi => ?_, fun n hn => ?_⟩
  · obtain rfl : i = 0 := by omega
    exact (h2 _).trans (if_pos (by decide))
  · obtain rfl : i = 0 := by omega
    exact (h2 _).trans (if_pos (by decide))
  · rw [h2] at hn
    split at hn
    · next h =>
      simp only [List.mem_cons, List.not_mem_nil, or_false] at h
      rcases h with rfl | rfl
      · exact ⟨0, by decide, Or.inl rfl⟩
      · exact ⟨0, by decide, Or.inr rfl⟩
    · exact absurd rfl hn

theorem cube_operator2 (d : List ℚ) (hd : d.length = 16) :
    OperatorOn 2 2 id (cube ["I0", "I1", "O0", "O1"] d) := by
  obtain ⟨h1, h2⟩ := cube_edges (names := ["I0", "I1", "O0", "O1"]) (by decide) (d := d) hd
  refine ⟨h1, fun i hi => ?_, fun i hi => ?_, fun n hn => ?_⟩
  · obtain rfl | rfl : i = 0 ∨ i = 1 := by omega
    all_goals exact (h2 _).trans (if_pos (by decide))
  · obtain rfl | rfl : i = 0 ∨ i = 1 := by omega
    all_goals exact (h2 _).trans (if_pos (by decide))
  · rw [h2] at hn
    split at hn
    · next h =>
      simp only [List.mem_cons, List.not_mem_nil, or_false] at h
      rcases h with rfl | rfl | rfl | rfl
      · exact ⟨0, by decide, Or.inl rfl⟩
      · exact ⟨1, by decide, Or.inl rfl⟩
      · exact ⟨0, by decide, Or.inr rfl⟩
      · exact ⟨1, by decide, Or.inr rfl⟩
    · exact absurd rfl hn

/-- An operator on two sites which is not symmetric. -/
def bondOp0 : Tensor String NoSymmetry ℚ :=
  cube ["I0", "I1", "O0", "O1"] [1, 0, 0, 2, 3, 1, 0, 0, 0, 1, 1, 0, 2, 0, 0, 1]

/-- An operator on one site. -/
def siteOp0 : Tensor String NoSymmetry ℚ := cube ["I0", "O0"] [1, 2, 0, 3]

def leftSite : LatticeSite 2 2 := (0, 0)
def rightSite : LatticeSite 2 2 := (0, 1)
def belowSite : LatticeSite 2 2 := (1, 1)

/-- What the operator makes of the state, with the sites in both orders. -/
theorem bondOp0_acts :
    actOn [leftSite, rightSite] (matrixElement id bondOp0) (networkAmp id id auxH0 auxV0 netState0)
      (fun _ : LatticeSite 2 2 => (0 : Fin 2)) = 230 ∧
    actOn [leftSite, rightSite] (matrixElement id bondOp0) (networkAmp id id auxH0 auxV0 netState0)
      (fun x : LatticeSite 2 2 => (x.1 : Fin 2)) = 477 ∧
    actOn [rightSite, leftSite] (matrixElement id bondOp0) (networkAmp id id auxH0 auxV0 netState0)
      (fun _ : LatticeSite 2 2 => (0 : Fin 2)) = 215 ∧
    actOn [rightSite, leftSite] (matrixElement id bondOp0) (networkAmp id id auxH0 auxV0 netState0)
      (fun x : LatticeSite 2 2 => (x.1 : Fin 2)) = 648 := by
  decide +kernel

theorem netState0_around : ∀ S ∈ environmentsAround netState0 [leftSite, rightSite], NoZero S := by
  have : environmentsAround netState0 [leftSite, rightSite] = [none, none, none, none, some [(0, [1, 3])], none] := by
    decide +kernel
  rw [this]
  simp [NoZero]

theorem bond0_term : TermOf [sitePos leftSite, sitePos rightSite] [leftSite, rightSite] :=
  Or.inr ⟨leftSite, rightSite, Or.inl ⟨rfl, rfl⟩, rfl, Or.inl rfl⟩

theorem bond0_reversed : TermOf [sitePos rightSite, sitePos leftSite] [leftSite, rightSite] :=
  Or.inr ⟨leftSite, rightSite, Or.inl ⟨rfl, rfl⟩, rfl, Or.inr rfl⟩

/-- The case of `C65_term`: two amplitudes after the update are in the right ratio. -/
example : ∃ lp : LapackQr ℚ, ∃ K s' h' v' κ, κ ≠ 0 ∧
    (∀ D, Keeps K D → updateTerm (netOps (netEnv0 lp) D) bondOp0 [(0, 0), (0, 1)] (okState netState0) =
      .ok (okState s')) ∧
    networkAmp id id h' v' s' (fun _ : LatticeSite 2 2 => (0 : Fin 2)) = κ * 230 ∧
    networkAmp id id h' v' s' (fun x : LatticeSite 2 2 => (x.1 : Fin 2)) = κ * 477 := by
  obtain ⟨lp, hlp⟩ := exists_lapackQrOk (K := ℚ)
  obtain ⟨K, s', h', v', κ, h1, h2, -, h4⟩ := C65_term (netEnv0_ok hlp) netState0_on bond0_term (cube_operator2 _ rfl)
    netState0_around ⟨fun _ => 0, fun h => absurd (bondOp0_acts.1.symm.trans h) (by decide)⟩
  exact ⟨lp, K, s', h', v', κ, h1, h2, (h4 _).trans (congrArg _ bondOp0_acts.1),
    (h4 _).trans (congrArg _ bondOp0_acts.2.1)⟩

/-- The case of `C65_commutes`. -/
example : ∃ lp : LapackQr ℚ, ∃ K s' w u w' c,
    (∀ D, Keeps K D → updateTerm (netOps (netEnv0 lp) D) bondOp0 [(0, 0), (0, 1)] (okState netState0) =
      .ok (okState s')) ∧
    exactOfUpdate (netEnv0 lp) 2 2 netState0 = .ok w ∧ applyTerm exactEnv0 w ([(0, 0), (0, 1)], bondOp0) = .ok u ∧
    exactOfUpdate (netEnv0 lp) 2 2 s' = .ok w' ∧ c ≠ 0 ∧
    ∀ x : SpinConfig 2 2 2, amplitude id w' x = c * amplitude id u x := by
  obtain ⟨lp, hlp⟩ := exists_lapackQrOk (K := ℚ)
  exact ⟨lp, C65_commutes (netEnv0_ok hlp) exactEnv0_ok rfl netState0_on bond0_term (cube_operator2 _ rfl)
    netState0_around ⟨fun _ => 0, fun h => absurd (bondOp0_acts.1.symm.trans h) (by decide)⟩⟩

/-- **C65.**  A term whose sites are listed from right to left is not applied as it is listed: the state after
the update is not the operator with its first pair of edges at the site listed first. -/
theorem C65_reversed_not_applied : ∃ lp : LapackQr ℚ, LapackQrOk lp ∧ ∃ K s' h' v',
    (∀ D, Keeps K D → updateTerm (netOps (netEnv0 lp) D) bondOp0 [sitePos rightSite, sitePos leftSite]
      (okState netState0) = .ok (okState s')) ∧ NetworkOn id 2 2 2 s' h' v' ∧
    ¬ ∃ κ, ∀ x : SpinConfig 2 2 2, networkAmp id id h' v' s' x =
      κ * actOn [rightSite, leftSite] (matrixElement id bondOp0) (networkAmp id id auxH0 auxV0 netState0) x := by
  obtain ⟨lp, hlp⟩ := exists_lapackQrOk (K := ℚ)
  obtain ⟨K, s', h', v', κ, h1, h2, h3, h4⟩ := C65_term (netEnv0_ok hlp) netState0_on bond0_reversed
    (cube_operator2 _ rfl) netState0_around ⟨fun _ => 0, fun h => absurd (bondOp0_acts.1.symm.trans h) (by decide)⟩
  refine ⟨lp, hlp, K, s', h', v', h2, h3, fun ⟨c, hc⟩ => ?_⟩
  have a1 : κ * 230 = c * 215 := by
    rw [← bondOp0_acts.1, ← bondOp0_acts.2.2.1]
    exact (h4 _).symm.trans (hc _)
  have a2 : κ * 477 = c * 648 := by
    rw [← bondOp0_acts.2.1, ← bondOp0_acts.2.2.2]
    exact (h4 _).symm.trans (hc _)
  apply h1
  linarith

/-- The lattice with a zero in an environment. -/
def netState1 : NetState String ℚ ℚ where
  site := netSite0
  env := fun b p => if b = true ∧ p = (0, 1) then some [(0, [1, 0])] else none

/-- The case of `C65_zero_environment`. -/
example : ∃ lp : LapackQr ℚ, ∀ D, D ≠ 0 → ∃ st,
    updateTerm (netOps (netEnv0 lp) D) bondOp0 [(0, 0), (0, 1)] (okState netState1) = .ok st ∧ Spoiled st := by
  obtain ⟨lp, hlp⟩ := exists_lapackQrOk (K := ℚ)
  have on : NetworkOn id 2 2 2 netState1 auxH0 auxV0 := by
    refine ⟨netState0_on.sites, fun p S h => ?_, fun p S h => ?_⟩
    · simp [netState1] at h
    · simp only [netState1, true_and, Option.ite_none_right_eq_some, Option.some.injEq] at h
      exact ⟨0, 1, h.1, by decide, by decide, _, h.2.symm, rfl⟩
  refine ⟨lp, C65_zero_environment (netEnv0_ok hlp) on bond0_term (cube_operator2 _ rfl)
    ⟨some [(0, [1, 0])], ?_, fun h => h _ rfl (0, [1, 0]) (by simp) 0 (by simp) rfl⟩⟩
  have : environmentsAround netState1 [leftSite, rightSite] = [none, none, none, none, some [(0, [1, 0])], none] := by
    decide +kernel
  rw [this]
  simp

/-- Terms of all kinds, one of them listed from below. -/
def simpleKeys0 : List TermKey := [[(0, 0)], [(0, 0), (0, 1)], [(1, 1), (0, 1)]]

def simpleSites0 (k : TermKey) : List (LatticeSite 2 2) :=
  if k = [(0, 0)] then [leftSite] else if k = [(0, 0), (0, 1)] then [leftSite, rightSite] else [rightSite, belowSite]

def simpleOp0 (k : TermKey) : Tensor String NoSymmetry ℚ := if k = [(0, 0)] then siteOp0 else bondOp0

theorem simpleKeys0_ok : ∀ k ∈ simpleKeys0, some (simpleOp0 k) = some (simpleOp0 k) ∧ TermOf k (simpleSites0 k) ∧
    OperatorOn 2 (simpleSites0 k).length id (simpleOp0 k) := by
  intro k hk
  simp only [simpleKeys0, List.mem_cons, List.not_mem_nil, or_false] at hk
  rcases hk with rfl | rfl | rfl
  · exact ⟨rfl, Or.inl ⟨leftSite, rfl, rfl⟩, cube_operator1 _ rfl⟩
  · exact ⟨rfl, bond0_term, cube_operator2 _ rfl⟩
  · exact ⟨rfl, Or.inr ⟨rightSite, belowSite, Or.inr ⟨rfl, rfl⟩, rfl, Or.inr rfl⟩, cube_operator2 _ rfl⟩

/-- The operators do not annihilate the state: what they make of it before and after the last term. -/
theorem simpleKeys0_acts :
    actTerms id simpleSites0 simpleOp0 simpleKeys0 (networkAmp id id auxH0 auxV0 netState0)
      (fun x : LatticeSite 2 2 => (x.1 : Fin 2)) ≠ 0 := by
  decide +kernel

/-- The cases of `C65_run` and `C65_parallel`: a lattice of two rows and two columns on three processes. -/
example : ∃ lp : LapackQr ℚ, NetEnvOk (netEnv0 lp) ∧ simpleKeys0.Nodup ∧ NoReversed simpleKeys0 ∧
    (∀ k ∈ simpleKeys0, some (simpleOp0 k) = some (simpleOp0 k) ∧ TermOf k (simpleSites0 k) ∧
      OperatorOn 2 (simpleSites0 k).length id (simpleOp0 k)) ∧ NetworkOn id 2 2 2 netState0 auxH0 auxV0 := by
  obtain ⟨lp, hlp⟩ := exists_lapackQrOk (K := ℚ)
  refine ⟨lp, netEnv0_ok hlp, by decide, fun p q h h' => ?_, simpleKeys0_ok, netState0_on⟩
  have : ∀ k ∈ simpleKeys0, k.length = 2 → k.reverse ∉ simpleKeys0 := by decide
  exact this [p, q] h rfl h'

end TAT
