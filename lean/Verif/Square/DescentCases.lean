import Verif.Square.DescentProps
import Verif.Square.GradExample

/-!
# C81 for a lattice of two rows and two columns

A step of the descent changes the lattice of `SpinExample`, and the auxiliaries keep the slices of the old one.
-/

namespace TAT

/-- A gradient: a tensor with another order of its edges for one site, zero for the others. -/
def descentGradient (x : LatticeSite 2 2) : Tensor String NoSymmetry ℚ :=
  if x = (0, 0) then cube ["D", "P", "R"] [2, 0, 1, 0, 0, 1, 0, 0]
  else if x = (0, 1) then cube ["D", "P", "L"] [0, 0, 0, 0, 0, 0, 0, 0]
  else if x = (1, 0) then cube ["U", "R", "P"] [0, 0, 0, 0, 0, 0, 0, 0]
  else cube ["L", "U", "P"] [0, 0, 0, 0, 0, 0, 0, 0]

/-- The lattice after the step. -/
def descentLattice (i j : ℕ) : Tensor String NoSymmetry ℚ :=
  if (i, j) = (0, 0) then cube ["P", "R", "D"] [-1 / 2, 1, 0, 0, 1, 1 / 2, 1 / 2, 1]
  else if (i, j) = (0, 1) then cube ["D", "P", "L"] [1 / 2, 0, 1, 1 / 2, 1 / 2, 1 / 2, 0, 1]
  else if (i, j) = (1, 0) then cube ["U", "R", "P"] [0, 1 / 3, 1 / 3, 1 / 3, 2 / 3, 1 / 3, 0, 1]
  else if (i, j) = (1, 1) then cube ["L", "U", "P"] [2 / 3, 1 / 3, 0, 1, 1 / 3, 1 / 3, 1 / 3, 0]
  else spinLattice0 i j

/-- What `descendSite` is given of the environment does not need the decompositions. -/
def descentCheck (x : LatticeSite 2 2) : Bool :=
  decide (descendSite (netEnv0 ⟨fun _ _ _ => none, fun _ _ _ _ _ => none, fun _ _ _ => none, fun _ _ _ _ _ => none⟩)
    gradOps0.env 1 (spinLattice0 x.1 x.2) (descentGradient x) = .ok (descentLattice x.1 x.2))

theorem descentSites (lp : LapackQr ℚ) (x : LatticeSite 2 2) :
    descendSite (netEnv0 lp) gradOps0.env 1 (spinLattice0 x.1 x.2) (descentGradient x) =
      .ok (descentLattice x.1 x.2) := by
  have h : ∀ x, descentCheck x = true := by decide +kernel
  exact of_decide_eq_true (h x)

theorem descentLattice_step (lp : LapackQr ℚ) :
    descend (netEnv0 lp) gradOps0.env 1 spinLattice0 descentGradient = .ok descentLattice := by
  rw [descend, forSites_ok (g := fun x => descentLattice x.1 x.2) (descentSites lp)]
  show Outcome.ok _ = _
  congr 1
  funext i j
  split
  · rfl
  · next h =>
    have h1 : ∀ a b : ℕ, a < 2 → b < 2 → ¬(i, j) = (a, b) := fun a b ha hb h0 => by
      injection h0 with h1 h2
      exact h ⟨h1 ▸ ha, h2 ▸ hb⟩
    rw [descentLattice, if_neg (h1 0 0 (by decide) (by decide)), if_neg (h1 0 1 (by decide) (by decide)),
      if_neg (h1 1 0 (by decide) (by decide)), if_neg (h1 1 1 (by decide) (by decide))]

theorem descentLattice_on : SitesOn id 2 2 2 descentLattice auxH0 auxV0 := by
  refine ⟨fun i hi j hj => ?_, fun _ => rfl, fun _ => rfl, fun _ => rfl, fun _ => rfl⟩
  obtain rfl | rfl : i = 0 ∨ i = 1 := by omega
  all_goals obtain rfl | rfl : j = 0 ∨ j = 1 := by omega
  · exact cube_site (by decide) rfl (by decide) rfl rfl rfl rfl (by decide)
  · exact cube_site (by decide) rfl (by decide) rfl rfl rfl rfl (by decide)
  · exact cube_site (by decide) rfl (by decide) rfl rfl rfl rfl (by decide)
  · exact cube_site (by decide) rfl (by decide) rfl rfl rfl rfl (by decide)

/-- The spins of the rows. -/
def rowSpins : SpinConfig 2 2 2 := fun x => x.1

/-- The spins after a hopping of the second column. -/
def hoppedSpins : SpinConfig 2 2 2 := Function.update (Function.update rowSpins (0, 1) 1) (1, 1) 0

/-- The amplitudes of the old lattice, of the new one, and of the mixed one after the hopping. -/
theorem descentAmps :
    sitesAmp id auxH0 auxV0 spinLattice0 rowSpins = 22 ∧ sitesAmp id auxH0 auxV0 descentLattice rowSpins = 1 / 4 ∧
    sitesAmp id auxH0 auxV0 spinLattice0 hoppedSpins = 37 ∧
    sitesAmp id auxH0 auxV0 descentLattice hoppedSpins = 7 / 18 ∧
    sitesAmp id auxH0 auxV0 (mixedLattice spinLattice0 descentLattice rowSpins hoppedSpins) hoppedSpins = 37 / 6 := by
  decide +kernel

/-- All spins are set and the lattice is changed. -/
def descentHistory : List (LatticeEvent 2 2 2 String ℚ) :=
  [.set (0, 0) (some 0), .set (0, 1) (some 0), .set (1, 0) (some 1), .set (1, 1) (some 1), .change descentLattice]

/-- Afterwards the spins are set again, two of them after having been changed. -/
def descentHistory' : List (LatticeEvent 2 2 2 String ℚ) :=
  descentHistory ++ [.set (0, 0) (some 0), .set (0, 1) (some 1), .set (0, 1) (some 0), .set (1, 0) none,
    .set (1, 0) (some 1), .set (1, 1) (some 1)]

theorem descentHistory_edges : EdgesKept id auxH0 auxV0 spinLattice0 descentHistory := by
  refine ⟨spinLattice0_on, fun l hl => ?_⟩
  simp only [descentHistory, List.mem_cons, reduceCtorEq, LatticeEvent.change.injEq, List.not_mem_nil, or_false,
    false_or] at hl
  exact hl ▸ descentLattice_on

theorem descentHistory'_edges : EdgesKept id auxH0 auxV0 spinLattice0 descentHistory' := by
  refine ⟨spinLattice0_on, fun l hl => ?_⟩
  rcases List.mem_append.1 hl with hl | hl
  · exact descentHistory_edges.2 l hl
  · simp at hl

/-- After the first history all tensors are old. -/
theorem descentHistory_taken (x : LatticeSite 2 2) :
    TakenFrom spinLattice0 descentHistory x (spinLattice0 x.1 x.2) := by
  obtain ⟨i, j⟩ := x
  fin_cases i <;> fin_cases j
  · exact ⟨[], 0, _, rfl, by decide, by simp, rfl⟩
  · exact ⟨[.set (0, 0) (some 0)], 0, _, rfl, by decide, by simp, rfl⟩
  · exact ⟨[.set (0, 0) (some 0), .set (0, 1) (some 0)], 1, _, rfl, by decide, by simp, rfl⟩
  · exact ⟨[.set (0, 0) (some 0), .set (0, 1) (some 0), .set (1, 0) (some 1)], 1, _, rfl, by decide, by simp, rfl⟩

/-- After the second one the tensors of one diagonal are new. -/
theorem descentHistory'_taken (x : LatticeSite 2 2) : TakenFrom spinLattice0 descentHistory' x
    (if x.1 = x.2 then spinLattice0 x.1 x.2 else descentLattice x.1 x.2) := by
  obtain ⟨i, j⟩ := x
  fin_cases i <;> fin_cases j
  · exact ⟨[], 0, _, rfl, by decide, by simp, rfl⟩
  · exact ⟨descentHistory ++ [.set (0, 0) (some 0), .set (0, 1) (some 1)], 0, _, rfl, by decide, by simp, rfl⟩
  · exact ⟨descentHistory ++ [.set (0, 0) (some 0), .set (0, 1) (some 1), .set (0, 1) (some 0), .set (1, 0) none], 1, _,
      rfl, by decide, by simp, rfl⟩
  · exact ⟨[.set (0, 0) (some 0), .set (0, 1) (some 0), .set (1, 0) (some 1)], 1, _, rfl, by decide,
      by simp, rfl⟩

/-- C81 is false of the code: after a step of the descent the value is the amplitude of the old lattice, setting the same
spins again does not help, and the value of a hopping belongs neither to the old lattice nor to the new one.  The
quotient which decides on the hopping is smaller than one; with the new lattice it is larger, so that the hopping would
always be accepted. -/
theorem C81_stale : ∃ lp : LapackQr ℚ, LapackQrOk lp ∧ ∃ (st : SpinState 2 2 String ℚ) (cut : ℕ),
    descend (netEnv0 lp) gradOps0.env 1 spinLattice0 descentGradient = .ok descentLattice ∧
    spinEvents (netEnv0 lp) (spinLattice0, .empty) (descentHistory.map codeEvent) = .ok (descentLattice, st) ∧
    (∀ x, st.conf x = some (rowSpins x).val) ∧
    initializeSites (netEnv0 lp) descentLattice st (fun x => some (rowSpins x).val) = .ok st ∧
    spinValue (netEnv0 lp) cut st = .ok (sitesAmp id auxH0 auxV0 spinLattice0 rowSpins) ∧
    spinReplace (netEnv0 lp) cut descentLattice st (assignSpins [(0, 1), (1, 1)] [1, 0] [])
      (sitesAmp id auxH0 auxV0 spinLattice0 rowSpins) ' ' = .ok (37 / 6) ∧
    sitesAmp id auxH0 auxV0 spinLattice0 rowSpins ≠ sitesAmp id auxH0 auxV0 descentLattice rowSpins ∧
    (37 / 6 / sitesAmp id auxH0 auxV0 spinLattice0 rowSpins) ^ 2 < 1 ∧
    1 < (sitesAmp id auxH0 auxV0 descentLattice hoppedSpins / sitesAmp id auxH0 auxV0 descentLattice rowSpins) ^ 2 := by
  obtain ⟨lp, hlp⟩ := exists_lapackQrOk (K := ℚ)
  obtain ⟨-, st, c, h1, h2, h3⟩ := taken_holds (e := netEnv0 lp) (auxEnv0_ok hlp) descentHistory_edges
    descentHistory_taken
  obtain rfl : c = rowSpins := by
    funext x
    have hx : spinOf x none descentHistory = some (rowSpins x) := by
      obtain ⟨i, j⟩ := x
      fin_cases i <;> fin_cases j <;> decide
    exact Option.some.inj ((h2 x).symm.trans hx)
  obtain ⟨B1, hB1⟩ := C64_value (e := netEnv0 lp) (auxEnv0_ok hlp) spinLattice0_on (by decide) (by decide)
  obtain ⟨B2, hB2⟩ := C81_replace (e := netEnv0 lp) (auxEnv0_ok hlp) spinLattice0_on descentLattice_on
  obtain ⟨a1, a2, a3, a4, a5⟩ := descentAmps
  refine ⟨lp, hlp, st, max B1 B2, descentLattice_step lp, h1, h3.2, ?_, hB1 _ (Or.inl (le_max_left _ _)) _ _ h3.1 h3.2,
    ?_, ?_, ?_, ?_⟩
  · rw [show (fun x => some (rowSpins x).val) = st.conf from funext fun x => (h3.2 x).symm]
    exact C81_initialize _ _ _
  · rw [hB2 _ (Or.inl (le_max_right _ _)) rowSpins hoppedSpins st h3 [(0, 1), (1, 1)] [(0, 1), (1, 1)] [1, 0]
      (by decide +kernel) (congrArg Outcome.ok (by decide))]
    exact congrArg Outcome.ok a5
  · rw [a1, a2]
    norm_num
  · rw [a1]
    norm_num
  · rw [a2, a4]
    norm_num

/-- C81 applies to the second history: the value is that of a lattice with two old and two new tensors. -/
example : ∃ lp : LapackQr ℚ, LapackQrOk lp ∧ ∃ (st : SpinState 2 2 String ℚ) (c : SpinConfig 2 2 2),
    spinEvents (netEnv0 lp) (spinLattice0, .empty) (descentHistory'.map codeEvent) = .ok (descentLattice, st) ∧
    (∀ x, spinOf x none descentHistory' = some (c x)) ∧
    ∃ B, ∀ cut, (B ≤ cut ∨ cut = 2 ^ 64 - 1) → spinValue (netEnv0 lp) cut st = .ok (sitesAmp id auxH0 auxV0
      (fun i j => if i = j then spinLattice0 i j else descentLattice i j) c) := by
  obtain ⟨lp, hlp⟩ := exists_lapackQrOk (K := ℚ)
  refine ⟨lp, hlp, C81_value (e := netEnv0 lp) (auxEnv0_ok hlp) (by decide) (by decide) descentHistory'_edges
    (taken := fun i j => if i = j then spinLattice0 i j else descentLattice i j) fun x => ?_⟩
  have := descentHistory'_taken x
  simpa only [Fin.ext_iff] using this

/-- C81 applies: new auxiliaries have the new lattice. -/
example : ∃ lp : LapackQr ℚ, LapackQrOk lp ∧ ∃ (st st' : SpinState 2 2 String ℚ) (cut : ℕ),
    spinEvents (netEnv0 lp) (spinLattice0, .empty) (descentHistory.map codeEvent) = .ok (descentLattice, st) ∧
    renewSpin (netEnv0 lp) descentLattice st = .ok st' ∧ spinValue (netEnv0 lp) cut st' = .ok (1 / 4) := by
  obtain ⟨lp, hlp⟩ := exists_lapackQrOk (K := ℚ)
  obtain ⟨st, st', h1, h2, h3, h4⟩ := C81_renew (e := netEnv0 lp) (auxEnv0_ok hlp) descentHistory descentHistory_edges
  obtain ⟨B, hB⟩ := C64_value (e := netEnv0 lp) (auxEnv0_ok hlp) descentLattice_on (by decide) (by decide)
  refine ⟨lp, hlp, st, st', B, h1, h2, ?_⟩
  rw [hB _ (Or.inl le_rfl) rowSpins st' h3 fun x => ?_]
  · exact congrArg _ descentAmps.2.1
  · rw [h4]
    obtain ⟨i, j⟩ := x
    fin_cases i <;> fin_cases j <;> decide

/-- All spins change after the lattice: one is set to nothing in between, the others get other values. -/
def descentHistory'' : List (LatticeEvent 2 2 2 String ℚ) :=
  descentHistory ++ [.set (0, 0) none, .set (0, 1) (some 1), .set (1, 1) (some 0), .set (0, 0) (some 0),
    .set (1, 0) (some 0)]

/-- C81 applies to a history where all spins change after the lattice. -/
example : ∃ lp : LapackQr ℚ, LapackQrOk lp ∧ ∃ (st : SpinState 2 2 String ℚ) (c : SpinConfig 2 2 2),
    spinEvents (netEnv0 lp) (spinLattice0, .empty) (descentHistory''.map codeEvent) = .ok (descentLattice, st) ∧
    HasSpins (netEnv0 lp) descentLattice st c := by
  obtain ⟨lp, hlp⟩ := exists_lapackQrOk (K := ℚ)
  obtain ⟨st, c, h1, -, h2⟩ := C81_fresh_partial (e := netEnv0 lp) (auxEnv0_ok hlp)
    (start := spinLattice0) (h := auxH0) (v := auxV0) (hist := descentHistory'')
    ⟨spinLattice0_on, fun l hl => by
      rcases List.mem_append.1 hl with hl | hl
      · exact descentHistory_edges.2 l hl
      · simp at hl⟩ fun x => by
    obtain ⟨i, j⟩ := x
    fin_cases i <;> fin_cases j
    · exact ⟨descentHistory ++ [.set (0, 0) none, .set (0, 1) (some 1), .set (1, 1) (some 0)], 0, _, rfl, by decide,
        by simp, rfl⟩
    · exact ⟨descentHistory ++ [.set (0, 0) none], 1, _, rfl, by decide, by simp, rfl⟩
    · exact ⟨descentHistory ++ [.set (0, 0) none, .set (0, 1) (some 1), .set (1, 1) (some 0), .set (0, 0) (some 0)], 0,
        _, rfl, by decide, by simp, rfl⟩
    · exact ⟨descentHistory ++ [.set (0, 0) none, .set (0, 1) (some 1)], 0, _, rfl, by decide, by simp, rfl⟩
  exact ⟨lp, hlp, st, c, h1, h2⟩

/-- The gradient of a site is the tensor itself and the step is one. -/
example : ∃ lp : LapackQr ℚ, LapackQrOk lp ∧
    descend (M := 2) (N := 2) (netEnv0 lp) gradOps0.env 1 spinLattice0 (fun x => spinLattice0 x.1 x.2) =
      .error "division by zero" := by
  obtain ⟨lp, hlp⟩ := exists_lapackQrOk (K := ℚ)
  exact ⟨lp, hlp, C81_descend_zero (netEnv0_ok hlp) _ spinLattice0_on
    (fun x => ⟨(spinLattice0_on.fits x.1 x.1.2 x.2 x.2.2).dense, fun _ => rfl⟩) 1 ⟨(0, 0), fun i => by ring⟩⟩

end TAT
