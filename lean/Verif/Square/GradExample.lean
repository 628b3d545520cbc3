import Verif.Square.GradDerivative
import Verif.Square.SpinExample

/-!
# C67 for small lattices
-/

namespace TAT

/-- Rational scalars. -/
def gradOps0 : GradOps ℚ ℚ := ⟨ratOps, id, true, ⟨⟨8, 32768, 1, 1⟩, fun _ _ => 4, fun _ => true⟩⟩

theorem gradOps0_laws : GradLaws gradOps0 (RingHom.id ℚ) where
  scalar := C56_real_laws
  conj_eq _ := rfl
  conj_conj _ := rfl
  real _ _ := rfl

/-- The exchange of the spins of the first column, as a hopping. -/
def gradHop0 : List ((ElementTable ℚ × List Pos) × Char) :=
  [(([([0, 0], []), ([0, 1], [([1, 0], 1)]), ([1, 0], [([0, 1], 1)]), ([1, 1], [])], [(0, 0), (1, 0)]), ' ')]

/-- The exchange of the spins of the first row, as an observable. -/
def gradObs0 : Observable 2 2 ℚ := ⟨exchangeValueOf ℚ, exchangeTable, [(0, 0), (0, 1)], [(0, 0), (0, 1)]⟩

/-- The exchange of the spins of the second column, as the hamiltonian. -/
def gradHam0 : Observable 2 2 ℚ := ⟨exchangeValueOf ℚ, exchangeTable, [(1, 1), (0, 1)], [(1, 1), (0, 1)]⟩

theorem gradObs0_ok : ∀ o ∈ [gradObs0] ++ [gradHam0], ObservableOk 2 o ∧ Supported o.sites ∧
    ∀ a, Spins 2 o.positions.length a → ∃ b, Spins 2 o.positions.length b ∧ o.value (a ++ b) ≠ 0 := by
  intro o ho
  have : o = gradObs0 ∨ o = gradHam0 := by simpa using ho
  rcases this with rfl | rfl
  · exact ⟨⟨by decide +kernel, by decide +kernel, by decide⟩, Or.inr ⟨_, _, rfl, Or.inl (by unfold Adjacent; decide)⟩, exchange_rows⟩
  · exact ⟨⟨by decide +kernel, by decide +kernel, by decide⟩, Or.inr ⟨_, _, rfl, Or.inr (by unfold Adjacent; decide)⟩, exchange_rows⟩

theorem gradHop0_ok : ∀ t ∈ gradHop0, (∃ value, findHopping 2 t.1.2.length value = .ok t.1.1) ∧
    ∃ xs, sitesAt 2 2 t.1.2 = .ok xs := by
  intro t ht
  obtain rfl := List.mem_singleton.1 ht
  exact ⟨⟨exchangeValueOf ℚ, by decide +kernel⟩, [(0, 0), (1, 0)], by decide +kernel⟩

/-- The spins of the first step, and of the second. -/
def gradConf0 (x : LatticeSite 2 2) : Fin 2 := if x.2 = 0 then (x.1 : Fin 2).rev else (x.1 : Fin 2)

/-- The random numbers: in the first step the exchange back is rejected, in the second that forward. -/
def gradRandom0 (step k : ℕ) : ℕ × ℚ := (0, if step = k then 1 / 5 else 99 / 100)

abbrev gradAmp0 : SpinConfig 2 2 2 → ℚ := sitesAmp id auxH0 auxV0 spinLattice0

theorem outcome_eq {A : Type} {x : Outcome A} {a : A} {f : A → List (Fin 2) × ℚ} (hf : Function.Injective f)
    (h : (x.bind fun s => .ok (f s)) = .ok (f a)) : x = .ok a := by
  obtain ⟨s, rfl, h⟩ := bind_ok h
  rw [hf (Outcome.ok.inj h)]

theorem spins_injective : Function.Injective fun s : SpinConfig 2 2 2 × ℚ => ((latticeSites 2 2).map s.1, s.2) := by
  rintro ⟨c, a⟩ ⟨c', a'⟩ h
  obtain ⟨h1, rfl⟩ := Prod.mk.inj h
  have : c = c' := funext fun x => List.map_inj_left.1 h1 x (by revert x; decide)
  rw [this]

theorem gradVisits0 : Visits ratOps gradAmp0 (gradHop0.map Prod.fst) gradRandom0 (fun x : LatticeSite 2 2 => (x.1 : Fin 2)) 0
    [gradConf0, fun x : LatticeSite 2 2 => (x.1 : Fin 2)] :=
  ⟨outcome_eq spins_injective (by decide +kernel), outcome_eq spins_injective (by decide +kernel), trivial⟩

theorem gradValues0 : gradAmp0 (fun x => x.1) = 22 ∧ gradAmp0 gradConf0 = 23 ∧
    localValue gradAmp0 gradObs0 (fun x => x.1) = 1 ∧ localValue gradAmp0 gradObs0 gradConf0 = 24 / 23 ∧
    localValue gradAmp0 gradHam0 (fun x => x.1) = 37 / 22 ∧ localValue gradAmp0 gradHam0 gradConf0 = 25 / 23 := by
  decide +kernel

/-- A tensor for the site in the first row and the second column. -/
def gradNew0 : Tensor String NoSymmetry ℚ := cube ["D", "P", "L"] [1, 0, 0, 0, 0, 0, 0, 2]

theorem gradNew0_amp : sitesAmp id auxH0 auxV0 (setSite spinLattice0 0 1 gradNew0) (fun x : LatticeSite 2 2 => (x.1 : Fin 2)) = 10 ∧
    sitesAmp id auxH0 auxV0 (setSite spinLattice0 0 1 gradNew0) gradConf0 = 5 := by
  decide +kernel

/-- C67 applies: two steps of a chain with one observable and one term of the hamiltonian, the means and the squares of
their errors, and the gradient at one of the sites. -/
example : ∃ lp : LapackQr ℚ, ∃ st : SpinState 2 2 String ℚ, ∃ cut st' results g,
    setSpins (netEnv0 lp) spinLattice0 .empty (codeSets spinSets0) = .ok st ∧
    markov (netEnv0 lp) gradOps0 2 cut spinLattice0 gradHop0 ([gradObs0].map Observable.term)
      ([gradHam0].map Observable.term) 2 true true gradRandom0 st = .ok (st', results, some g) ∧
    results.map Prod.fst = [47 / 46, 1401 / 1012] ∧
    results.map Prod.snd = [.ok (1 / 2116), .ok (90601 / 1024144)] ∧
    siteInner id id auxH0 auxV0 2 ((0 : Fin 2), (1 : Fin 2)) (g (0, 1)) gradNew0 = 36120 / 512072 ∧
    ∀ x, st'.conf x = some (x.1 : Fin 2).val := by
  obtain ⟨lp, hlp⟩ := exists_lapackQrOk (K := ℚ)
  obtain ⟨st, h1, h2, h3⟩ := C64_set (e := netEnv0 lp) (auxEnv0_ok hlp) spinLattice0_on spinSets0
  have hc : ∀ x, st.conf x = some (x.1 : Fin 2).val := fun x => (h3 x).trans (spinSets0_last x)
  obtain ⟨B, hB⟩ := C67_returns (e := netEnv0 lp) (auxEnv0_ok hlp) spinLattice0_on gradOps0_laws (by decide) (by decide)
    (by decide) gradHop0_ok gradObs0_ok
  obtain ⟨B', hB'⟩ := C67_markov (e := netEnv0 lp) (auxEnv0_ok hlp) spinLattice0_on gradOps0_laws (by decide) (by decide)
    gradHop0_ok fun o ho => (gradObs0_ok o ho).1
  obtain ⟨w1, w2, v1, v2, v3, v4⟩ := gradValues0
  obtain ⟨⟨st', results, grad⟩, hr⟩ := hB (max B B') (Or.inl (le_max_left _ _)) true true gradRandom0 st (fun x => x.1)
    ⟨h2, hc⟩ [gradConf0, fun x => x.1] gradVisits0
    (by
      intro c' hc'
      rcases List.mem_cons.1 hc' with rfl | hc'
      · exact fun h => absurd (w2.symm.trans h) (by norm_num)
      · obtain rfl := List.mem_singleton.1 hc'
        exact fun h => absurd (w1.symm.trans h) (by norm_num))
    fun _ => ⟨by simp, by simp⟩
  obtain ⟨cs, k1, k2, k3, -, k4, k5, -, -, k6⟩ := hB' (max B B') (Or.inl (le_max_right _ _)) 2 true true gradRandom0 st
    (fun x => x.1) ⟨h2, hc⟩ _ _ _ hr
  obtain rfl := Visits.unique k2 gradVisits0 k1
  obtain ⟨g, rfl, k7⟩ := k6 rfl
  refine ⟨lp, st, _, st', results, g, h1, hr, (k4 (by decide)).trans ?_, (k5 le_rfl).trans ?_,
    ((k7 (0, 1)).2 gradNew0 (cube_site (by decide) rfl (by decide) rfl rfl rfl rfl (by decide))).trans ?_, k3.2⟩
  · show [meanOver _ fun c => localValue gradAmp0 gradObs0 c, meanOver _ fun c => localValue gradAmp0 gradHam0 c] = _
    simp only [meanOver, List.map_cons, List.map_nil, v1, v2, v3, v4, List.sum_cons, List.sum_nil, List.length_cons,
      List.length_nil]
    norm_num
  · show [Outcome.ok (((_ : List (SpinConfig 2 2 2)).map fun c => (localValue gradAmp0 gradObs0 c -
        meanOver _ fun c => localValue gradAmp0 gradObs0 c) ^ 2).sum / _),
      Outcome.ok (((_ : List (SpinConfig 2 2 2)).map fun c => (localValue gradAmp0 gradHam0 c -
        meanOver _ fun c => localValue gradAmp0 gradHam0 c) ^ 2).sum / _)] = _
    simp only [meanOver, List.map_cons, List.map_nil, v1, v2, v3, v4, List.sum_cons, List.sum_nil, List.length_cons,
      List.length_nil]
    norm_num
  · have e1 : ∀ c, localEnergy gradAmp0 [gradHam0] c = localValue gradAmp0 gradHam0 c := fun c => by
      simp [localEnergy]
    show 2 * meanOver [gradConf0, fun x => x.1] (fun c => localEnergy gradAmp0 [gradHam0] c *
        (sitesAmp id auxH0 auxV0 (setSite spinLattice0 0 1 gradNew0) c / gradAmp0 c)) -
      2 * meanOver [gradConf0, fun x => x.1] (fun c => localEnergy gradAmp0 [gradHam0] c) *
        meanOver [gradConf0, fun x => x.1] (fun c =>
          sitesAmp id auxH0 auxV0 (setSite spinLattice0 0 1 gradNew0) c / gradAmp0 c) = _
    simp only [meanOver, List.map_cons, List.map_nil, e1, v3, v4, w1, w2, gradNew0_amp.1, gradNew0_amp.2, List.sum_cons,
      List.sum_nil, List.length_cons, List.length_nil]
    norm_num

end TAT
