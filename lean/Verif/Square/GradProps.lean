import Verif.Square.GradRun
import Mathlib.Tactic.LinearCombination

/-!
# C67: the statistics and the gradient of `markov`
-/

namespace TAT

set_option linter.unusedSectionVars false

variable {ν α β R : Type} [LinearOrder ν] [Field α] [LinearOrder β] [Field β] {e : NetEnv ν α β}
  {M N d : ℕ} {lattice : ℕ → ℕ → Tensor ν NoSymmetry α} {h v : ℕ → ℕ → Option ℕ} {cut : ℕ}
  {w : SpinConfig M N d → α}

/-- What the code is given of an observable. -/
def Observable.term (o : Observable M N α) : ElementTable α × List Pos := (o.table, o.positions)

/-- The energy of a configuration: `⟨c|H|ψ⟩ / ⟨c|ψ⟩`. -/
def localEnergy (w : SpinConfig M N d → α) (hams : List (Observable M N α)) (c : SpinConfig M N d) : α :=
  (hams.map fun o => localValue w o c).sum

/-! ## Means -/

theorem finishTerms_spec [Field R] [DecidableEq R] {total : ℕ} (os : List (Bool × Observable M N α))
    {A B : Bool × Observable M N α → R} (hT : (total : R) ≠ 0) :
    finishTerms total (sumsOf os A B) = .ok (os.map fun o => (A o / total,
      divScalar (B o / total - A o / total * (A o / total)) ((total - 1 : ℕ) : R))) := by
  induction os with
  | nil => rfl
  | cons o os ih =>
    show (finishTerm total (A o, B o)).bind _ = _
    have : finishTerm total (A o, B o) = .ok (A o / total,
      divScalar (B o / total - A o / total * (A o / total)) ((total - 1 : ℕ) : R)) := by
      rw [finishTerm, divScalar, if_neg hT, Outcome.bind, divScalar, if_neg hT, Outcome.bind]
    rw [this, Outcome.bind]
    show (finishTerms total (sumsOf os A B)).bind _ = _
    rw [ih]
    rfl

theorem sum_square_sub {A K : Type} [Field K] (cs : List A) (f : A → K) (m : K) :
    (cs.map fun c => (f c - m) ^ 2).sum =
      (cs.map fun c => f c * f c).sum - 2 * m * (cs.map f).sum + cs.length * (m * m) := by
  induction cs with
  | nil => simp
  | cons c cs ih =>
    simp only [List.map_cons, List.sum_cons, ih, List.length_cons, Nat.cast_add, Nat.cast_one]
    ring

/-- The mean of the squares minus the square of the mean. -/
theorem variance_eq {A K : Type} [Field K] {cs : List A} (f : A → K) (hT : (cs.length : K) ≠ 0) :
    (cs.map fun c => f c * f c).sum / cs.length - meanOver cs f * meanOver cs f =
      (cs.map fun c => (f c - meanOver cs f) ^ 2).sum / cs.length := by
  rw [sum_square_sub]
  have : (cs.map f).sum = cs.length * meanOver cs f := by
    rw [meanOver]
    field_simp
  rw [this]
  field_simp
  ring

/-! ## The inner product -/

/-- `siteInner` for a function of the indices. -/
def siteForm (conj : α → α) (nm : String → ν) (h v : ℕ → ℕ → Option ℕ) (d : ℕ) (x : LatticeSite M N)
    (f : (ν → ℕ) → α) (b : Tensor ν NoSymmetry α) : α :=
  ∑ l ∈ Finset.range ((h x.1 x.2).getD 1), ∑ r ∈ Finset.range ((h x.1 (x.2 + 1)).getD 1),
    ∑ u ∈ Finset.range ((v x.1 x.2).getD 1), ∑ b' ∈ Finset.range ((v (x.1 + 1) x.2).getD 1),
      ∑ p ∈ Finset.range d, conj (f (netIndex nm l r u b' p)) * val b (netIndex nm l r u b' p)

variable {conj : α →+* α} {nm : String → ν} {x : LatticeSite M N} {δ : Tensor ν NoSymmetry α}

theorem siteForm_sub (f g : (ν → ℕ) → α) :
    siteForm conj nm h v d x (fun y => f y - g y) δ = siteForm conj nm h v d x f δ - siteForm conj nm h v d x g δ := by
  simp only [siteForm, map_sub, sub_mul, Finset.sum_sub_distrib]

theorem siteForm_mul (f : (ν → ℕ) → α) (k : α) :
    siteForm conj nm h v d x (fun y => f y * k) δ = conj k * siteForm conj nm h v d x f δ := by
  simp only [siteForm, map_mul, Finset.mul_sum]
  refine Finset.sum_congr rfl fun _ _ => Finset.sum_congr rfl fun _ _ => Finset.sum_congr rfl fun _ _ =>
    Finset.sum_congr rfl fun _ _ => Finset.sum_congr rfl fun _ _ => ?_
  ring

theorem siteForm_sum {A : Type} (cs : List A) (f : A → (ν → ℕ) → α) :
    siteForm conj nm h v d x (fun y => (cs.map fun c => f c y).sum) δ =
      (cs.map fun c => siteForm conj nm h v d x (f c) δ).sum := by
  induction cs with
  | nil => simp [siteForm]
  | cons c cs ih =>
    rw [List.map_cons, List.sum_cons, ← ih]
    simp only [siteForm, List.map_cons, List.sum_cons, map_add, add_mul, Finset.sum_add_distrib]

theorem siteInner_eq (a : Tensor ν NoSymmetry α) {f : (ν → ℕ) → α} (hf : ∀ y, val a y = f y) :
    siteInner conj nm h v d x a δ = siteForm conj nm h v d x f δ := by
  simp only [siteInner, siteForm, hf]

theorem gradientAt_spec [DecidableEq α] {ops : GradOps α R} {total : ℕ} (hT : (total : α) ≠ 0) (E : α)
    {s : Tensor ν NoSymmetry α × Tensor ν NoSymmetry α} (h1 : EdgesAt e.nm h v d x s.1)
    (h2 : EdgesAt e.nm h v d x s.2) :
    ∃ g, gradientAt e ops total E s = .ok g ∧ EdgesAt e.nm h v d x g ∧
      ∀ y, val g y = 2 * (val s.1 y / total) - 2 * (E / total) * (val s.2 y / total) := by
  obtain ⟨a, a1, a2, a3, a4⟩ := dense_scalarNumber e.junk (f := fun y => y / (total : α)) h1.dense (zero_div _)
  obtain ⟨a', b1, b2, b3, b4⟩ := dense_scalarNumber e.junk (f := fun y => 2 * y) a2 (mul_zero _)
  obtain ⟨c, c1, c2, c3, c4⟩ := dense_scalarNumber e.junk (f := fun y => y / (total : α)) h2.dense (zero_div _)
  obtain ⟨c', d1, d2, d3, d4⟩ := dense_scalarNumber e.junk (f := fun y => 2 * (E / (total : α)) * y) c2 (mul_zero _)
  obtain ⟨g, g1, g2, g3, g4⟩ := dense_binary ops.env e.junk (op := (· - ·)) (sub_zero 0) b2 d2 fun n => by
    rw [b3, a3, d3, c3]
    exact SiteEdges.leg_eq h1 h2 n
  refine ⟨g, ?_, SiteEdges.same h1 g2 fun n => by rw [g3, b3, a3], fun y => ?_⟩
  · rw [gradientAt, if_neg hT, a1, Outcome.bind, b1, Outcome.bind, c1, Outcome.bind, d1, Outcome.bind, g1]
  · rw [g4, b4, a4, d4, c4]

theorem zeroLike_ok {t : Tensor ν NoSymmetry α} (ht : EdgesAt e.nm h v d x t) :
    ∃ z, zeroLike e t = .ok z ∧ EdgesAt e.nm h v d x z ∧ ∀ y, val z y = 0 := by
  obtain ⟨r, h1, h2, h3, h4⟩ := dense_zero e.junk ht.dense
  exact ⟨zero r, by rw [zeroLike, h1]; rfl, SiteEdges.same ht h2 h3, h4⟩

/-! ## C67 -/

/-- The terms of `markov`. -/
def allTerms (obs hams : List (Observable M N α)) (energy : Bool) : List (Bool × Observable M N α) :=
  obs.map (fun o => (false, o)) ++ if energy then hams.map (fun o => (true, o)) else []

theorem allTerms_code (obs hams : List (Observable M N α)) (energy : Bool) :
    ((obs.map Observable.term).map (fun t => (⟨false, t.1, t.2⟩ : Observer α)) ++
      if energy then (hams.map Observable.term).map (fun t => (⟨true, t.1, t.2⟩ : Observer α)) else []) =
      (allTerms obs hams energy).map termOf := by
  cases energy <;> simp [allTerms, Observable.term, termOf, Function.comp_def]

theorem energyOf_all (obs hams : List (Observable M N α)) (c : SpinConfig M N d) :
    energyOf w (allTerms obs hams true) c = localEnergy w hams c := by
  simp [energyOf, allTerms, localEnergy, Function.comp_def]

/-- What the auxiliaries provide if nothing is cut. -/
theorem samplesOn (he : AuxEnvOk e.toAuxEnv) (hs : SitesOn e.nm M N d lattice h v) [DecidableEq α] [Field R]
    [LinearOrder R] {ops : GradOps α R} (laws : GradLaws ops conj) (hM : 0 < M) (hN : 0 < N)
    {hop : List ((ElementTable α × List Pos) × Char)}
    (ht : ∀ t ∈ hop, (∃ value, findHopping d t.1.2.length value = .ok t.1.1) ∧ ∃ xs, sitesAt M N t.1.2 = .ok xs) :
    ∃ B, ∀ cut, Keeps B cut → ∃ O : LatticeSite M N → SpinConfig M N d → Tensor ν NoSymmetry α,
      SamplesOn e ops lattice h v d cut hop (sitesAmp e.nm h v lattice) O ∧
      ∀ x c, sitesAmp e.nm h v lattice c ≠ 0 → ∀ δ, EdgesAt e.nm h v d x δ →
        siteInner conj e.nm h v d x (O x c) δ =
          sitesAmp e.nm h v (setSite lattice x.1 x.2 δ) c / sitesAmp e.nm h v lattice c := by
  obtain ⟨B1, h1⟩ := computesAmp he hs hM hN
  obtain ⟨B2, h2⟩ := siteHole_ok he hs laws
  obtain ⟨B3, h3⟩ := C64_markov he hs (ops := ops.toScalarOps) hM hN ht
  refine ⟨max B1 (max B2 B3), fun cut hc => ?_⟩
  obtain ⟨O, hO⟩ := h2 cut (Keeps.le (Keeps.le hc (le_max_right _ _)) (le_max_left _ _))
  exact ⟨O, ⟨h1 cut (Keeps.le hc (le_max_left _ _)), fun x c => (hO x c).1, fun x c hw => ((hO x c).2 hw).1,
    h3 cut (Keeps.le (Keeps.le hc (le_max_right _ _)) (le_max_right _ _))⟩, fun x c hw => ((hO x c).2 hw).2⟩

section

variable [DecidableEq α] [Field R] [LinearOrder R] {ops : GradOps α R}
  {hop : List ((ElementTable α × List Pos) × Char)} {obs hams : List (Observable M N α)}

/-- The state before the first step. -/
theorem start_ok (hs : SitesOn e.nm M N d lattice h v) (gradient : Bool) :
    ∃ holes : LatticeSite M N → Tensor ν NoSymmetry α × Tensor ν NoSymmetry α,
      (if gradient then
        forSites (fun x => (zeroLike e (lattice x.1 x.2)).bind fun t => .ok (t, t)) fun _ => (oneTensor, oneTensor)
      else .ok fun _ => (oneTensor, oneTensor)) = .ok holes ∧
      (gradient = true → HolesOn e.nm h v d holes (fun _ _ => 0) fun _ _ => 0) := by
  cases gradient with
  | false => exact ⟨_, rfl, fun h => by cases h⟩
  | true =>
    have : ∀ x : LatticeSite M N, ∃ z, zeroLike e (lattice x.1 x.2) = .ok z ∧ EdgesAt e.nm h v d x z ∧
      ∀ y, val z y = 0 := fun x => zeroLike_ok (hs.fits x.1 x.1.2 x.2 x.2.2)
    choose z hz using this
    refine ⟨fun x => (z x, z x), ?_, fun _ x => ⟨(hz x).2, (hz x).2⟩⟩
    rw [if_pos rfl]
    exact forSites_ok (fun x => by rw [(hz x).1]; rfl) _

/-- C67: if nothing is cut, the hole of a site has the edges of the site, and its inner product with any tensor `δ`
there is the amplitude of the network with `δ` at the site, divided by the amplitude; if the amplitude is zero, the
code divides by it. -/
theorem C67_hole (he : AuxEnvOk e.toAuxEnv) (hs : SitesOn e.nm M N d lattice h v) (laws : GradLaws ops conj) :
    ∃ B, ∀ cut, (B ≤ cut ∨ cut = 2 ^ 64 - 1) → ∀ (st : SpinState M N ν α) (c : SpinConfig M N d),
      HasSpins e lattice st c → ∀ x : LatticeSite M N,
      (sitesAmp e.nm h v lattice c = 0 → siteHole e ops d cut st (sitesAmp e.nm h v lattice c) x = .error "nan") ∧
      (sitesAmp e.nm h v lattice c ≠ 0 → ∃ O, siteHole e ops d cut st (sitesAmp e.nm h v lattice c) x = .ok O ∧
        EdgesAt e.nm h v d x O ∧ ∀ δ, EdgesAt e.nm h v d x δ → siteInner conj e.nm h v d x O δ =
          sitesAmp e.nm h v (setSite lattice x.1 x.2 δ) c / sitesAmp e.nm h v lattice c) := by
  obtain ⟨B, hB⟩ := siteHole_ok he hs laws
  refine ⟨B, fun cut hc st c hst x => ?_⟩
  obtain ⟨O, hO⟩ := hB cut hc
  obtain ⟨h1, h2⟩ := hO x c
  exact ⟨fun hw => (h1 st hst).trans (if_pos hw), fun hw => ⟨O x c, (h1 st hst).trans (if_neg hw), h2 hw⟩⟩

/-- C67: if nothing is cut and `markov` returns, then it has visited the configurations of a Markov chain; the
results are the means of the local values of the observables over them, the second results are the squares of the
errors of these means (sum of the squares of the deviations, divided by `n (n - 1)`), and the gradient of a site has
the edges of the site and its inner product with any tensor `δ` there is
`2 ⟨conj E · w_δ / w⟩ - 2 conj ⟨E⟩ ⟨w_δ / w⟩`, where `E` is the local energy, `w` the amplitude, `w_δ` the amplitude
of the network with `δ` at the site and `⟨ ⟩` the mean over the configurations. -/
theorem C67_markov (he : AuxEnvOk e.toAuxEnv) (hs : SitesOn e.nm M N d lattice h v) [CharZero α] [CharZero R]
    (laws : GradLaws ops conj) (hM : 0 < M) (hN : 0 < N)
    (ht : ∀ t ∈ hop, (∃ value, findHopping d t.1.2.length value = .ok t.1.1) ∧ ∃ xs, sitesAt M N t.1.2 = .ok xs)
    (ho : ∀ o ∈ obs ++ hams, ObservableOk d o) :
    ∃ B, ∀ cut, (B ≤ cut ∨ cut = 2 ^ 64 - 1) → ∀ (total : ℕ) (energy gradient : Bool) (random : ℕ → ℕ → ℕ × R)
      (st : SpinState M N ν α) (c : SpinConfig M N d), HasSpins e lattice st c →
      ∀ st' results grad, markov e ops d cut lattice hop (obs.map Observable.term) (hams.map Observable.term) total
        energy gradient random st = .ok (st', results, grad) →
      ∃ cs : List (SpinConfig M N d), cs.length = total ∧
        Visits ops.toScalarOps (sitesAmp e.nm h v lattice) (hop.map Prod.fst) random c 0 cs ∧
        HasSpins e lattice st' (cs.getLastD c) ∧
        (obs ++ (if energy || gradient then hams else []) ≠ [] → ∀ c' ∈ cs, sitesAmp e.nm h v lattice c' ≠ 0) ∧
        (total ≠ 0 → results.map Prod.fst = (obs ++ if energy || gradient then hams else []).map fun o =>
          meanOver cs fun c' => ops.re (localValue (sitesAmp e.nm h v lattice) o c')) ∧
        (2 ≤ total → results.map Prod.snd = (obs ++ if energy || gradient then hams else []).map fun o =>
          .ok ((cs.map fun c' => (ops.re (localValue (sitesAmp e.nm h v lattice) o c') -
            meanOver cs fun c' => ops.re (localValue (sitesAmp e.nm h v lattice) o c')) ^ 2).sum /
              (total * (total - 1)))) ∧
        (total = 1 → results.map Prod.snd = (obs ++ if energy || gradient then hams else []).map fun _ =>
          .error "nan") ∧
        (gradient = false → grad = none) ∧
        (gradient = true → ∃ g, grad = some g ∧ ∀ x, EdgesAt e.nm h v d x (g x) ∧
          ∀ δ, EdgesAt e.nm h v d x δ → siteInner conj e.nm h v d x (g x) δ =
            2 * meanOver cs (fun c' => conj (localEnergy (sitesAmp e.nm h v lattice) hams c') *
              (sitesAmp e.nm h v (setSite lattice x.1 x.2 δ) c' / sitesAmp e.nm h v lattice c')) -
            2 * conj (meanOver cs (localEnergy (sitesAmp e.nm h v lattice) hams)) *
              meanOver cs fun c' =>
                sitesAmp e.nm h v (setSite lattice x.1 x.2 δ) c' / sitesAmp e.nm h v lattice c') := by
  obtain ⟨B, hB⟩ := samplesOn he hs laws hM hN ht
  refine ⟨B, fun cut hc total energy gradient random st c hst st' results grad hm => ?_⟩
  obtain ⟨O, hS, hO⟩ := hB cut hc
  obtain ⟨w, hw⟩ : ∃ w : SpinConfig M N d → α, w = sitesAmp e.nm h v lattice := ⟨_, rfl⟩
  rw [← hw] at hS ⊢
  simp only [← hw] at hO ⊢
  obtain ⟨os, hos⟩ : ∃ os, os = allTerms obs hams (energy || gradient) := ⟨_, rfl⟩
  have hok : ∀ o ∈ os, ObservableOk d o.2 := by
    intro o hmem
    rw [hos, allTerms, List.mem_append] at hmem
    rcases hmem with hmem | hmem
    · obtain ⟨o', h1, rfl⟩ := List.mem_map.1 hmem
      exact ho _ (List.mem_append_left _ h1)
    · split at hmem
      · obtain ⟨o', h1, rfl⟩ := List.mem_map.1 hmem
        exact ho _ (List.mem_append_right _ h1)
      · simp at hmem
  have hsnd : (obs ++ if energy || gradient then hams else []) = os.map Prod.snd := by
    rw [hos, allTerms]
    split <;> simp [Function.comp_def]
  rw [markov] at hm
  obtain ⟨holes, z1, z2⟩ := start_ok (e := e) hs gradient
  obtain ⟨holes', y1, hm⟩ := bind_ok hm
  obtain rfl := Outcome.ok.inj (z1.symm.trans y1)
  rw [hS.amp.value c st hst.1 hst.2, Outcome.bind] at hm
  obtain ⟨s, h1, hm⟩ := bind_ok hm
  rw [allTerms_code, ← hos, List.range_eq_range'] at h1
  obtain ⟨cs, i1, i2, i3, i4⟩ := sampleSteps_spec (O := O) (os := os) (A := fun _ => 0) (B := fun _ => 0) (E := 0)
    laws.scalar hS hM hN hok random total 0 ⟨hst, rfl, by rw [List.map_map]; rfl, rfl, z2⟩ s h1
  obtain ⟨rs, h2, hm⟩ := bind_ok hm
  have hT : total ≠ 0 → (total : R) ≠ 0 := fun h => Nat.cast_ne_zero.2 h
  have hrs : total ≠ 0 → rs = os.map fun o => (meanOver cs fun c' => ops.re (localValue w o.2 c'),
      divScalar ((cs.map fun c' => ops.re (localValue w o.2 c') * ops.re (localValue w o.2 c')).sum / total -
        (meanOver cs fun c' => ops.re (localValue w o.2 c')) * (meanOver cs fun c' => ops.re (localValue w o.2 c')))
        ((total - 1 : ℕ) : R)) := by
    intro h
    rw [if_neg h, i4.sums, finishTerms_spec os (hT h)] at h2
    rw [← Outcome.ok.inj h2]
    simp only [zero_add, meanOver, i1]
  have hend : results = rs ∧ st' = s.spin := by
    split at hm
    · cases hm
    · split at hm
      · obtain ⟨g, -, hm⟩ := bind_ok hm
        have := Outcome.ok.inj hm
        exact ⟨(congrArg (fun q => q.2.1) this).symm, (congrArg (fun q => q.1) this).symm⟩
      · have := Outcome.ok.inj hm
        exact ⟨(congrArg (fun q => q.2.1) this).symm, (congrArg (fun q => q.1) this).symm⟩
  refine ⟨cs, i1, i2, ?_, fun hne => ?_, fun h => ?_, fun h => ?_, fun h => ?_, fun h => ?_, fun hg' => ?_⟩
  · rw [hend.2]
    exact i4.spin
  · refine i3 (Or.inl fun h => hne ?_)
    rw [hsnd, h]
    rfl
  · rw [hend.1, hrs h, hsnd, List.map_map, List.map_map]
    rfl
  · have h0 : total ≠ 0 := by omega
    rw [hend.1, hrs h0, hsnd, List.map_map, List.map_map]
    refine List.map_congr_left fun o _ => ?_
    simp only [Function.comp_apply]
    have hT' : (cs.length : R) ≠ 0 := by rw [i1]; exact hT h0
    have h1' : ((total - 1 : ℕ) : R) ≠ 0 := Nat.cast_ne_zero.2 (by omega)
    rw [divScalar, if_neg h1', ← i1, variance_eq _ hT', i1, div_div, Nat.cast_sub (by omega), Nat.cast_one]
  · rw [hend.1, hrs (by omega), hsnd, List.map_map, List.map_map]
    refine List.map_congr_left fun o _ => ?_
    simp only [Function.comp_apply]
    rw [divScalar, if_pos (by rw [h]; simp)]
  · by_cases hn : (energy || gradient) = true ∧ (total = 0 ∨ List.map Observable.term hams = [])
    · rw [if_pos hn] at hm
      cases hm
    · rw [if_neg hn, if_neg (by rw [h]; simp)] at hm
      exact (congrArg (fun q => q.2.2) (Outcome.ok.inj hm)).symm
  · by_cases hn : (energy || gradient) = true ∧ (total = 0 ∨ List.map Observable.term hams = [])
    · rw [if_pos hn] at hm
      cases hm
    · rw [if_neg hn, if_pos hg'] at hm
      obtain ⟨g, hg, hm⟩ := bind_ok hm
      have h0 : total ≠ 0 := fun h' => hn ⟨by rw [hg']; simp, Or.inl h'⟩
      have hTα : (total : α) ≠ 0 := Nat.cast_ne_zero.2 h0
      refine ⟨g, (congrArg (fun q => q.2.2) (Outcome.ok.inj hm)).symm, fun x => ?_⟩
      obtain ⟨⟨q1, q2⟩, q3, q4⟩ := i4.holes hg' x
      obtain ⟨g', g1, g2, g3⟩ := gradientAt_spec (ops := ops) hTα s.sumEs q1 q3
      obtain hgx := Outcome.ok.inj ((forSites_spec hg x).symm.trans g1)
      rw [hgx]
      refine ⟨g2, fun δ hδ => ?_⟩
      have hE : ∀ c', energyOf w os c' = localEnergy w hams c' := fun c' => by
        rw [hos, hg', Bool.or_true, energyOf_all]
      have hval : ∀ y, val g' y =
          (cs.map fun c' => val (O x c') y * energyOf w os c').sum * (2 / total) -
            (cs.map fun c' => val (O x c') y).sum * (2 * ((cs.map (energyOf w os)).sum / total) / total) := by
        intro y
        rw [g3, q2, q4, i4.sumEs, if_pos hg']
        ring
      have hin : ∀ c' ∈ cs, sitesAmp e.nm h v (setSite lattice x.1 x.2 δ) c' / w c' =
          siteForm conj e.nm h v d x (fun y => val (O x c') y) δ := fun c' hc' => by
        rw [← hO x c' (i3 (Or.inr hg') c' hc') δ hδ, siteInner_eq _ fun _ => rfl]
      rw [siteInner_eq g' hval, siteForm_sub, siteForm_mul, siteForm_mul,
        siteForm_sum cs fun c' y => val (O x c') y * energyOf w os c', siteForm_sum cs fun c' y => val (O x c') y]
      have e1 : (cs.map fun c' => siteForm conj e.nm h v d x (fun y => val (O x c') y * energyOf w os c') δ) =
          cs.map fun c' => conj (localEnergy w hams c') *
            (sitesAmp e.nm h v (setSite lattice x.1 x.2 δ) c' / w c') :=
        List.map_congr_left fun c' hc' => by rw [siteForm_mul, hE, hin c' hc']
      have e2 : (cs.map fun c' => siteForm conj e.nm h v d x (fun y => val (O x c') y) δ) =
          cs.map fun c' => sitesAmp e.nm h v (setSite lattice x.1 x.2 δ) c' / w c' :=
        List.map_congr_left fun c' hc' => (hin c' hc').symm
      have e3 : cs.map (energyOf w os) = cs.map (localEnergy w hams) := List.map_congr_left fun c' _ => hE c'
      rw [e1, e2, e3, meanOver, meanOver, meanOver, i1]
      simp only [map_div₀, map_mul, map_natCast, map_ofNat]
      ring

/-- C67: `markov` returns if the chain runs, no amplitude on the way is zero, the sites of every observable have
their auxiliaries and no row of its matrix is empty. -/
theorem C67_returns (he : AuxEnvOk e.toAuxEnv) (hs : SitesOn e.nm M N d lattice h v) [CharZero α] [CharZero R]
    (laws : GradLaws ops conj) (hM : 0 < M) (hN : 0 < N) (hd : 0 < d)
    (ht : ∀ t ∈ hop, (∃ value, findHopping d t.1.2.length value = .ok t.1.1) ∧ ∃ xs, sitesAt M N t.1.2 = .ok xs)
    (ho : ∀ o ∈ obs ++ hams, ObservableOk d o ∧ Supported o.sites ∧
      ∀ a, Spins d o.positions.length a → ∃ b, Spins d o.positions.length b ∧ o.value (a ++ b) ≠ 0) :
    ∃ B, ∀ cut, (B ≤ cut ∨ cut = 2 ^ 64 - 1) → ∀ (energy gradient : Bool) (random : ℕ → ℕ → ℕ × R)
      (st : SpinState M N ν α) (c : SpinConfig M N d), HasSpins e lattice st c → ∀ cs : List (SpinConfig M N d),
      Visits ops.toScalarOps (sitesAmp e.nm h v lattice) (hop.map Prod.fst) random c 0 cs →
      (∀ c' ∈ cs, sitesAmp e.nm h v lattice c' ≠ 0) →
      ((energy || gradient) = true → cs ≠ [] ∧ hams ≠ []) →
      ∃ r, markov e ops d cut lattice hop (obs.map Observable.term) (hams.map Observable.term) cs.length
        energy gradient random st = .ok r := by
  obtain ⟨B, hB⟩ := samplesOn he hs laws hM hN ht
  refine ⟨B, fun cut hc energy gradient random st c hst cs hv hw hne => ?_⟩
  obtain ⟨O, hS, hO⟩ := hB cut hc
  obtain ⟨os, hos⟩ : ∃ os, os = allTerms obs hams (energy || gradient) := ⟨_, rfl⟩
  have hok : ∀ o ∈ os, o.2 ∈ obs ++ hams := by
    intro o hmem
    rw [hos, allTerms, List.mem_append] at hmem
    rcases hmem with hmem | hmem
    · obtain ⟨o', h1, rfl⟩ := List.mem_map.1 hmem
      exact List.mem_append_left _ h1
    · split at hmem
      · obtain ⟨o', h1, rfl⟩ := List.mem_map.1 hmem
        exact List.mem_append_right _ h1
      · simp at hmem
  rw [markov]
  obtain ⟨holes, z1, z2⟩ := start_ok (e := e) hs gradient
  obtain ⟨s, h1⟩ := sampleSteps_returns (O := O) (os := os) (A := fun _ => 0) (B := fun _ => 0) (E := 0)
    (s := ⟨st, sitesAmp e.nm h v lattice c, (os.map termOf).map fun o => (o, 0, 0), 0, holes⟩)
    laws.scalar hS hM hN (fun o hmem => (ho _ (hok o hmem)).1) random cs 0
    ⟨hst, rfl, by rw [List.map_map]; rfl, rfl, z2⟩ hv hw fun c' hc' o hmem => by
      obtain ⟨k1, k2, k3⟩ := ho _ (hok o hmem)
      exact observeTerm_returns _ _ _ _ _ hd k1.table _ k1.sites k2 k3 c' (hw c' hc')
  obtain ⟨cs', i1, -, -, i4⟩ := sampleSteps_spec (O := O) (os := os) (A := fun _ => 0) (B := fun _ => 0) (E := 0)
    laws.scalar hS hM hN (fun o hmem => (ho _ (hok o hmem)).1) random cs.length 0
    ⟨hst, rfl, by rw [List.map_map]; rfl, rfl, z2⟩ s h1
  rw [z1, Outcome.bind, hS.amp.value c st hst.1 hst.2, Outcome.bind, allTerms_code, ← hos, List.range_eq_range', h1,
    Outcome.bind]
  have hfin : ∃ rs, finishTerms cs.length (if cs.length = 0 then [] else s.sums) = .ok rs := by
    split
    · exact ⟨[], rfl⟩
    · next h0 =>
      rw [i4.sums, finishTerms_spec os (Nat.cast_ne_zero.2 h0)]
      exact ⟨_, rfl⟩
  obtain ⟨rs, hrs⟩ := hfin
  rw [hrs, Outcome.bind, if_neg]
  · cases hg : gradient with
    | false => exact ⟨_, rfl⟩
    | true =>
      obtain ⟨n1, n2⟩ := hne (by rw [hg, Bool.or_true])
      have hT : (cs.length : α) ≠ 0 := Nat.cast_ne_zero.2 fun h => n1 (List.length_eq_zero_iff.1 h)
      have : ∀ x, ∃ g, gradientAt e ops cs.length s.sumEs (s.holes x) = .ok g := fun x => by
        obtain ⟨⟨q1, q2⟩, q3, q4⟩ := i4.holes hg x
        obtain ⟨g', g1, g2, g3⟩ := gradientAt_spec (ops := ops) hT s.sumEs q1 q3
        exact ⟨g', g1⟩
      choose g hgx using this
      rw [if_pos rfl, forSites_ok hgx]
      exact ⟨_, rfl⟩
  · rintro ⟨h1, h2⟩
    obtain ⟨n1, n2⟩ := hne h1
    rcases h2 with h2 | h2
    · exact n1 (List.length_eq_zero_iff.1 h2)
    · exact n2 (List.map_eq_nil_iff.1 h2)

/-- The configurations of a chain are determined by its start, the random numbers and their number. -/
theorem Visits.unique {ops : ScalarOps α R} {w : SpinConfig M N d → α} {hop : List (ElementTable α × List Pos)}
    {random : ℕ → ℕ → ℕ × R} {cs cs' : List (SpinConfig M N d)} {c : SpinConfig M N d} {k : ℕ}
    (h : Visits ops w hop random c k cs) (h' : Visits ops w hop random c k cs') (hl : cs.length = cs'.length) :
    cs = cs' := by
  induction cs generalizing cs' c k with
  | nil => exact (List.length_eq_zero_iff.1 hl.symm).symm
  | cons a cs ih =>
    cases cs' with
    | nil => simp at hl
    | cons a' cs' =>
      obtain rfl : a = a' := congrArg Prod.fst (Outcome.ok.inj (h.1.symm.trans h'.1))
      rw [ih h.2 h'.2 (by simpa using hl)]

/-- C67: the energy without a step, or without a hamiltonian, is never returned. -/
theorem C67_no_energy (cut total : ℕ) (energy gradient : Bool) (he : (energy || gradient) = true)
    (terms : List (ElementTable α × List Pos)) (ht : total = 0 ∨ terms = [])
    (observers : List (ElementTable α × List Pos)) (random : ℕ → ℕ → ℕ × R) (st : SpinState M N ν α) :
    ∀ r, markov e ops d cut lattice hop observers terms total energy gradient random st ≠ .ok r := by
  intro r hr
  rw [markov] at hr
  obtain ⟨_, -, hr⟩ := bind_ok hr
  obtain ⟨_, -, hr⟩ := bind_ok hr
  obtain ⟨_, -, hr⟩ := bind_ok hr
  obtain ⟨_, -, hr⟩ := bind_ok hr
  rw [if_pos ⟨he, ht⟩] at hr
  cases hr

/-- C67: without a step, the energy fails with the exception of the missing entry. -/
theorem C67_no_steps (he : AuxEnvOk e.toAuxEnv) (hs : SitesOn e.nm M N d lattice h v) (hM : 0 < M) (hN : 0 < N) :
    ∃ B, ∀ cut, (B ≤ cut ∨ cut = 2 ^ 64 - 1) → ∀ (energy gradient : Bool), (energy || gradient) = true →
      ∀ (observers terms : List (ElementTable α × List Pos)) (random : ℕ → ℕ → ℕ × R) (st : SpinState M N ν α)
      (c : SpinConfig M N d), HasSpins e lattice st c →
      markov e ops d cut lattice hop observers terms 0 energy gradient random st = .error "map::at" := by
  obtain ⟨B, hB⟩ := computesAmp he hs hM hN
  refine ⟨B, fun cut hc energy gradient hg observers terms random st c hst => ?_⟩
  obtain ⟨holes, z1, z2⟩ := start_ok (e := e) hs gradient
  rw [markov]
  rw [z1, Outcome.bind, (hB cut hc).value c st hst.1 hst.2, Outcome.bind, List.range_zero, List.foldlM_nil]
  rw [show ∀ a : MarkovState M N ν α R, (pure a : Outcome _) = .ok a from fun _ => rfl, Outcome.bind, if_pos rfl,
    finishTerms, Outcome.bind, if_pos ⟨hg, Or.inl rfl⟩]

end

end TAT
