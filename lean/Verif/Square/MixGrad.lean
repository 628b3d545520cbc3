import Verif.Square.MixRun
import Verif.Square.GradDerivative

/-!
# C75: the gradient of `markov` and the derivative of the energy

C67 assumes that the frequencies of the configurations tend to the squares of the amplitudes.  Here the probability that
they do not is bounded.
-/

namespace TAT

open Finset Filter Topology

section

variable {X : Type} [Fintype X] [DecidableEq X] {P : X → X → ℝ}

omit [DecidableEq X] in
theorem chainMean_finset {ι : Type} (s : Finset ι) (n : ℕ) (F : ι → List X → ℝ) (x : X) :
    chainMean P n (fun l => ∑ i ∈ s, F i l) x = ∑ i ∈ s, chainMean P n (F i) x := by
  induction n generalizing F x with
  | zero => rfl
  | succ n ih =>
    simp only [chainMean, ih, mul_sum]
    exact sum_comm

/-- If the mean squares of the deviations of all frequencies are at most a constant divided by the number of steps, so
is the probability that a continuous function of the frequencies deviates. -/
theorem chainMean_continuous (hP : ∀ x y, 0 ≤ P x y) {p : X → ℝ} {x : X}
    (hp : ∀ y, ∃ B, ∀ n, 0 < n → chainMean P n (fun cs => (frequency cs y - p y) ^ 2) x ≤ B / n)
    {G : (X → ℝ) → ℝ} (hG : ContinuousAt G p) {ε : ℝ} (hε : 0 < ε) :
    ∃ B, ∀ n, 0 < n → chainMean P n (fun cs => if ε ≤ |G (frequency cs) - G p| then 1 else 0) x ≤ B / n := by
  choose B hB using hp
  obtain ⟨η, hη, hG⟩ := Metric.continuousAt_iff.1 hG ε hε
  have h2 : 0 < η ^ 2 := by positivity
  refine ⟨∑ y, (1 / η ^ 2) * B y, fun n hn => ?_⟩
  have step : ∀ cs : List X, (if ε ≤ |G (frequency cs) - G p| then (1 : ℝ) else 0) ≤
      ∑ y, 1 / η ^ 2 * (frequency cs y - p y) ^ 2 := fun cs => by
    split
    · rename_i hle
      have far : ∃ y, η ≤ |frequency cs y - p y| := by
        by_contra hn
        push Not at hn
        refine absurd (hG (x := frequency cs) ((dist_pi_lt_iff hη).2 fun y => ?_)) (not_lt.2 ?_)
        · rw [Real.dist_eq]
          exact hn y
        · rw [Real.dist_eq]
          exact hle
      obtain ⟨y, hy⟩ := far
      refine le_trans ?_ (single_le_sum (f := fun y => 1 / η ^ 2 * (frequency cs y - p y) ^ 2)
        (fun y _ => by positivity) (mem_univ y))
      rw [one_div, ← div_eq_inv_mul, le_div_iff₀ h2, one_mul, ← sq_abs (_ - _)]
      exact pow_le_pow_left₀ hη.le hy 2
    · exact sum_nonneg fun y _ => by positivity
  refine (chainMean_mono hP step n x).trans ?_
  rw [chainMean_finset, sum_div]
  refine sum_le_sum fun y _ => ?_
  rw [chainMean_smul, mul_div_assoc]
  exact mul_le_mul_of_nonneg_left (hB y n hn) (by positivity)

end

theorem frequency_mean {X : Type} [DecidableEq X] (cs : List X) (y : X) :
    frequency cs y = meanOver cs fun x => if x = y then (1 : ℝ) else 0 := by
  rw [frequency, meanOver]
  congr 1
  induction cs with
  | nil => simp
  | cons a cs ih =>
    rw [List.map_cons, List.sum_cons, ← ih, List.count_cons]
    by_cases h : a = y
    · simp [h, add_comm]
    · simp [h]

variable {ν 𝕜 β : Type} [LinearOrder ν] [RCLike 𝕜] [DecidableEq 𝕜] [LinearOrder β] [Field β] {e : NetEnv ν 𝕜 β}
  {M N d : ℕ} {lattice : ℕ → ℕ → Tensor ν NoSymmetry 𝕜} {h v : ℕ → ℕ → Option ℕ}
  {ops : GradOps 𝕜 ℝ} {hop : List ((ElementTable 𝕜 × List Pos) × Char)} {obs hams : List (Observable M N 𝕜)}

/-- The frequencies of the configurations tend to the squares of the amplitudes, if all can be reached. -/
theorem frequency_deviation {ops : ScalarOps 𝕜 ℝ} {w : SpinConfig M N d → 𝕜} (laws : NormLaws ops)
    (hn : ∀ z, ops.normSq z = RCLike.normSq z) (hd : 0 < d) {hop : List (ElementTable 𝕜 × List (ℤ × ℤ))}
    (hl : HopsOk M N d hop) {c : SpinConfig M N d} (hc : w c ≠ 0)
    (hr : ∀ c', w c' ≠ 0 → Leads (sweepProb ops w hop) c c') (y : SpinConfig M N d) :
    ∃ B, ∀ n, 0 < n →
      chainMean (sweepProb ops w hop) n (fun cs => (frequency cs y - weightOf w y) ^ 2) c ≤ B / n := by
  classical
  obtain ⟨B, hB⟩ := C75_mean laws hd hl hc fun c' => if c' = y then 1 else 0
  have e1 : (∑ c', if Leads (sweepProb ops w hop) c c' then ops.normSq (w c') else 0) =
      ∑ c, RCLike.normSq (w c) := by
    refine sum_congr rfl fun c' _ => ?_
    by_cases h : w c' = 0
    · rw [hn, h, map_zero, ite_self]
    · rw [if_pos (hr c' h), hn]
  have e2 : (∑ c', if Leads (sweepProb ops w hop) c c' then ops.normSq (w c') * (if c' = y then 1 else 0) else 0) =
      RCLike.normSq (w y) := by
    rw [sum_eq_single y]
    · by_cases h : w y = 0
      · rw [if_pos rfl, mul_one, hn, h, map_zero, ite_self]
      · rw [if_pos (hr y h), if_pos rfl, mul_one, hn]
    · intro c' _ hne
      rw [if_neg hne, mul_zero, ite_self]
    · exact fun h => absurd (mem_univ y) h
  refine ⟨B, fun n hn' => ?_⟩
  have := hB n hn'
  rw [e1, e2] at this
  simp only [frequency_mean]
  exact this

omit [DecidableEq 𝕜] in
/-- The estimate of the derivative from frequencies is continuous. -/
theorem gradientOf_continuous {C : Type} [Fintype C] (E q : C → 𝕜) :
    Continuous fun p : C → ℝ => RCLike.re (gradientOf (fun c => (p c : 𝕜)) E q) := by
  unfold gradientOf
  have hp : ∀ c : C, Continuous fun p : C → ℝ => ((p c : ℝ) : 𝕜) := fun c =>
    RCLike.continuous_ofReal.comp (continuous_apply c)
  refine RCLike.continuous_re.comp (Continuous.sub ?_ (Continuous.mul ?_ ?_))
  · exact continuous_const.mul (continuous_finsetSum _ fun c _ => (hp c).mul continuous_const)
  · exact continuous_const.mul (continuous_star.comp (continuous_finsetSum _ fun c _ => (hp c).mul continuous_const))
  · exact continuous_finsetSum _ fun c _ => (hp c).mul continuous_const

/-- **C75.**  The gradient which `markov` returns is close to the derivative of the energy: for every tensor `δ` at a site
there are the derivative `D` of the energy along `δ` and a function `G` of the visited configurations, such that the
real part of the inner product of the gradient with `δ` is `G` of them, and for every `ε` the probability that `G`
deviates from `D` by `ε` or more is at most a constant divided by the number of steps.  Nothing is cut, the hamiltonian
is hermitian, no amplitude is zero and all configurations can be reached. -/
theorem C75_gradient_reached (he : AuxEnvOk e.toAuxEnv) (hs : SitesOn e.nm M N d lattice h v)
    (laws : GradLaws ops (starRingEnd 𝕜)) (norm : NormLaws ops.toScalarOps)
    (hn : ∀ z, ops.normSq z = RCLike.normSq z) (hM : 0 < M) (hN : 0 < N) (hd : 0 < d)
    (hl : HopsOk M N d (hop.map Prod.fst)) (ho : ∀ o ∈ obs ++ hams, ObservableOk d o)
    (hH : ∀ c c' : SpinConfig M N d, hamMatrix hams c' c = star (hamMatrix hams c c'))
    (hw : ∀ c : SpinConfig M N d, sitesAmp e.nm h v lattice c ≠ 0) (c : SpinConfig M N d)
    (hr : ∀ c', Leads (sweepProb ops.toScalarOps (sitesAmp e.nm h v lattice) (hop.map Prod.fst)) c c')
    (x : LatticeSite M N) (δ : Tensor ν NoSymmetry 𝕜) (hδ : EdgesAt e.nm h v d x δ) (t : ℝ → Tensor ν NoSymmetry 𝕜)
    (ht : ∀ ε y, val (t ε) y = val (lattice x.1 x.2) y + (ε : 𝕜) * val δ y) :
    ∃ (D : ℝ) (G : List (SpinConfig M N d) → ℝ),
      HasDerivAt (fun ε : ℝ => energyAt (hamMatrix (d := d) hams)
        (sitesAmp e.nm h v (setSite lattice x.1 x.2 (t ε)))) D 0 ∧
      (∃ B, ∀ cut, (B ≤ cut ∨ cut = 2 ^ 64 - 1) → ∀ (n : ℕ) (energy : Bool) (random : ℕ → ℕ → ℕ × ℝ)
        (st : SpinState M N ν 𝕜), HasSpins e lattice st c → ∀ st' results g,
        markov e ops d cut lattice hop (obs.map Observable.term) (hams.map Observable.term) n energy true random st =
          .ok (st', results, some g) →
        ∃ cs, cs.length = n ∧
          Visits ops.toScalarOps (sitesAmp e.nm h v lattice) (hop.map Prod.fst) random c 0 cs ∧
          RCLike.re (siteInner (starRingEnd 𝕜) e.nm h v d x (g x) δ) = G cs) ∧
      ∀ ε, 0 < ε → ∃ B, ∀ n, 0 < n →
        chainMean (sweepProb ops.toScalarOps (sitesAmp e.nm h v lattice) (hop.map Prod.fst)) n
          (fun cs => if ε ≤ |G cs - D| then 1 else 0) c ≤ B / n := by
  obtain ⟨w, hww⟩ : ∃ w : SpinConfig M N d → 𝕜, w = sitesAmp e.nm h v lattice := ⟨_, rfl⟩
  obtain ⟨q, hq⟩ : ∃ q : SpinConfig M N d → 𝕜, q = fun c => sitesAmp e.nm h v (setSite lattice x.1 x.2 δ) c / w c :=
    ⟨_, rfl⟩
  have hE : (fun c => (∑ c', hamMatrix hams c c' * w c') / w c) = localEnergy w hams :=
    funext fun c => (localEnergy_eq w hams c).symm
  refine ⟨RCLike.re (gradientOf (fun c => (weightOf w c : 𝕜)) (localEnergy w hams) q),
    fun cs => RCLike.re (gradientOf (fun c => (frequency cs c : 𝕜)) (localEnergy w hams) q), ?_, ?_, fun ε hε => ?_⟩
  · have hfun : (fun ε : ℝ => energyAt (hamMatrix (d := d) hams) (sitesAmp e.nm h v (setSite lattice x.1 x.2 (t ε)))) =
        fun ε : ℝ => energyAt (hamMatrix (d := d) hams) fun c => w c + (ε : 𝕜) *
          sitesAmp e.nm h v (setSite lattice x.1 x.2 δ) c := by
      funext ε
      congr 1
      funext c
      rw [sitesAmp_line x (ε : 𝕜) (ht ε), ← hww]
    rw [hfun, ← hE, hq]
    refine C67_derivative hH ?_ fun c hc => absurd (hww ▸ hc) (hw c)
    have : 0 < ∑ c, RCLike.normSq (w c) :=
      Finset.sum_pos (fun c _ => RCLike.normSq_pos.2 (hww ▸ hw c)) ⟨fun _ => ⟨0, hd⟩, Finset.mem_univ _⟩
    exact this.ne'
  · obtain ⟨B, hB⟩ := C67_markov (hop := hop) he hs laws hM hN (fun t ht => by
      obtain ⟨value, xs, k, -⟩ := hl t.1 (List.mem_map.2 ⟨t, ht, rfl⟩)
      exact ⟨⟨value, k.table⟩, xs, k.sites⟩) ho
    refine ⟨B, fun cut hc n energy random st hst st' results g hm => ?_⟩
    obtain ⟨cs, k1, k2, -, -, -, -, -, -, k3⟩ := hB cut hc n energy true random st c hst _ _ _ hm
    obtain ⟨g', g1, g2⟩ := k3 rfl
    obtain rfl : g = g' := Option.some.inj g1
    refine ⟨cs, k1, k2, ?_⟩
    rw [(g2 x).2 δ hδ, ← hww, hq]
    simp only [meanOver_eq]
    rfl
  · rw [← hww]
    exact chainMean_continuous (fun _ _ => chainProb_nonneg _ _ _)
      (frequency_deviation norm hn hd hl (hww ▸ hw c) fun c' _ => hww ▸ hr c')
      (gradientOf_continuous (localEnergy w hams) q).continuousAt hε

/-- **C75**, partial: the same if the hoppings join all configurations and no two configurations which a hopping joins
have the same weight. -/
theorem C75_gradient_partial (he : AuxEnvOk e.toAuxEnv) (hs : SitesOn e.nm M N d lattice h v)
    (laws : GradLaws ops (starRingEnd 𝕜)) (norm : NormLaws ops.toScalarOps)
    (hn : ∀ z, ops.normSq z = RCLike.normSq z) (hM : 0 < M) (hN : 0 < N) (hd : 0 < d)
    (hl : HopsOk M N d (hop.map Prod.fst)) (ho : ∀ o ∈ obs ++ hams, ObservableOk d o)
    (hH : ∀ c c' : SpinConfig M N d, hamMatrix hams c' c = star (hamMatrix hams c c'))
    (hw : ∀ c : SpinConfig M N d, sitesAmp e.nm h v lattice c ≠ 0)
    (hu : Uneven ops.toScalarOps (sitesAmp e.nm h v lattice : SpinConfig M N d → 𝕜) (hop.map Prod.fst)) (c : SpinConfig M N d)
    (hr : ∀ c', Relation.ReflTransGen (Hops M N d (hop.map Prod.fst)) c c')
    (x : LatticeSite M N) (δ : Tensor ν NoSymmetry 𝕜) (hδ : EdgesAt e.nm h v d x δ) (t : ℝ → Tensor ν NoSymmetry 𝕜)
    (ht : ∀ ε y, val (t ε) y = val (lattice x.1 x.2) y + (ε : 𝕜) * val δ y) :
    ∃ (D : ℝ) (G : List (SpinConfig M N d) → ℝ),
      HasDerivAt (fun ε : ℝ => energyAt (hamMatrix (d := d) hams)
        (sitesAmp e.nm h v (setSite lattice x.1 x.2 (t ε)))) D 0 ∧
      (∃ B, ∀ cut, (B ≤ cut ∨ cut = 2 ^ 64 - 1) → ∀ (n : ℕ) (energy : Bool) (random : ℕ → ℕ → ℕ × ℝ)
        (st : SpinState M N ν 𝕜), HasSpins e lattice st c → ∀ st' results g,
        markov e ops d cut lattice hop (obs.map Observable.term) (hams.map Observable.term) n energy true random st =
          .ok (st', results, some g) →
        ∃ cs, cs.length = n ∧
          Visits ops.toScalarOps (sitesAmp e.nm h v lattice) (hop.map Prod.fst) random c 0 cs ∧
          RCLike.re (siteInner (starRingEnd 𝕜) e.nm h v d x (g x) δ) = G cs) ∧
      ∀ ε, 0 < ε → ∃ B, ∀ n, 0 < n →
        chainMean (sweepProb ops.toScalarOps (sitesAmp e.nm h v lattice) (hop.map Prod.fst)) n
          (fun cs => if ε ≤ |G cs - D| then 1 else 0) c ≤ B / n :=
  C75_gradient_reached he hs laws norm hn hM hN hd hl ho hH hw c
    (fun c' => (C75_reached norm hd hl hu (hw c)).2 (Relation.ReflTransGen.mono (fun _ b hb => ⟨hw b, hb⟩) _ _ (hr c'))) x δ hδ t ht

end TAT
