import Verif.Square.GradProps
import Verif.Square.NetSum
import Mathlib.Analysis.RCLike.Basic
import Mathlib.Analysis.Calculus.Deriv.Add
import Mathlib.Analysis.Calculus.Deriv.Mul
import Mathlib.Analysis.Calculus.Deriv.Inv
import Mathlib.Analysis.Calculus.Deriv.Pow
import Mathlib.Topology.Algebra.Field
import Mathlib.LinearAlgebra.Matrix.Notation

/-!
# C67: the gradient of `markov` and the derivative of the energy
-/

namespace TAT

open Filter Topology

set_option linter.unusedSectionVars false

section

variable {𝕜 C : Type} [RCLike 𝕜] [Fintype C]

/-- The energy `⟨w|H|w⟩ / ⟨w|w⟩` of a state. -/
noncomputable def energyAt (H : C → C → 𝕜) (w : C → 𝕜) : ℝ :=
  RCLike.re (∑ c, ∑ c', star (w c) * H c c' * w c') / ∑ c, RCLike.normSq (w c)

/-- What the gradient estimates: for the weights `p` of the configurations, the local energies `E` and the quotients
`q` of the amplitude of the changed network and the amplitude. -/
def gradientOf (p E q : C → 𝕜) : 𝕜 :=
  2 * ∑ c, p c * (star (E c) * q c) - 2 * star (∑ c, p c * E c) * ∑ c, p c * q c

/-- The weights of the configurations: the squares of the amplitudes, divided by their sum. -/
noncomputable def weightOf (w : C → 𝕜) (c : C) : ℝ := RCLike.normSq (w c) / ∑ c, RCLike.normSq (w c)

theorem normSq_mul_div (a z : 𝕜) : (RCLike.normSq z : 𝕜) * (a / z) = star z * a := by
  by_cases hz : z = 0
  · rw [hz]
    simp
  · rw [RCLike.normSq_eq_def', RCLike.ofReal_pow, ← RCLike.conj_mul, ← mul_div_assoc, div_eq_iff hz]
    show star z * z * a = _
    ring

/-- `⟨a|H|b⟩` -/
def braket (H : C → C → 𝕜) (a b : C → 𝕜) : 𝕜 := ∑ c, ∑ c', star (a c) * H c c' * b c'

theorem braket_star {H : C → C → 𝕜} (hH : ∀ c c', H c' c = star (H c c')) (a b : C → 𝕜) :
    star (braket H a b) = braket H b a := by
  rw [braket, braket, star_sum]
  refine Eq.trans (Finset.sum_congr rfl fun c _ => star_sum _ _) ?_
  rw [Finset.sum_comm]
  refine Finset.sum_congr rfl fun c _ => Finset.sum_congr rfl fun c' _ => ?_
  rw [StarMul.star_mul, StarMul.star_mul, star_star, ← hH]
  ring

theorem braket_line (H : C → C → 𝕜) (w f : C → 𝕜) (ε : ℝ) :
    braket H (fun c => w c + (ε : 𝕜) * f c) (fun c => w c + (ε : 𝕜) * f c) =
      braket H w w + (ε : 𝕜) * (braket H f w + braket H w f) + (ε : 𝕜) ^ 2 * braket H f f := by
  have hs : star (ε : 𝕜) = ε := RCLike.conj_ofReal ε
  simp only [braket, Finset.mul_sum, ← Finset.sum_add_distrib]
  refine Finset.sum_congr rfl fun c _ => Finset.sum_congr rfl fun c' _ => ?_
  rw [star_add, StarMul.star_mul, hs]
  ring

theorem norm_line (w f : C → 𝕜) (ε : ℝ) :
    ∑ c, RCLike.normSq (w c + (ε : 𝕜) * f c) = ∑ c, RCLike.normSq (w c) +
      ε * (2 * RCLike.re (∑ c, star (w c) * f c)) + ε ^ 2 * ∑ c, RCLike.normSq (f c) := by
  rw [map_sum, Finset.mul_sum, Finset.mul_sum, Finset.mul_sum, ← Finset.sum_add_distrib, ← Finset.sum_add_distrib]
  refine Finset.sum_congr rfl fun c _ => ?_
  rw [RCLike.normSq_add, RCLike.normSq_mul, map_mul (starRingEnd 𝕜), RCLike.conj_ofReal]
  have h1 : RCLike.re (w c * ((ε : 𝕜) * (starRingEnd 𝕜) (f c))) = ε * RCLike.re (star (w c) * f c) := by
    rw [show w c * ((ε : 𝕜) * (starRingEnd 𝕜) (f c)) = (ε : 𝕜) * (w c * (starRingEnd 𝕜) (f c)) by ring,
      RCLike.re_ofReal_mul, ← RCLike.conj_re (star (w c) * f c)]
    congr 2
    rw [map_mul (starRingEnd 𝕜)]
    congr 1
    exact (star_star (w c)).symm
  have h2 : RCLike.normSq (ε : 𝕜) = ε ^ 2 := by
    rw [RCLike.normSq_eq_def', RCLike.norm_ofReal, sq_abs]
  rw [h1, h2]
  ring

theorem hasDerivAt_line (a b c : ℝ) : HasDerivAt (fun ε : ℝ => a + ε * b + ε ^ 2 * c) b 0 := by
  have h1 : HasDerivAt (fun ε : ℝ => ε * b) (1 * b) 0 := (hasDerivAt_id' (0 : ℝ)).mul_const b
  have h2 : HasDerivAt (fun ε : ℝ => ε ^ 2 * c) ((2 : ℕ) * (0 : ℝ) ^ (2 - 1) * c) 0 := (hasDerivAt_pow 2 (0 : ℝ)).mul_const c
  have h3 : HasDerivAt (fun ε : ℝ => a + ε * b + ε ^ 2 * c) (0 + 1 * b + (2 : ℕ) * (0 : ℝ) ^ (2 - 1) * c) 0 :=
    ((hasDerivAt_const (0 : ℝ) a).add h1).add h2
  exact h3.congr_deriv (by simp)

/-- C67: if the weights are the squares of the amplitudes, and no amplitude is zero which the change or the
hamiltonian would make different from zero, then the real part of the estimate is the derivative of the energy along
the change. -/
theorem C67_derivative {H : C → C → 𝕜} {w f : C → 𝕜} (hH : ∀ c c', H c' c = star (H c c'))
    (hZ : ∑ c, RCLike.normSq (w c) ≠ 0) (hz : ∀ c, w c = 0 → f c = 0 ∨ ∑ c', H c c' * w c' = 0) :
    HasDerivAt (fun ε : ℝ => energyAt H fun c => w c + (ε : 𝕜) * f c)
      (RCLike.re (gradientOf (fun c => (weightOf w c : 𝕜)) (fun c => (∑ c', H c c' * w c') / w c)
        fun c => f c / w c)) 0 := by
  have hreal : braket H w w = ((RCLike.re (braket H w w) : ℝ) : 𝕜) :=
    (RCLike.conj_eq_iff_re.1 (braket_star hH w w)).symm
  have hfun : (fun ε : ℝ => energyAt H fun c => w c + (ε : 𝕜) * f c) = fun ε : ℝ =>
      (RCLike.re (braket H w w) + ε * (2 * RCLike.re (braket H f w)) + ε ^ 2 * RCLike.re (braket H f f)) /
      (∑ c, RCLike.normSq (w c) + ε * (2 * RCLike.re (∑ c, star (w c) * f c)) +
        ε ^ 2 * ∑ c, RCLike.normSq (f c)) := by
    funext ε
    rw [energyAt, norm_line]
    congr 1
    refine (congrArg RCLike.re (braket_line H w f ε)).trans ?_
    rw [map_add, map_add, RCLike.re_ofReal_mul, ← RCLike.ofReal_pow, RCLike.re_ofReal_mul, map_add,
      ← braket_star hH f w]
    have : RCLike.re (star (braket H f w)) = RCLike.re (braket H f w) := RCLike.conj_re (braket H f w)
    rw [this]
    ring
  have hd := (hasDerivAt_line (RCLike.re (braket H w w)) (2 * RCLike.re (braket H f w)) (RCLike.re (braket H f f))).div
    (hasDerivAt_line (∑ c, RCLike.normSq (w c)) (2 * RCLike.re (∑ c, star (w c) * f c)) (∑ c, RCLike.normSq (f c)))
    (by simpa using hZ)
  rw [hfun]
  refine hd.congr_deriv ?_
  obtain ⟨Z, hZ'⟩ : ∃ Z, Z = ∑ c, RCLike.normSq (w c) := ⟨_, rfl⟩
  rw [← hZ'] at hZ ⊢
  have e1 : ∑ c, (weightOf w c : 𝕜) * (star ((∑ c', H c c' * w c') / w c) * (f c / w c)) =
      ((Z⁻¹ : ℝ) : 𝕜) * star (braket H f w) := by
    rw [braket, star_sum, Finset.mul_sum]
    refine Finset.sum_congr rfl fun c _ => ?_
    have h2 : ∑ c', star (f c) * H c c' * w c' = star (f c) * ∑ c', H c c' * w c' := by
      rw [Finset.mul_sum]
      exact Finset.sum_congr rfl fun c' _ => mul_assoc _ _ _
    rw [h2, StarMul.star_mul, star_star, weightOf, ← hZ', div_eq_inv_mul, RCLike.ofReal_mul, mul_assoc]
    congr 1
    by_cases hw : w c = 0
    · rw [hw]
      rcases hz c hw with h | h <;> rw [h] <;> simp
    · rw [mul_left_comm, normSq_mul_div, star_div₀, ← mul_assoc, div_mul_cancel₀ _ (star_ne_zero.2 hw)]
  have e2 : ∑ c, (weightOf w c : 𝕜) * ((∑ c', H c c' * w c') / w c) = ((Z⁻¹ : ℝ) : 𝕜) * braket H w w := by
    rw [braket, Finset.mul_sum]
    refine Finset.sum_congr rfl fun c _ => ?_
    rw [weightOf, ← hZ', div_eq_inv_mul, RCLike.ofReal_mul, mul_assoc, normSq_mul_div, Finset.mul_sum]
    congr 1
    exact Finset.sum_congr rfl fun c' _ => (mul_assoc _ _ _).symm
  have e3 : ∑ c, (weightOf w c : 𝕜) * (f c / w c) = ((Z⁻¹ : ℝ) : 𝕜) * ∑ c, star (w c) * f c := by
    rw [Finset.mul_sum]
    refine Finset.sum_congr rfl fun c _ => ?_
    rw [weightOf, ← hZ', div_eq_inv_mul, RCLike.ofReal_mul, mul_assoc, normSq_mul_div]
  have e4 : star (((Z⁻¹ : ℝ) : 𝕜) * braket H w w) = ((Z⁻¹ * RCLike.re (braket H w w) : ℝ) : 𝕜) := by
    refine (congrArg (fun z => star (((Z⁻¹ : ℝ) : 𝕜) * z)) hreal).trans ?_
    rw [← RCLike.ofReal_mul]
    exact RCLike.conj_ofReal (K := 𝕜) _
  have e5 : (2 : 𝕜) = ((2 : ℝ) : 𝕜) := (RCLike.ofReal_ofNat 2).symm
  rw [gradientOf, e1, e2, e3, e4, e5, map_sub, RCLike.re_ofReal_mul, RCLike.re_ofReal_mul, ← RCLike.ofReal_mul,
    RCLike.re_ofReal_mul, RCLike.re_ofReal_mul]
  have : RCLike.re (star (braket H f w)) = RCLike.re (braket H f w) := RCLike.conj_re (braket H f w)
  rw [this]
  simp only [zero_mul, ne_eq, OfNat.ofNat_ne_zero, not_false_eq_true, zero_pow, add_zero]
  field_simp

/-- C67: the condition about zeros cannot be left out.  Two configurations, the amplitude of one of them is zero and
the hamiltonian exchanges them: the estimate along the other amplitude is zero, the derivative of the energy is not. -/
theorem C67_zero_amplitude :
    RCLike.re (gradientOf (fun c => (weightOf ![(1 : ℝ), 0] c : ℝ))
      (fun c => (∑ c', !![0, 1; 1, 0] c c' * ![(1 : ℝ), 0] c') / ![1, 0] c) fun c => ![(0 : ℝ), 1] c / ![1, 0] c) = 0 ∧
    HasDerivAt (fun ε : ℝ => energyAt !![0, 1; 1, 0] fun c => ![(1 : ℝ), 0] c + ε * ![0, 1] c) 2 0 := by
  constructor
  · simp [gradientOf, Fin.sum_univ_two]
  · have hfun : (fun ε : ℝ => energyAt !![0, 1; 1, 0] fun c => ![(1 : ℝ), 0] c + ε * ![0, 1] c) =
        fun ε : ℝ => (0 + ε * 2 + ε ^ 2 * 0) / (1 + ε * 0 + ε ^ 2 * 1) := by
      funext ε
      simp [energyAt, Fin.sum_univ_two, RCLike.normSq_apply]
      ring
    rw [hfun]
    exact ((hasDerivAt_line 0 2 0).div (hasDerivAt_line 1 0 1) (by norm_num)).congr_deriv (by norm_num)

/-! ## Means over lists of configurations -/

/-- How often a configuration is in a list. -/
noncomputable def frequency [DecidableEq C] (cs : List C) (c : C) : ℝ := cs.count c / cs.length

theorem sum_count [DecidableEq C] (cs : List C) (f : C → 𝕜) : (cs.map f).sum = ∑ c, (cs.count c : 𝕜) * f c := by
  induction cs with
  | nil => simp
  | cons a cs ih =>
    rw [List.map_cons, List.sum_cons, ih]
    simp only [List.count_cons, Nat.cast_add, add_mul, Finset.sum_add_distrib]
    rw [add_comm]
    congr 1
    simp

theorem meanOver_eq [DecidableEq C] (cs : List C) (f : C → 𝕜) :
    meanOver cs f = ∑ c, (frequency cs c : 𝕜) * f c := by
  rw [meanOver, sum_count, Finset.sum_div]
  refine Finset.sum_congr rfl fun c _ => ?_
  rw [frequency, RCLike.ofReal_div, RCLike.ofReal_natCast, RCLike.ofReal_natCast]
  ring

theorem tendsto_mean [DecidableEq C] {cs : ℕ → List C} {p : C → ℝ}
    (hp : ∀ c, Tendsto (fun n => frequency (cs n) c) atTop (𝓝 (p c))) (f : C → 𝕜) :
    Tendsto (fun n => meanOver (cs n) f) atTop (𝓝 (∑ c, (p c : 𝕜) * f c)) := by
  simp only [meanOver_eq]
  exact tendsto_finsetSum _ fun c _ => ((RCLike.continuous_ofReal.tendsto _).comp (hp c)).mul_const _

/-- If the frequencies tend to weights, the estimate from the means tends to that of the weights. -/
theorem tendsto_gradient [DecidableEq C] {cs : ℕ → List C} {p : C → ℝ}
    (hp : ∀ c, Tendsto (fun n => frequency (cs n) c) atTop (𝓝 (p c))) (E q : C → 𝕜) :
    Tendsto (fun n => 2 * meanOver (cs n) (fun c => star (E c) * q c) -
      2 * star (meanOver (cs n) E) * meanOver (cs n) q) atTop (𝓝 (gradientOf (fun c => (p c : 𝕜)) E q)) :=
  ((tendsto_mean hp _).const_mul _).sub
    ((((continuous_star.tendsto _).comp (tendsto_mean hp _)).const_mul _).mul (tendsto_mean hp _))

end

/-! ## The lattice -/

section

variable {ν α : Type} [LinearOrder ν] [Field α] {M N d : ℕ}

/-- The element of the hamiltonian between two configurations: a term leaves the spins at all other sites. -/
def hamMatrix (hams : List (Observable M N α)) (c c' : SpinConfig M N d) : α :=
  (hams.map fun o => if ∀ x, x ∉ o.sites → c x = c' x then
    o.value ((o.sites.map fun x => (c x).val) ++ o.sites.map fun x => (c' x).val) else 0).sum

theorem localEnergy_eq (w : SpinConfig M N d → α) (hams : List (Observable M N α)) (c : SpinConfig M N d) :
    localEnergy w hams c = (∑ c', hamMatrix hams c c' * w c') / w c := by
  induction hams with
  | nil => simp [localEnergy, hamMatrix]
  | cons o hams ih =>
    have h1 : localEnergy w (o :: hams) c = localValue w o c + localEnergy w hams c := by
      rw [localEnergy, List.map_cons, List.sum_cons]
      rfl
    rw [h1, ih, localValue, Finset.sum_div, Finset.sum_div, ← Finset.sum_add_distrib]
    refine Finset.sum_congr rfl fun c' _ => ?_
    rw [hamMatrix, hamMatrix, List.map_cons, List.sum_cons, add_mul, add_div]
    congr 1
    split <;> simp

/-- The amplitude is linear in the tensor of a site. -/
theorem sitesAmp_line {nm : String → ν} {lattice : ℕ → ℕ → Tensor ν NoSymmetry α} {h v : ℕ → ℕ → Option ℕ}
    (x : LatticeSite M N) {δ t : Tensor ν NoSymmetry α} (k : α)
    (ht : ∀ y, val t y = val (lattice x.1 x.2) y + k * val δ y) (c : SpinConfig M N d) :
    sitesAmp nm h v (setSite lattice x.1 x.2 t) c =
      sitesAmp nm h v lattice c + k * sitesAmp nm h v (setSite lattice x.1 x.2 δ) c := by
  obtain ⟨I, w, l, r, u, b, hI⟩ := netVal_single M N (fun i j => (h i j).getD 1) (fun i j => (v i j).getD 1)
    (fun i j l r u d => val (lattice i j) (netIndex nm l r u d (spinAt c i j))) x.1.2 x.2.2
  have key : ∀ t : Tensor ν NoSymmetry α, sitesAmp nm h v (setSite lattice x.1 x.2 t) c =
      ∑ z ∈ I, w z * val t (netIndex nm (l z) (r z) (u z) (b z) (spinAt c x.1 x.2)) := fun t => by
    rw [← hI fun l r u d => val t (netIndex nm l r u d (spinAt c x.1 x.2)), sitesAmp]
    refine netVal_congr fun i _ j _ => ?_
    funext l r u d
    rw [setSite]
    split
    · next hx => simp only [hx.1, hx.2]
    · rfl
  have h0 : sitesAmp nm h v lattice c = sitesAmp nm h v (setSite lattice x.1 x.2 (lattice x.1 x.2)) c := by
    refine netVal_congr fun i _ j _ => ?_
    funext l r u d
    rw [setSite]
    split
    · next hx => rw [hx.1, hx.2]
    · rfl
  rw [h0, key, key, key, Finset.mul_sum, ← Finset.sum_add_distrib]
  refine Finset.sum_congr rfl fun z _ => ?_
  rw [ht]
  ring

end

section

variable {ν 𝕜 β R : Type} [LinearOrder ν] [RCLike 𝕜] [DecidableEq 𝕜] [LinearOrder β] [Field β] {e : NetEnv ν 𝕜 β}
  {M N d : ℕ} {lattice : ℕ → ℕ → Tensor ν NoSymmetry 𝕜} {h v : ℕ → ℕ → Option ℕ} [Field R] [LinearOrder R]
  {ops : GradOps 𝕜 R} {hop : List ((ElementTable 𝕜 × List Pos) × Char)} {obs hams : List (Observable M N 𝕜)}

/-- C67: suppose nothing is cut and that the frequencies of the visited configurations tend to the squares of the
amplitudes, divided by their sum.  Then the real part of the inner product of the gradients with any tensor `δ` at
the site tends to the derivative of the energy along `δ`, provided that the hamiltonian is hermitian and that no
amplitude is zero. -/
theorem C67_gradient (he : AuxEnvOk e.toAuxEnv) (hs : SitesOn e.nm M N d lattice h v) [CharZero R]
    (laws : GradLaws ops (starRingEnd 𝕜)) (hM : 0 < M) (hN : 0 < N)
    (ht : ∀ t ∈ hop, (∃ value, findHopping d t.1.2.length value = .ok t.1.1) ∧ ∃ xs, sitesAt M N t.1.2 = .ok xs)
    (ho : ∀ o ∈ obs ++ hams, ObservableOk d o)
    (hH : ∀ c c' : SpinConfig M N d, hamMatrix hams c' c = star (hamMatrix hams c c'))
    (hw : ∀ c : SpinConfig M N d, sitesAmp e.nm h v lattice c ≠ 0) (hd : 0 < d) :
    ∃ B, ∀ cut, (B ≤ cut ∨ cut = 2 ^ 64 - 1) → ∀ (energy : Bool) (random : ℕ → ℕ → ℕ × R) (st : SpinState M N ν 𝕜)
      (c : SpinConfig M N d), HasSpins e lattice st c → ∀ (st' : ℕ → SpinState M N ν 𝕜)
      (results : ℕ → List (R × Outcome R)) (g : ℕ → LatticeSite M N → Tensor ν NoSymmetry 𝕜),
      (∀ n, markov e ops d cut lattice hop (obs.map Observable.term) (hams.map Observable.term) (n + 1)
        energy true random st = .ok (st' n, results n, some (g n))) →
      ∀ cs : ℕ → List (SpinConfig M N d), (∀ n, (cs n).length = n + 1) →
      (∀ n, Visits ops.toScalarOps (sitesAmp e.nm h v lattice) (hop.map Prod.fst) random c 0 (cs n)) →
      (∀ c', Tendsto (fun n => frequency (cs n) c') atTop (𝓝 (weightOf (sitesAmp e.nm h v lattice) c'))) →
      ∀ (x : LatticeSite M N) (δ : Tensor ν NoSymmetry 𝕜), EdgesAt e.nm h v d x δ →
      ∀ t : ℝ → Tensor ν NoSymmetry 𝕜, (∀ ε y, val (t ε) y = val (lattice x.1 x.2) y + (ε : 𝕜) * val δ y) →
      ∃ D, Tendsto (fun n => RCLike.re (siteInner (starRingEnd 𝕜) e.nm h v d x (g n x) δ)) atTop (𝓝 D) ∧
        HasDerivAt (fun ε : ℝ => energyAt (hamMatrix (d := d) hams)
          (sitesAmp e.nm h v (setSite lattice x.1 x.2 (t ε)))) D 0 := by
  obtain ⟨B, hB⟩ := C67_markov he hs laws hM hN ht ho
  refine ⟨B, fun cut hc energy random st c hst st' results g hm cs hl hv hf x δ hδ t htt => ?_⟩
  obtain ⟨w, hww⟩ : ∃ w : SpinConfig M N d → 𝕜, w = sitesAmp e.nm h v lattice := ⟨_, rfl⟩
  refine ⟨RCLike.re (gradientOf (fun c => (weightOf w c : 𝕜)) (fun c => (∑ c', hamMatrix hams c c' * w c') / w c)
    fun c => sitesAmp e.nm h v (setSite lattice x.1 x.2 δ) c / w c), ?_, ?_⟩
  · refine (RCLike.continuous_re.tendsto _).comp ?_
    rw [← hww] at hf
    refine (tendsto_gradient hf _ _).congr fun n => ?_
    obtain ⟨cs', k1, k2, -, -, -, -, -, -, k3⟩ := hB cut hc (n + 1) energy true random st c hst _ _ _ (hm n)
    obtain ⟨g', g1, g2⟩ := k3 rfl
    obtain rfl : g n = g' := Option.some.inj g1
    obtain rfl : cs n = cs' := Visits.unique (hv n) k2 ((hl n).trans k1.symm)
    rw [(g2 x).2 δ hδ, ← hww]
    have : (fun c => (∑ c', hamMatrix hams c c' * w c') / w c) = localEnergy w hams :=
      funext fun c => (localEnergy_eq w hams c).symm
    rw [this]
    simp only [localEnergy_eq]
    rfl
  · have hfun : (fun ε : ℝ => energyAt (hamMatrix (d := d) hams) (sitesAmp e.nm h v (setSite lattice x.1 x.2 (t ε)))) =
        fun ε : ℝ => energyAt (hamMatrix (d := d) hams) fun c => w c + (ε : 𝕜) *
          sitesAmp e.nm h v (setSite lattice x.1 x.2 δ) c := by
      funext ε
      congr 1
      funext c
      rw [sitesAmp_line x (ε : 𝕜) (htt ε), ← hww]
    rw [hfun]
    refine C67_derivative hH ?_ fun c hc => absurd (hww ▸ hc) (hw c)
    have : 0 < ∑ c, RCLike.normSq (w c) :=
      Finset.sum_pos (fun c _ => RCLike.normSq_pos.2 (hww ▸ hw c)) ⟨fun _ => ⟨0, hd⟩, Finset.mem_univ _⟩
    exact this.ne'

end

end TAT
