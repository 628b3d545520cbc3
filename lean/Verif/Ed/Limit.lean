import Verif.Ed.Props
import Mathlib.Topology.Order.Lattice
import Mathlib.Analysis.SpecificLimits.Normed

/-!
# C89: the energy converges
-/

namespace TAT.Ed

set_option linter.unusedSectionVars false

open Diag (DiagEnvOk)
open Filter Topology

variable {ν P : Type} [LinearOrder ν] [DecidableEq P] [Fintype P] {e : NetEnv ν ℝ ℝ} {node : P → String}

theorem applyTo_add (h : Matrix4 ℝ) (ψ χ : Spins P → ℝ) (l : P × P) (s : Spins P) :
    applyTo h (fun s => ψ s + χ s) l s = applyTo h ψ l s + applyTo h χ l s := by
  simp only [applyTo, add_mul, Finset.sum_add_distrib]

theorem hamiltonian_add (bs : List ((P × P) × Matrix4 ℝ)) (ψ χ : Spins P → ℝ) (s : Spins P) :
    hamiltonian bs (fun s => ψ s + χ s) s = hamiltonian bs ψ s + hamiltonian bs χ s := by
  induction bs with
  | nil => simp [hamiltonian]
  | cons b bs ih =>
    simp only [hamiltonian, List.map_cons, List.sum_cons] at ih ⊢
    rw [ih, applyTo_add]
    ring

theorem hamiltonian_zero (bs : List ((P × P) × Matrix4 ℝ)) (s : Spins P) : hamiltonian bs (fun _ => 0) s = 0 := by
  have := hamiltonian_smul bs (0 : ℝ) (fun _ => 0) s
  simpa using this

theorem shifted_add (a : ℝ) (bs : List ((P × P) × Matrix4 ℝ)) (ψ χ : Spins P → ℝ) (s : Spins P) :
    shifted a bs (fun s => ψ s + χ s) s = shifted a bs ψ s + shifted a bs χ s := by
  rw [shifted, shifted, shifted, hamiltonian_add]
  ring

theorem shifted_sum (a : ℝ) (bs : List ((P × P) × Matrix4 ℝ)) {K : Type} (T : Finset K) (χ : K → Spins P → ℝ)
    (s : Spins P) : shifted a bs (fun s => ∑ k ∈ T, χ k s) s = ∑ k ∈ T, shifted a bs (χ k) s := by
  classical
  induction T using Finset.induction_on with
  | empty => simp [shifted, hamiltonian_zero]
  | insert k T hk ih =>
    simp only [Finset.sum_insert hk]
    rw [shifted_add, ih]

/-- Powers of `a - H` on a sum of eigenvectors. -/
theorem iterate_sum (a : ℝ) (bs : List ((P × P) × Matrix4 ℝ)) {K : Type} (T : Finset K) (χ : K → Spins P → ℝ)
    (y : K → ℝ) (hχ : ∀ k ∈ T, ∀ s, hamiltonian bs (χ k) s = y k * χ k s) (N : ℕ) (s : Spins P) :
    (shifted a bs)^[N] (fun s => ∑ k ∈ T, χ k s) s = ∑ k ∈ T, (a - y k) ^ N * χ k s := by
  induction N generalizing s with
  | zero => simp
  | succ N ih =>
    rw [Function.iterate_succ_apply', show (shifted a bs)^[N] (fun s => ∑ k ∈ T, χ k s) =
      fun s => ∑ k ∈ T, (a - y k) ^ N * χ k s from funext ih, shifted_sum]
    refine Finset.sum_congr rfl fun k hk => ?_
    rw [shifted_smul, shifted, hχ k hk]
    ring

/-- **C89**: if the first state is a sum of an eigenvector `φ` of the Hamiltonian, with eigenvalue `x`, and eigenvectors
`χ k` with eigenvalues `y k` which are nearer to `a`, then there is no division by zero, and the energy converges to
`a - |a - x|` when the number of updates grows. -/
theorem C89_limit (he : DiagEnvOk e) (habs : ∀ x, e.abs x = |x|) (hc : ∀ x, e.c x = x) (hn : NodesOk node)
    (env : Env NoSymmetry ℝ) {lat : Lattice ν ℝ ℝ} {bs : List ((P × P) × Matrix4 ℝ)} (hl : IsLattice e.nm node lat bs)
    {φ : Spins P → ℝ} {x : ℝ} (hφ : ∀ s, hamiltonian bs φ s = x * φ s) (hne : ∃ s, φ s ≠ 0) (hx : lat.approximate ≠ x)
    {K : Type} [Fintype K] {χ : K → Spins P → ℝ} {y : K → ℝ} (hχ : ∀ k s, hamiltonian bs (χ k) s = y k * χ k s)
    (hy : ∀ k, |lat.approximate - y k| < |lat.approximate - x|)
    (hψ : ∀ s, ampOf e.nm node lat.state s = φ s + ∑ k, χ k s) :
    ∃ E : ℕ → ℝ, (∀ N, ∃ lat', updates e env (N + 2) lat = .ok lat' ∧ lat'.energy = some (E N)) ∧
      Tendsto E atTop (𝓝 (lat.approximate - |lat.approximate - x|)) := by
  classical
  have hA0 : shifted (e.c lat.approximate) bs = shifted lat.approximate bs := by rw [hc]
  generalize ha : lat.approximate = a at *
  have hμ : a - x ≠ 0 := sub_ne_zero.2 hx
  -- the powers divided by those of the eigenvalue
  let u : ℕ → Spins P → ℝ := fun N s => φ s + ∑ k, ((a - y k) / (a - x)) ^ N * χ k s
  have hA : ∀ N s, (shifted a bs)^[N] (ampOf e.nm node lat.state) s = (a - x) ^ N * u N s := by
    intro N s
    have h1 : (ampOf e.nm node lat.state : Spins P → ℝ) =
        fun s => ∑ k ∈ (Finset.univ : Finset (Option K)), (match k with | none => φ | some k => χ k) s := by
      funext s
      rw [hψ, Fintype.sum_option]
    rw [h1, iterate_sum a bs Finset.univ (fun k : Option K => match k with | none => φ | some k => χ k)
      (fun k => match k with | none => x | some k => y k) (fun k _ s => by
        cases k with
        | none => exact hφ s
        | some k => exact hχ k s), Fintype.sum_option]
    show (a - x) ^ N * φ s + ∑ k, (a - y k) ^ N * χ k s = _
    rw [mul_add, Finset.mul_sum]
    congr 1
    refine Finset.sum_congr rfl fun k _ => ?_
    rw [div_pow]
    field_simp
  have hu : ∀ s, Tendsto (fun N => u N s) atTop (𝓝 (φ s)) := by
    intro s
    have h0 : ∀ k, Tendsto (fun N => ((a - y k) / (a - x)) ^ N * χ k s) atTop (𝓝 0) := by
      intro k
      have : |(a - y k) / (a - x)| < 1 := by
        rw [abs_div, div_lt_one (abs_pos.2 hμ)]
        exact hy k
      have := (tendsto_pow_atTop_nhds_zero_of_abs_lt_one this).mul_const (χ k s)
      rwa [zero_mul] at this
    have h1 := tendsto_finsetSum Finset.univ fun k (_ : k ∈ Finset.univ) => h0 k
    rw [Finset.sum_const_zero] at h1
    have h2 := (tendsto_const_nhds (x := φ s)).add h1
    rwa [add_zero] at h2
  -- the largest modulus
  let big : (Spins P → ℝ) → ℝ := fun w => Finset.univ.sup' Finset.univ_nonempty fun s => |w s|
  have hbig : ∀ w : Spins P → ℝ, IsGreatest (Set.range fun s => |w s|) (big w) := by
    intro w
    obtain ⟨s, -, hs⟩ := Finset.exists_mem_eq_sup' Finset.univ_nonempty fun s => |w s|
    refine ⟨⟨s, hs.symm⟩, ?_⟩
    rintro _ ⟨s, rfl⟩
    exact Finset.le_sup' (fun s => |w s|) (Finset.mem_univ s)
  have hbl : Tendsto (fun N => big (u N)) atTop (𝓝 (big φ)) :=
    Filter.Tendsto.finset_sup'_nhds_apply Finset.univ_nonempty fun s _ => (hu s).abs
  have hpos : 0 < big φ := by
    obtain ⟨s, hs⟩ := hne
    exact lt_of_lt_of_le (abs_pos.2 hs) ((hbig φ).2 ⟨s, rfl⟩)
  -- no division by zero
  have hz : ∀ k, ¬ ∀ s, (shifted a bs)^[k] (ampOf e.nm node lat.state) s = 0 := by
    intro k hk
    have h0 : ∀ N s, (shifted a bs)^[N + k] (ampOf e.nm node lat.state) s = 0 := by
      intro N
      induction N with
      | zero => rwa [Nat.zero_add]
      | succ N ih =>
        intro s
        rw [Nat.add_right_comm, Function.iterate_succ_apply',
          show (shifted a bs)^[N + k] (ampOf e.nm node lat.state) = fun _ => 0 from funext ih, shifted,
          hamiltonian_zero]
        ring
    obtain ⟨s, hs⟩ := hne
    have h1 : ∀ N, u (N + k) s = 0 := fun N => by
      have := hA (N + k) s
      rw [h0] at this
      exact (mul_eq_zero.1 this.symm).resolve_left (pow_ne_zero _ hμ)
    have h2 := (hu s).comp (tendsto_add_atTop_nat k)
    have h3 : ((fun N => u N s) ∘ fun N => N + k) = fun _ => 0 := funext h1
    rw [h3] at h2
    exact hs (tendsto_nhds_unique h2 tendsto_const_nhds)
  refine ⟨fun N => a - |a - x| * (big (u (N + 1)) / big (u N)), fun N => ?_, ?_⟩
  · rcases updates_ok he hn env (N + 2) hl with ⟨k, -, k2, -⟩ | ⟨lat', c, l1, -⟩
    · rw [ha, hA0] at k2
      exact absurd k2 (hz k)
    · refine ⟨lat', l1, ?_⟩
      obtain ⟨m, m', h0, h1, h2, h3⟩ := C89_energy he hn env N hl l1
      rw [ha, hA0] at h1 h2
      have key : ∀ N m, IsGreatest (Set.range fun s =>
          e.abs ((shifted a bs)^[N] (ampOf e.nm node lat.state) s)) m → m = |a - x| ^ N * big (u N) := by
        intro N m hm
        refine hm.unique ⟨?_, ?_⟩
        · obtain ⟨s, hs⟩ := (hbig (u N)).1
          refine ⟨s, ?_⟩
          show e.abs _ = _
          rw [habs, hA, abs_mul, abs_pow]
          exact congrArg _ hs
        · rintro _ ⟨s, rfl⟩
          show e.abs _ ≤ _
          rw [habs, hA, abs_mul, abs_pow]
          exact mul_le_mul_of_nonneg_left ((hbig (u N)).2 ⟨s, rfl⟩) (by positivity)
      have e1 := key N m h1
      have e2 := key (N + 1) m' h2
      rw [h3, ha, e1, e2]
      congr 2
      have hp : |a - x| ≠ 0 := abs_ne_zero.2 hμ
      have hb : big (u N) ≠ 0 := fun h => by
        rw [e1, h, mul_zero] at h0
        exact lt_irrefl _ h0
      field_simp
      ring
  · have h1 := (hbl.comp (tendsto_add_atTop_nat 1)).div hbl hpos.ne'
    rw [div_self hpos.ne'] at h1
    have h2 := (h1.const_mul |a - x|).const_sub a
    rw [mul_one] at h2
    exact h2

/-- **C89**: if the eigenvalue is less than `a`, the energy converges to it. -/
theorem C89_lowest (he : DiagEnvOk e) (habs : ∀ x, e.abs x = |x|) (hc : ∀ x, e.c x = x) (hn : NodesOk node)
    (env : Env NoSymmetry ℝ) {lat : Lattice ν ℝ ℝ} {bs : List ((P × P) × Matrix4 ℝ)} (hl : IsLattice e.nm node lat bs)
    {φ : Spins P → ℝ} {x : ℝ} (hφ : ∀ s, hamiltonian bs φ s = x * φ s) (hne : ∃ s, φ s ≠ 0) (hx : x < lat.approximate)
    {K : Type} [Fintype K] {χ : K → Spins P → ℝ} {y : K → ℝ} (hχ : ∀ k s, hamiltonian bs (χ k) s = y k * χ k s)
    (hy : ∀ k, x < y k ∧ y k < 2 * lat.approximate - x)
    (hψ : ∀ s, ampOf e.nm node lat.state s = φ s + ∑ k, χ k s) :
    ∃ E : ℕ → ℝ, (∀ N, ∃ lat', updates e env (N + 2) lat = .ok lat' ∧ lat'.energy = some (E N)) ∧
      Tendsto E atTop (𝓝 x) := by
  have h0 : 0 < lat.approximate - x := sub_pos.2 hx
  obtain ⟨E, h1, h2⟩ := C89_limit he habs hc hn env hl hφ hne hx.ne' hχ (fun k => by
    rw [abs_of_pos h0, abs_lt]
    constructor <;> linarith [(hy k).1, (hy k).2]) hψ
  rw [abs_of_pos h0, sub_sub_cancel] at h2
  exact ⟨E, h1, h2⟩

end TAT.Ed
