import Mathlib.Analysis.InnerProductSpace.PiL2
import Mathlib.Analysis.InnerProductSpace.Projection.Basic

/-!
# The nearest matrix of a given rank
-/

namespace TAT

section
variable {K : Type} [RCLike K] {I J X Y : Type} [Fintype I] [Fintype J] [Fintype X] [Fintype Y]
  [DecidableEq X]

/-- The square of the norm of a combination of orthonormal functions. -/
theorem sum_ortho (B : X → J → K)
    (hB : ∀ x y, ∑ j, (starRingEnd K) (B x j) * B y j = if x = y then 1 else 0) (a : X → K) :
    ∑ j, ‖∑ x, a x * B x j‖ ^ 2 = ∑ x, ‖a x‖ ^ 2 := by
  have h : ((∑ j, ‖∑ x, a x * B x j‖ ^ 2 : ℝ) : K) = ((∑ x, ‖a x‖ ^ 2 : ℝ) : K) := by
    push_cast
    simp only [← RCLike.conj_mul]
    have e : ∀ j, (starRingEnd K) (∑ x, a x * B x j) * ∑ x, a x * B x j =
        ∑ x, ∑ y, ((starRingEnd K) (a x) * a y) * ((starRingEnd K) (B x j) * B y j) := fun j => by
      rw [map_sum, Finset.sum_mul_sum]
      refine Finset.sum_congr rfl fun x _ => Finset.sum_congr rfl fun y _ => ?_
      rw [map_mul]
      ring
    simp only [e]
    rw [Finset.sum_comm]
    refine Finset.sum_congr rfl fun x _ => ?_
    rw [Finset.sum_comm]
    simp only [← Finset.mul_sum, hB, mul_ite, mul_one, mul_zero, Finset.sum_ite_eq, Finset.mem_univ,
      if_true]
  exact_mod_cast h

/-- No sum of `Y` products is nearer than the one of the largest values. -/
theorem nearest (A : X → I → K) (B : X → J → K) (g : X → ℝ)
    (hA : ∀ x y, ∑ i, (starRingEnd K) (A x i) * A y i = if x = y then 1 else 0)
    (hB : ∀ x y, ∑ j, (starRingEnd K) (B x j) * B y j = if x = y then 1 else 0)
    (kept : Finset X) (hk : Fintype.card Y ≤ kept.card) {τ : ℝ} (hτ : 0 ≤ τ)
    (h1 : ∀ x ∈ kept, τ ≤ g x ^ 2) (h2 : ∀ x ∉ kept, g x ^ 2 ≤ τ) (P : Y → I → K) (Q : Y → J → K) :
    ∑ x ∈ keptᶜ, g x ^ 2 ≤
      ∑ i, ∑ j, ‖∑ x, A x i * (g x : K) * B x j - ∑ y, P y i * Q y j‖ ^ 2 := by
  classical
  let a (x : X) : EuclideanSpace K I := WithLp.toLp 2 (A x)
  let b (y : Y) : EuclideanSpace K I := WithLp.toLp 2 (P y)
  let W : Submodule K (EuclideanSpace K I) := Submodule.span K (Set.range b)
  let w := stdOrthonormalBasis K W
  have ha : Orthonormal K a := by
    rw [orthonormal_iff_ite]
    intro x y
    rw [← hA x y, PiLp.inner_apply]
    refine Finset.sum_congr rfl fun i _ => ?_
    simp [a, mul_comm]
  let M (j : J) : EuclideanSpace K I := ∑ x, ((g x : K) * B x j) • a x
  let R (j : J) : EuclideanSpace K I := ∑ y, Q y j • b y
  let p (x : X) : ℝ := ‖W.orthogonalProjectionOnto (a x)‖ ^ 2
  have hin : ∀ (i) (v : EuclideanSpace K I), inner K (w i) (W.orthogonalProjectionOnto v) =
      inner K (w i : EuclideanSpace K I) v := fun i v => by
    simp
  have hp1 : ∀ x, p x ≤ 1 := fun x => by
    have := W.norm_orthogonalProjectionOnto_apply_le (a x)
    rw [ha.1 x] at this
    have h0 := norm_nonneg (W.orthogonalProjectionOnto (a x))
    change _ ^ 2 ≤ 1
    nlinarith
  have hp0 : ∀ x, 0 ≤ p x := fun x => by positivity
  have hp : ∀ x, p x = ∑ i, ‖inner K (w i : EuclideanSpace K I) (a x)‖ ^ 2 := fun x => by
    change _ ^ 2 = _
    rw [← w.sum_sq_norm_inner_right]
    simp only [hin]
  have hpk : ∑ x, p x ≤ kept.card := by
    simp only [hp]
    rw [Finset.sum_comm]
    calc _ ≤ ∑ i, (1 : ℝ) := by
          refine Finset.sum_le_sum fun i _ => ?_
          have := ha.sum_inner_products_le (w i : EuclideanSpace K I) (s := Finset.univ)
          have hw : ‖(w i : EuclideanSpace K I)‖ = 1 := w.orthonormal.1 i
          rw [hw, one_pow] at this
          refine le_trans (le_of_eq ?_) this
          refine Finset.sum_congr rfl fun x _ => ?_
          rw [norm_inner_symm]
      _ ≤ kept.card := by
          simp only [Finset.sum_const, nsmul_eq_mul, mul_one, Finset.card_univ, Fintype.card_fin]
          exact_mod_cast (finrank_range_le_card b).trans hk
  -- the columns
  have hcol : ∀ j, ∑ i, ‖∑ x, A x i * (g x : K) * B x j - ∑ y, P y i * Q y j‖ ^ 2 =
      ‖M j - R j‖ ^ 2 := fun j => by
    rw [EuclideanSpace.norm_sq_eq]
    refine Finset.sum_congr rfl fun i _ => ?_
    congr 2
    simp [M, R, a, b, mul_comm, mul_left_comm]
  have hmin : ∀ j, ‖M j‖ ^ 2 - ‖W.orthogonalProjectionOnto (M j)‖ ^ 2 ≤ ‖M j - R j‖ ^ 2 := by
    intro j
    have hR : R j ∈ W := Submodule.sum_mem _ fun y _ => Submodule.smul_mem _ _
      (Submodule.subset_span ⟨y, rfl⟩)
    have e1 := W.norm_sq_eq_add_norm_sq_projection (M j)
    have e2 := Wᗮ.norm_orthogonalProjectionOnto_apply_le (M j - R j)
    have e3 : Wᗮ.orthogonalProjectionOnto (M j - R j) = Wᗮ.orthogonalProjectionOnto (M j) := by
      rw [map_sub]
      simp [hR]
    rw [e3] at e2
    have h0 := norm_nonneg (Wᗮ.orthogonalProjectionOnto (M j))
    nlinarith
  have hM : ∑ j, ‖M j‖ ^ 2 = ∑ x, g x ^ 2 := by
    have e : ∀ j, ‖M j‖ ^ 2 = ∑ i, ‖∑ x, ((g x : K) * A x i) * B x j‖ ^ 2 := fun j => by
      rw [EuclideanSpace.norm_sq_eq]
      refine Finset.sum_congr rfl fun i _ => ?_
      congr 2
      simp [M, a, mul_comm, mul_left_comm]
    simp only [e]
    rw [Finset.sum_comm]
    simp only [sum_ortho B hB, norm_mul, mul_pow, RCLike.norm_ofReal, sq_abs]
    rw [Finset.sum_comm]
    refine Finset.sum_congr rfl fun x _ => ?_
    rw [← Finset.mul_sum]
    have := EuclideanSpace.norm_sq_eq (a x)
    rw [ha.1 x] at this
    change _ = ∑ i, ‖A x i‖ ^ 2 at this
    rw [← this]
    ring
  have hMp : ∑ j, ‖W.orthogonalProjectionOnto (M j)‖ ^ 2 = ∑ x, g x ^ 2 * p x := by
    have e : ∀ j, ‖W.orthogonalProjectionOnto (M j)‖ ^ 2 =
        ∑ i, ‖∑ x, ((g x : K) * inner K (w i : EuclideanSpace K I) (a x)) * B x j‖ ^ 2 := fun j => by
      rw [← w.sum_sq_norm_inner_right]
      refine Finset.sum_congr rfl fun i _ => ?_
      rw [hin]
      congr 2
      simp only [M, inner_sum, inner_smul_right]
      exact Finset.sum_congr rfl fun x _ => by ring
    simp only [e]
    rw [Finset.sum_comm]
    simp only [sum_ortho B hB, norm_mul, mul_pow, RCLike.norm_ofReal, sq_abs]
    rw [Finset.sum_comm]
    exact Finset.sum_congr rfl fun x _ => by rw [← Finset.mul_sum, hp]
  rw [Finset.sum_comm]
  simp only [hcol]
  refine le_trans ?_ (Finset.sum_le_sum fun j _ => hmin j)
  rw [Finset.sum_sub_distrib, hM, hMp]
  have hs : ∀ f : X → ℝ, ∑ x, f x = ∑ x ∈ kept, f x + ∑ x ∈ keptᶜ, f x := fun f =>
    (Finset.sum_add_sum_compl kept f).symm
  have k1 : ∑ x ∈ kept, τ * (1 - p x) ≤ ∑ x ∈ kept, g x ^ 2 * (1 - p x) :=
    Finset.sum_le_sum fun x hx => mul_le_mul_of_nonneg_right (h1 x hx) (by linarith [hp1 x])
  have k2 : ∑ x ∈ keptᶜ, g x ^ 2 * p x ≤ ∑ x ∈ keptᶜ, τ * p x :=
    Finset.sum_le_sum fun x hx => mul_le_mul_of_nonneg_right (h2 x (by simpa using hx)) (hp0 x)
  rw [hs p] at hpk
  rw [hs fun x => g x ^ 2, hs fun x => g x ^ 2 * p x]
  simp only [mul_sub, mul_one, Finset.sum_sub_distrib, Finset.sum_const, nsmul_eq_mul,
    ← Finset.mul_sum] at k1 k2
  nlinarith [mul_nonneg hτ (sub_nonneg.2 hpk)]

end

end TAT
