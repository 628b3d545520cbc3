import Verif.Svd.Witness
import Verif.Qr.Orthonormal
import Mathlib.Analysis.InnerProductSpace.SingularValues

/-!
# Both assumptions about `gesvd` can be met, and a case of C70

Over the real and the complex numbers every matrix has a singular value decomposition.
-/

namespace TAT

variable {K : Type} [RCLike K]

/-- The singular value decomposition of a matrix with at least as many rows as columns. -/
theorem exists_svd_tall {m n : ℕ} (hmn : m ≤ n) (A : Fin n → Fin m → K) :
    ∃ (u : Fin m → EuclideanSpace K (Fin n)) (v : Fin m → EuclideanSpace K (Fin m)) (S : Fin m → ℝ),
      Orthonormal K u ∧ Orthonormal K v ∧ (∀ l, 0 ≤ S l) ∧ Antitone S ∧
      ∀ i j, A i j = ∑ l, u l i * (S l : K) * (starRingEnd K) (v l j) := by
  classical
  let T : EuclideanSpace K (Fin m) →ₗ[K] EuclideanSpace K (Fin n) :=
    Matrix.toEuclideanLin (Matrix.of A)
  have hm : Module.finrank K (EuclideanSpace K (Fin m)) = m := by simp
  let v := T.isSymmetric_adjoint_comp_self.eigenvectorBasis hm
  let e := T.isSymmetric_adjoint_comp_self.eigenvalues hm
  have he : ∀ l, 0 ≤ e l := T.isPositive_adjoint_comp_self.nonneg_eigenvalues hm
  have hin : ∀ l l', inner K (T (v l)) (T (v l')) = if l = l' then (e l' : K) else 0 := by
    intro l l'
    rw [← LinearMap.adjoint_inner_right]
    change inner K (v l) ((LinearMap.adjoint T ∘ₗ T) (v l')) = _
    rw [T.isSymmetric_adjoint_comp_self.apply_eigenvectorBasis hm l', inner_smul_right,
      orthonormal_iff_ite.1 v.orthonormal l l', mul_ite, mul_one, mul_zero]
  let S (l : Fin m) : ℝ := √(e l)
  have hS : ∀ l, (S l : K) * (S l : K) = (e l : K) := fun l => by
    rw [← RCLike.ofReal_mul, Real.mul_self_sqrt (he l)]
  let w (i : Fin n) : EuclideanSpace K (Fin n) :=
    if h : i.1 < m then ((S ⟨i, h⟩ : K))⁻¹ • T (v ⟨i, h⟩) else 0
  let s : Set (Fin n) := {i | ∃ h : i.1 < m, S ⟨i, h⟩ ≠ 0}
  have hw : Orthonormal K (s.domRestrict w) := by
    rw [orthonormal_iff_ite]
    rintro ⟨i, h1, h2⟩ ⟨j, h3, h4⟩
    simp only [Set.domRestrict_apply, w, dif_pos h1, dif_pos h3]
    rw [inner_smul_left, inner_smul_right, hin, map_inv₀, RCLike.conj_ofReal]
    simp only [Fin.mk.injEq, Subtype.mk.injEq]
    by_cases hij : i = j
    · subst hij
      rw [if_pos rfl, if_pos rfl, ← hS]
      have : (S ⟨i, h1⟩ : K) ≠ 0 := by exact_mod_cast h2
      field_simp
    · rw [if_neg (fun hc => hij (Fin.ext hc)), if_neg hij, mul_zero, mul_zero]
  obtain ⟨b, hb⟩ := hw.exists_orthonormalBasis_extension_of_card_eq (by simp)
  have hT : ∀ l : Fin m, T (v l) = (S l : K) • b (Fin.castLE hmn l) := by
    intro l
    by_cases h : S l = 0
    · rw [h]
      have := hin l l
      rw [if_pos rfl, ← hS, h] at this
      simp only [RCLike.ofReal_zero, mul_zero, inner_self_eq_zero] at this
      rw [this, RCLike.ofReal_zero, zero_smul]
    · rw [hb (Fin.castLE hmn l) ⟨l.2, h⟩]
      have h2 : (S l : K) ≠ 0 := by exact_mod_cast h
      simp only [w, Fin.val_castLE, l.2, dif_pos, Fin.eta]
      rw [smul_smul, mul_inv_cancel₀ h2, one_smul]
  refine ⟨fun l => b (Fin.castLE hmn l), v, S, ?_, v.orthonormal, fun l => Real.sqrt_nonneg _,
    fun l l' h => Real.sqrt_le_sqrt
      (T.isSymmetric_adjoint_comp_self.eigenvalues_antitone hm h), fun i j => ?_⟩
  · exact b.orthonormal.comp _ (Fin.castLE_injective hmn)
  · have h1 : T (EuclideanSpace.single j 1) i = A i j := by
      simp [T, Matrix.toLpLin_apply]
    rw [← h1, ← v.sum_repr' (EuclideanSpace.single j 1), map_sum, WithLp.ofLp_sum, Finset.sum_apply]
    refine Finset.sum_congr rfl fun l _ => ?_
    rw [map_smul, hT]
    simp only [EuclideanSpace.inner_single_right, PiLp.smul_apply, smul_eq_mul, one_mul]
    ring

/-- The singular value decomposition of a matrix. -/
theorem exists_svd (n m : ℕ) (A : ℕ → ℕ → K) : ∃ R : (ℕ → ℕ → K) × (ℕ → ℝ) × (ℕ → ℕ → K),
    (∀ i < n, ∀ j < m, A i j = ((List.range (min n m)).map fun l =>
      R.1 i l * (R.2.1 l : K) * R.2.2 l j).sum) ∧
    (∀ l < min n m, ∀ l' < min n m, ((List.range n).map fun i =>
      (starRingEnd K) (R.1 i l) * R.1 i l').sum = if l = l' then 1 else 0) ∧
    (∀ l < min n m, ∀ l' < min n m, ((List.range m).map fun j =>
      (starRingEnd K) (R.2.2 l j) * R.2.2 l' j).sum = if l = l' then 1 else 0) ∧
    (∀ l, 0 ≤ R.2.1 l) ∧ ∀ l l', l ≤ l' → l' < min n m → R.2.1 l' ≤ R.2.1 l := by
  classical
  have hin : ∀ {k d : ℕ} {u : Fin k → EuclideanSpace K (Fin d)} (_ : Orthonormal K u) (l l' : Fin k),
      ∑ i, (starRingEnd K) (u l i) * u l' i = if l = l' then 1 else 0 := by
    intro k d u hu l l'
    rw [← orthonormal_iff_ite.1 hu l l', PiLp.inner_apply]
    refine Finset.sum_congr rfl fun i _ => ?_
    simp [mul_comm]
  have hin' : ∀ {k d : ℕ} {u : Fin k → EuclideanSpace K (Fin d)} (_ : Orthonormal K u) (l l' : Fin k),
      ∑ i, u l i * (starRingEnd K) (u l' i) = if l = l' then 1 else 0 := by
    intro k d u hu l l'
    rw [show (if l = l' then (1 : K) else 0) = (starRingEnd K) (if l = l' then 1 else 0) by
      split <;> simp, ← hin hu l l', map_sum]
    refine Finset.sum_congr rfl fun i _ => ?_
    simp
  rcases Nat.le_total m n with h | h
  · obtain ⟨u, v, S, hu, hv, hS, ha, hA⟩ := exists_svd_tall h fun i j => A i j
    rw [Nat.min_eq_right h]
    refine ⟨(fun i l => if x : i < n ∧ l < m then u ⟨l, x.2⟩ ⟨i, x.1⟩ else 0,
      fun l => if x : l < m then S ⟨l, x⟩ else 0,
      fun l j => if x : l < m ∧ j < m then (starRingEnd K) (v ⟨l, x.1⟩ ⟨j, x.2⟩) else 0),
      fun i hi j hj => ?_, fun l hl l' hl' => ?_, fun l hl l' hl' => ?_, fun l => ?_,
      fun l l' hl hl' => ?_⟩
    · rw [sum_range_fin, hA ⟨i, hi⟩ ⟨j, hj⟩]
      refine Finset.sum_congr rfl fun l _ => ?_
      simp [hi, hj]
    · rw [sum_range_fin]
      have := hin hu ⟨l, hl⟩ ⟨l', hl'⟩
      simp only [Fin.mk.injEq] at this
      rw [← this]
      refine Finset.sum_congr rfl fun i _ => ?_
      simp [hl, hl']
    · rw [sum_range_fin]
      have := hin' hv ⟨l, hl⟩ ⟨l', hl'⟩
      simp only [Fin.mk.injEq] at this
      rw [← this]
      refine Finset.sum_congr rfl fun i _ => ?_
      simp [hl, hl']
    · dsimp only
      split
      · exact hS _
      · exact le_refl _
    · dsimp only
      rw [dif_pos hl', dif_pos (by omega)]
      exact ha hl
  · obtain ⟨u, v, S, hu, hv, hS, ha, hA⟩ := exists_svd_tall h fun j i => A i j
    rw [Nat.min_eq_left h]
    refine ⟨(fun i l => if x : i < n ∧ l < n then (starRingEnd K) (v ⟨l, x.2⟩ ⟨i, x.1⟩) else 0,
      fun l => if x : l < n then S ⟨l, x⟩ else 0,
      fun l j => if x : l < n ∧ j < m then u ⟨l, x.1⟩ ⟨j, x.2⟩ else 0),
      fun i hi j hj => ?_, fun l hl l' hl' => ?_, fun l hl l' hl' => ?_, fun l => ?_,
      fun l l' hl hl' => ?_⟩
    · rw [sum_range_fin, hA ⟨j, hj⟩ ⟨i, hi⟩]
      refine Finset.sum_congr rfl fun l _ => ?_
      simp only [hi, hj, Fin.is_lt, and_self, dif_pos, Fin.eta]
      ring
    · rw [sum_range_fin]
      have := hin' hv ⟨l, hl⟩ ⟨l', hl'⟩
      simp only [Fin.mk.injEq] at this
      rw [← this]
      refine Finset.sum_congr rfl fun i _ => ?_
      simp [hl, hl']
    · rw [sum_range_fin]
      have := hin hu ⟨l, hl⟩ ⟨l', hl'⟩
      simp only [Fin.mk.injEq] at this
      rw [← this]
      refine Finset.sum_congr rfl fun i _ => ?_
      simp [hl, hl']
    · dsimp only
      split
      · exact hS _
      · exact le_refl _
    · dsimp only
      rw [dif_pos hl', dif_pos (by omega)]
      exact ha hl

/-- A routine as required: the values are not negative and descending. -/
theorem exists_gesvdOrtho : ∃ gesvd : Gesvd K ℝ, GesvdOk (fun x : ℝ => (x : K)) gesvd ∧
    GesvdOrtho (starRingEnd K) gesvd ∧
    ∀ n m data, (∀ x ∈ (gesvd n m data).2.1, 0 ≤ x) ∧ (gesvd n m data).2.1.Pairwise (· ≥ ·) := by
  choose F hF1 hF2 hF3 hF4 hF5 using exists_svd (K := K)
  let mat (n : ℕ) (data : List K) : ℕ → ℕ → K := fun i j => data.getD (i + j * n) 0
  have hs : ∀ (f : ℕ → ℝ) k l, l < k → ((List.range k).map f).getD l 0 = f l := by
    intro f k l hl
    rw [List.getD_eq_getElem?_getD, List.getElem?_map, List.getElem?_range hl]
    rfl
  refine ⟨fun n m data => (colMajor n (min n m) (F n m (mat n data)).1,
    (List.range (min n m)).map (F n m (mat n data)).2.1,
    colMajor (min n m) m (F n m (mat n data)).2.2), fun n m data hn hm hd => ?_,
    fun n m data u s vt hn hm hd h => ?_, fun n m data => ⟨fun x hx => ?_, ?_⟩⟩
  · refine ⟨_, _, _, rfl, colMajor_length _ _ _, by simp, colMajor_length _ _ _, fun i hi j hj => ?_⟩
    refine (hF1 n m (mat n data) i hi j hj).trans ?_
    congr 1
    refine List.map_congr_left fun l hl => ?_
    rw [List.mem_range] at hl
    rw [colMajor_getD _ hi hl, colMajor_getD _ hl hj, hs _ _ _ hl]
  · simp only [Prod.mk.injEq] at h
    obtain ⟨rfl, rfl, rfl⟩ := h
    refine ⟨fun l hl l' hl' => ?_, fun l hl l' hl' => ?_⟩
    · rw [← hF2 n m (mat n data) l hl l' hl']
      congr 1
      refine List.map_congr_left fun i hi => ?_
      rw [List.mem_range] at hi
      rw [colMajor_getD _ hi hl, colMajor_getD _ hi hl']
    · rw [← hF3 n m (mat n data) l hl l' hl']
      congr 1
      refine List.map_congr_left fun j hj => ?_
      rw [List.mem_range] at hj
      rw [colMajor_getD _ hl hj, colMajor_getD _ hl' hj]
  · obtain ⟨l, _, rfl⟩ := List.mem_map.1 hx
    exact hF4 _ _ _ l
  · dsimp only
    rw [List.pairwise_map]
    refine List.Pairwise.imp_of_mem (R := (· < ·)) (fun {a b} _ hb hab => ?_) List.pairwise_lt_range
    exact hF5 _ _ _ a b (le_of_lt hab) (List.mem_range.1 hb)

/-! ## a case -/

/-- The sample satisfies what C70 needs, whatever the cut, with U as the second factor. -/
example (env : DecompEnv FermiSymmetry ℂ) (junk : ℕ → ℂ) : ∃ gesvd : Gesvd ℂ ℝ,
    (∃ u S v, svd gesvd env junk ⟨50, 51⟩ sampleComplex [2, 3] 8 9 (2 ^ 64 - 1) = .ok (u, S, v)) ∧
    ∀ cut u S v, svd gesvd env junk ⟨50, 51⟩ sampleComplex [2, 3] 8 9 cut = .ok (u, S, v) →
      Isometry (starRingEnd ℂ) u [2, 3] 8 ∧ Isometry (starRingEnd ℂ) v [1] 9 := by
  obtain ⟨gesvd, h1, h2, _⟩ := exists_gesvdOrtho (K := ℂ)
  obtain ⟨u, S, v, e, _⟩ := C35_svd h1 env junk (sn := ⟨50, 51⟩) (by decide) sampleComplex_wf
    (by decide) [2, 3] (commonU := 8) (commonV := 9) (by decide) (by decide) (by decide) (by decide)
  refine ⟨gesvd, ⟨u, S, v, e⟩, fun cut u S v h => ?_⟩
  exact C70_svd h1 h2 env junk (sn := ⟨50, 51⟩) (by decide) sampleComplex_wf [2, 3] (commonU := 8)
    (commonV := 9) (by decide) (by decide) (by decide) (by decide) h

end TAT
