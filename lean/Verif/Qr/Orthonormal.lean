import Verif.Qr.Witness
import Mathlib.Analysis.InnerProductSpace.GramSchmidtOrtho
import Mathlib.Analysis.InnerProductSpace.PiL2
import Mathlib.Analysis.Complex.Basic

/-!
# Both assumptions about LAPACK can be met, and cases of C70

Over the real and the complex numbers there are routines with the properties required of `gelqf`,
`orglq`, `geqrf` and `orgqr`, with orthonormal rows and columns.
-/

namespace TAT

theorem sum_range_fin {K : Type} [AddCommMonoid K] (f : ℕ → K) (k : ℕ) :
    ((List.range k).map f).sum = ∑ i : Fin k, f i := by
  induction k with
  | zero => simp
  | succ k ih => rw [List.range_succ, List.map_append, List.sum_append, ih, Fin.sum_univ_castSucc]; simp

variable {K : Type} [RCLike K]

/-- Every matrix is a lower triangle times a matrix with orthonormal rows. -/
theorem exists_lower_ortho (n m : ℕ) (A : ℕ → ℕ → K) : ∃ LQ : (ℕ → ℕ → K) × (ℕ → ℕ → K),
    (∀ i l, i < l → LQ.1 i l = 0) ∧
    (∀ i < n, ∀ j < m, A i j = ((List.range (min n m)).map fun l => LQ.1 i l * LQ.2 l j).sum) ∧
    ∀ l < min n m, ∀ l' < min n m, ((List.range m).map fun j =>
      (starRingEnd K) (LQ.2 l j) * LQ.2 l' j).sum = if l = l' then 1 else 0 := by
  classical
  let a (i : ℕ) : EuclideanSpace K (Fin m) := WithLp.toLp 2 fun j => A i j
  let b := InnerProductSpace.gramSchmidtOrthonormalBasis (𝕜 := K) (E := EuclideanSpace K (Fin m))
    (ι := Fin m) (by simp) fun l => a l
  let L (i l : ℕ) : K := if h : l < m then if i < l then 0 else inner K (b ⟨l, h⟩) (a i) else 0
  let Q (l j : ℕ) : K := if h : l < m ∧ j < m then b ⟨l, h.1⟩ ⟨j, h.2⟩ else 0
  have hL : ∀ i l, i < l → L i l = 0 := fun i l h => by
    simp only [L, if_pos h, dite_eq_ite, ite_self]
  refine ⟨(L, Q), hL, fun i hi j hj => ?_, fun l hl l' hl' => ?_⟩
  · dsimp only
    rw [← sum_range_min (fun l => L i l * Q l j) n m fun l hl => by rw [hL i l (by omega), zero_mul],
      sum_range_fin]
    have h := b.sum_repr' (a i)
    have h' : (a i) ⟨j, hj⟩ = ∑ l : Fin m, inner K (b l) (a i) * (b l) ⟨j, hj⟩ := by
      conv_lhs => rw [← h]
      simp [WithLp.ofLp_sum, Finset.sum_apply]
    change A i j = _ at h'
    rw [h']
    refine Finset.sum_congr rfl fun l _ => ?_
    simp only [L, Q, l.2, hj, dif_pos, and_self]
    split
    · rename_i hil
      have hi' : i < m := hil.trans l.2
      have := InnerProductSpace.gramSchmidtOrthonormalBasis_inv_triangular (𝕜 := K)
        (E := EuclideanSpace K (Fin m)) (ι := Fin m) (by simp) (fun l => a l)
        (i := ⟨i, hi'⟩) (j := l) hil
      change inner K (b l) (a i) = 0 at this
      rw [this]
    · rfl
  · dsimp only
    have hlm : l < m := by omega
    have hlm' : l' < m := by omega
    rw [sum_range_fin]
    have h := orthonormal_iff_ite.1 b.orthonormal ⟨l, hlm⟩ ⟨l', hlm'⟩
    rw [PiLp.inner_apply] at h
    simp only [Fin.mk.injEq] at h
    rw [← h]
    refine Finset.sum_congr rfl fun j _ => ?_
    simp only [Q, hlm, hlm', j.2, dif_pos, and_self]
    simp [mul_comm]

open Classical in
/-- Routines as required. `tau` holds the other factor. -/
theorem exists_lapackQrOrtho :
    ∃ lp : LapackQr K, LapackQrOk lp ∧ LapackQrOrtho (starRingEnd K) lp := by
  choose F hF1 hF2 hF3 using exists_lower_ortho (K := K)
  let mat (n : ℕ) (data : List K) : ℕ → ℕ → K := fun i j => data.getD (i + j * n) 0
  let tr (A : ℕ → ℕ → K) : ℕ → ℕ → K := fun i j => A j i
  refine ⟨⟨fun n m data => some (colMajor n m (F n m (mat n data)).1,
      colMajor (min n m) m (F n m (mat n data)).2),
    fun _ _ _ _ tau => some tau,
    fun n m data => some (colMajor n m (tr (F m n (tr (mat n data))).1),
      colMajor n (min n m) (tr (F m n (tr (mat n data))).2)),
    fun _ _ _ _ tau => some tau⟩, ⟨fun n m data hn hm hd => ?_, fun n m data hn hm hd => ?_⟩,
    ⟨fun n m data d tau c q hn hm hd h1 h2 h3 h4 l hl l' hl' => ?_,
      fun n m data d tau c q hn hm hd h1 h2 h3 h4 l hl l' hl' => ?_⟩⟩
  · refine ⟨_, _, rfl, colMajor_length _ _ _, fun c _ _ =>
      ⟨_, rfl, colMajor_length _ _ _, fun i hi j hj => ?_⟩⟩
    refine (hF2 n m (mat n data) i hi j hj).trans ?_
    congr 1
    apply List.map_congr_left
    intro l hl
    rw [List.mem_range] at hl
    have hl' : l < n ∧ l < m := ⟨by omega, by omega⟩
    rw [colMajor_getD _ hl hj, colMajor_getD _ hi hl'.2]
    split
    · rfl
    · rw [hF1 _ _ _ i l (by omega)]
  · refine ⟨_, _, rfl, colMajor_length _ _ _, fun c _ _ =>
      ⟨_, rfl, colMajor_length _ _ _, fun i hi j hj => ?_⟩⟩
    refine (hF2 m n (tr (mat n data)) j hj i hi).trans ?_
    rw [Nat.min_comm]
    congr 1
    apply List.map_congr_left
    intro l hl
    rw [List.mem_range] at hl
    have hl' : l < n ∧ l < m := ⟨by omega, by omega⟩
    rw [colMajor_getD _ hi hl, colMajor_getD _ hl'.1 hj, mul_comm]
    congr 1
    split
    · rfl
    · exact hF1 _ _ _ j l (by omega)
  · simp only [Option.some.injEq, Prod.mk.injEq] at h1 h4
    rw [← h4, ← h1.2, ← hF3 n m (mat n data) l hl l' hl']
    congr 1
    refine List.map_congr_left fun j hj => ?_
    rw [List.mem_range] at hj
    rw [colMajor_getD _ hl hj, colMajor_getD _ hl' hj]
  · simp only [Option.some.injEq, Prod.mk.injEq] at h1 h4
    rw [← h4, ← h1.2, ← hF3 m n (tr (mat n data)) l (by omega) l' (by omega)]
    congr 1
    refine List.map_congr_left fun i hi => ?_
    rw [List.mem_range] at hi
    rw [colMajor_getD _ hi hl, colMajor_getD _ hi hl']

/-! ## a case -/

/-- The shape and elements of `sampleQ`, one of them imaginary. -/
noncomputable def sampleComplex : Tensor ℕ FermiSymmetry ℂ :=
  ⟨[1, 2, 3],
    [⟨false, [(⟨0⟩, 1), (⟨1⟩, 2)]⟩, ⟨true, [(⟨-1⟩, 1), (⟨0⟩, 1)]⟩, ⟨true, [(⟨-1⟩, 1), (⟨0⟩, 2)]⟩],
    [([⟨0⟩, ⟨0⟩, ⟨0⟩], [3, Complex.I]), ([⟨1⟩, ⟨-1⟩, ⟨0⟩], [1, 2, 3, 4]),
      ([⟨1⟩, ⟨0⟩, ⟨-1⟩], [7, 8])]⟩

theorem sampleComplex_wf : WF sampleComplex := by
  refine ⟨by decide, by decide, by decide, by decide +kernel, by decide +kernel⟩

/-- The tensor satisfies what C70 needs, with the edge 2 on Q (which then is the second factor). -/
example (env : DecompEnv FermiSymmetry ℂ) (junk : ℕ → ℂ) : ∃ lp q r,
    qr lp env junk ⟨50, 51⟩ sampleComplex 'q' [2] 8 9 = .ok (q, r) ∧
    Isometry (starRingEnd ℂ) q [2] 8 := by
  obtain ⟨lp, hlp, ho⟩ := exists_lapackQrOrtho (K := ℂ)
  obtain ⟨q, r, h1, h2⟩ := C70_qr hlp ho env junk (qn := ⟨50, 51⟩) (by decide) sampleComplex_wf (by decide)
    (direction := 'q') (useR := false) (by decide) [2] (commonQ := 8) (commonR := 9) (by decide)
    (by decide) (by decide) (by decide) (by decide) (by decide)
  exact ⟨lp, q, r, h1, h2⟩

end TAT
