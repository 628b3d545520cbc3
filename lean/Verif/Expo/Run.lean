import Verif.Expo.Pade

/-!
# `matrix_exponential` as a whole
-/

namespace TAT

open Matrix

variable {α ρ : Type}

theorem aeval_padeNum [Field α] (q n : ℕ) (x : Matrix (Fin n) (Fin n) α) :
    Polynomial.aeval x (padeNum α q) = ∑ k ∈ Finset.range (q + 1), padeCoeff α q k • x ^ k := by
  unfold padeNum
  simp only [map_sum, map_mul, Polynomial.aeval_C, map_pow, Polynomial.aeval_X,
    Algebra.algebraMap_eq_smul_one, smul_mul_assoc, one_mul]

theorem aeval_padeDen [Field α] (q n : ℕ) (x : Matrix (Fin n) (Fin n) α) :
    Polynomial.aeval x (padeDen α q) =
      ∑ k ∈ Finset.range (q + 1), ((-1) ^ k * padeCoeff α q k) • x ^ k := by
  unfold padeDen
  simp only [map_sum, map_mul, Polynomial.aeval_C, Polynomial.aeval_X, map_pow,
    Algebra.algebraMap_eq_smul_one, smul_mul_assoc, one_mul]
  apply Finset.sum_congr rfl
  intro k _
  rw [← Algebra.algebraMap_eq_smul_one, ← Algebra.algebraMap_eq_smul_one, ← map_pow, ← map_mul,
    Algebra.algebraMap_eq_smul_one, smul_mul_assoc, one_mul]

/-- What holds after `i` steps of the loop. -/
structure PadeInv [Field α] (n q : ℕ) (x : Matrix (Fin n) (Fin n) α) (i : ℕ) (s : PadeState α) :
    Prop where
  c : s.c = padeCoeff α q i
  oldLen : s.old.length = n * n
  newLen : s.new.length = n * n
  numLen : s.num.length = n * n
  denLen : s.den.length = n * n
  old : matOf n s.old = x ^ i
  num : matOf n s.num = ∑ k ∈ Finset.range (i + 1), padeCoeff α q k • x ^ k
  den : matOf n s.den = ∑ k ∈ Finset.range (i + 1), ((-1) ^ k * padeCoeff α q k) • x ^ k

theorem padeStep_inv [Field α] [CharZero α] {lib : ExpoLib α ρ} (hg : GemmOk lib.gemm) {n q : ℕ}
    (hn : 0 < n) {a : List α} (ha : a.length = n * n) {i : ℕ} (hi : i < q) {s : PadeState α}
    (hs : PadeInv n q (matOf n a) i s) :
    ∃ s', padeStep lib n q a s (i + 1) = .ok s' ∧ PadeInv n q (matOf n a) (i + 1) s' := by
  obtain ⟨x, x1, x2, x3⟩ := gemm_mat hg hn hs.oldLen ha hs.newLen
  have hc : s.c * ((q - (i + 1) + 1 : ℕ) : α) / (((2 * q - (i + 1) + 1) * (i + 1) : ℕ) : α) =
      padeCoeff α q (i + 1) := by rw [hs.c, padeCoeff_succ hi]
  have hx : matOf n x = matOf n a ^ (i + 1) := by rw [x3, hs.old, pow_succ']
  unfold padeStep
  rw [x1]
  refine ⟨_, rfl, ?_⟩
  have hd : (if (i + 1) % 2 = 0 then padeCoeff α q (i + 1) else -padeCoeff α q (i + 1)) =
      (-1) ^ (i + 1) * padeCoeff α q (i + 1) := by
    split
    · next h => rw [Even.neg_one_pow (Nat.even_iff.mpr h), one_mul]
    · next h =>
      rw [Odd.neg_one_pow (Nat.odd_iff.mpr (by omega)), neg_one_mul]
  constructor
  · exact hc
  · exact x2
  · exact hs.oldLen
  · simp [hs.numLen, x2]
  · simp [hs.denLen, x2]
  · exact hx
  · refine (matOf_zipWith n hs.numLen x2 _).trans ?_
    rw [hs.num, hx, hc, Finset.sum_range_succ _ (i + 1)]
  · refine (matOf_zipWith n hs.denLen x2 _).trans ?_
    rw [hs.den, hx, hc, hd, Finset.sum_range_succ _ (i + 1)]

theorem padeLoop_inv [Field α] [CharZero α] {lib : ExpoLib α ρ} (hg : GemmOk lib.gemm) {n q : ℕ}
    (hn : 0 < n) {a : List α} (ha : a.length = n * n) {s : PadeState α}
    (hs : PadeInv n q (matOf n a) 0 s) (i : ℕ) (hi : i ≤ q) :
    ∃ s', (List.range i).foldlM (fun s i => padeStep lib n q a s (i + 1)) s = .ok s' ∧
      PadeInv n q (matOf n a) i s' := by
  induction i with
  | zero => exact ⟨s, rfl, hs⟩
  | succ i ih =>
    obtain ⟨s1, h1, h2⟩ := ih (by omega)
    obtain ⟨s2, h3, h4⟩ := padeStep_inv hg hn ha (show i < q by omega) h2
    refine ⟨s2, ?_, h4⟩
    rw [List.range_succ, List.foldlM_append, h1]
    show ([i].foldlM (fun s i => padeStep lib n q a s (i + 1)) s1) = _
    rw [List.foldlM_cons, h3]
    rfl

/-- `matrix_exponential` computes a power of the Padé approximant. -/
theorem matrixExponential_spec [Field α] [CharZero α] [Zero ρ] [LT ρ] [DecidableLT ρ]
    {lib : ExpoLib α ρ} (hg : GemmOk lib.gemm) (hs : GesvOk lib.gesv) (junk : ℕ → α) {n : ℕ}
    (hn : 0 < n) {a f : List α} (ha : a.length = n * n) (hf : f.length = n * n) (q : ℕ) {j : ℕ}
    (hj : scaling lib a = .ok j)
    (hu : IsUnit (Polynomial.aeval (((2 ^ j : ℕ) : α)⁻¹ • matOf n a) (padeDen α q))) :
    ∃ r, matrixExponential lib junk n a f q = .ok r ∧ r.length = n * n ∧
      ∃ p, Polynomial.aeval (((2 ^ j : ℕ) : α)⁻¹ • matOf n a) (padeDen α q) * p =
          Polynomial.aeval (((2 ^ j : ℕ) : α)⁻¹ • matOf n a) (padeNum α q) ∧
        matOf n r = p ^ 2 ^ j := by
  have hfr := freshVec_length junk (n * n)
  obtain ⟨d, d1, d2, d3⟩ := identityMatrix_mat hn hfr
  have hta : a.take (n * n) = a := List.take_of_length_le (by omega)
  have hx : matOf n (a.map fun x => x * (1 / ((2 ^ j : ℕ) : α))) =
      ((2 ^ j : ℕ) : α)⁻¹ • matOf n a := by
    rw [matOf_map, one_div]
  have hlen : (a.map fun x => x * (1 / ((2 ^ j : ℕ) : α))).length = n * n := by simp [ha]
  rw [← hx] at hu ⊢
  have h0 : PadeInv n q (matOf n (a.map fun x => x * (1 / ((2 ^ j : ℕ) : α)))) 0
      (⟨1, d, freshVec junk (n * n), d, d⟩ : PadeState α) := by
    refine ⟨(padeCoeff_zero q).symm, d2, hfr, d2, d2, ?_, ?_, ?_⟩
    · exact d3.trans (pow_zero _).symm
    · simp [d3, padeCoeff_zero]
    · simp [d3, padeCoeff_zero]
  obtain ⟨s, s1, s2⟩ := padeLoop_inv hg hn hlen h0 q (le_refl q)
  have hnum := s2.num.trans (aeval_padeNum q n _).symm
  have hden := s2.den.trans (aeval_padeDen q n _).symm
  rw [← hnum, ← hden]
  rw [← hden] at hu
  have hdet : IsUnit (matOf n s.den).det := (Matrix.isUnit_iff_isUnit_det _).mp hu
  unfold matrixExponential
  rw [if_neg (by omega), hta, hj]
  show ∃ r, ((identityMatrix n (freshVec junk (n * n))).bind _) = _ ∧ _
  have ok_bind : ∀ {β δ : Type} (x : β) (f : β → Outcome δ), (Outcome.ok x).bind f = f x :=
    fun _ _ => rfl
  rw [d1, ok_bind, ok_bind, ok_bind, s1, ok_bind]
  by_cases hj0 : j = 0
  · obtain ⟨r, r1, r2, r3⟩ := linearSolve_mat hs junk hn s2.denLen s2.numLen hf hdet
    refine ⟨r, ?_, r2, matOf n r, r3, ?_⟩
    · rw [if_pos hj0]; exact r1
    · rw [hj0, pow_zero, pow_one]
  · obtain ⟨r, r1, r2, r3⟩ := linearSolve_mat hs junk hn s2.denLen s2.numLen hfr hdet
    obtain ⟨j', hj'⟩ : ∃ j', j = j' + 1 := ⟨j - 1, by omega⟩
    obtain ⟨t, t1, t2, t3⟩ := squareLoop_mat hg hn hf j' r2 hfr
    refine ⟨t, ?_, t2, matOf n r, r3, ?_⟩
    · rw [if_neg hj0, r1, hj']
      exact t1
    · rw [t3, hj']

/-! ## exactness -/

theorem padeDen_isUnit [Field α] [CharZero α] (q n : ℕ) {x : Matrix (Fin n) (Fin n) α}
    (hx : IsNilpotent x) : IsUnit (Polynomial.aeval x (padeDen α q)) := by
  have hdvd : Polynomial.X ∣ padeDen α q - 1 := by
    rw [Polynomial.X_dvd_iff]
    simp [padeDen_coeff, padeCoeff_zero]
  obtain ⟨p, hp⟩ := hdvd
  have h : Polynomial.aeval x (padeDen α q) = 1 + x * Polynomial.aeval x p := by
    have : padeDen α q = 1 + Polynomial.X * p := by rw [← hp]; ring
    rw [this, map_add, map_one, map_mul, Polynomial.aeval_X]
  rw [h]
  apply IsNilpotent.isUnit_one_add
  apply Commute.isNilpotent_mul_right _ hx
  have e : Polynomial.aeval x (Polynomial.X * p) = Polynomial.aeval x (p * Polynomial.X) := by
    rw [mul_comm]
  rw [map_mul, map_mul, Polynomial.aeval_X] at e
  exact e

theorem rat_smul_matrix [Field α] [CharZero α] {n : ℕ} (c : ℚ) (x : Matrix (Fin n) (Fin n) α) :
    c • x = (c : α) • x := by
  ext i j
  rw [Matrix.smul_apply, Matrix.smul_apply, Rat.smul_def, smul_eq_mul]

theorem pade_exact [Field α] [CharZero α] (q n : ℕ) {x : Matrix (Fin n) (Fin n) α}
    (hx : x ^ (2 * q + 1) = 0) :
    Polynomial.aeval x (padeDen α q) * IsNilpotent.exp x = Polynomial.aeval x (padeNum α q) := by
  have he : IsNilpotent.exp x = Polynomial.aeval x (∑ i ∈ Finset.range (2 * q + 1),
      Polynomial.C (((i.factorial : ℕ) : α)⁻¹) * Polynomial.X ^ i) := by
    rw [IsNilpotent.exp_eq_sum hx]
    simp only [map_sum, map_mul, Polynomial.aeval_C, map_pow, Polynomial.aeval_X,
      Algebra.algebraMap_eq_smul_one, smul_mul_assoc, one_mul]
    apply Finset.sum_congr rfl
    intro i _
    rw [rat_smul_matrix]
    push_cast
    rfl
  rw [he, ← map_mul]
  have hdvd : Polynomial.X ^ (2 * q + 1) ∣ padeDen α q * (∑ i ∈ Finset.range (2 * q + 1),
      Polynomial.C (((i.factorial : ℕ) : α)⁻¹) * Polynomial.X ^ i) - padeNum α q := by
    rw [Polynomial.X_pow_dvd_iff]
    intro m hm
    rw [Polynomial.coeff_sub, Polynomial.coeff_mul, Finset.Nat.sum_antidiagonal_eq_sum_range_succ_mk,
      ← pade_order q m (by omega), sub_eq_zero]
    apply Finset.sum_congr rfl
    intro k hk
    congr 1
    simp only [Polynomial.finsetSum_coeff, Polynomial.coeff_C_mul, Polynomial.coeff_X_pow,
      mul_ite, mul_one, mul_zero, Finset.sum_ite_eq, Finset.mem_range]
    rw [if_pos (by omega)]
  obtain ⟨p, hp⟩ := hdvd
  rw [← sub_eq_zero, ← map_sub, hp, map_mul, map_pow, Polynomial.aeval_X, hx, zero_mul]

theorem exp_pow_two [Field α] [CharZero α] {n : ℕ} {x : Matrix (Fin n) (Fin n) α}
    (hx : IsNilpotent x) (j : ℕ) :
    IsNilpotent.exp x ^ 2 ^ j = IsNilpotent.exp (((2 ^ j : ℕ) : α) • x) := by
  induction j with
  | zero => simp
  | succ j ih =>
    have hn : IsNilpotent (((2 ^ j : ℕ) : α) • x) := hx.smul _
    rw [pow_succ, pow_mul, ih, pow_two, ← IsNilpotent.exp_add_of_commute (Commute.refl _) hn hn,
      ← add_smul]
    congr 2
    push_cast
    ring

/-- Exact for a matrix with a vanishing power. -/
theorem matrixExponential_nilpotent [Field α] [CharZero α] [Zero ρ] [LT ρ] [DecidableLT ρ]
    {lib : ExpoLib α ρ} (hg : GemmOk lib.gemm) (hs : GesvOk lib.gesv) (junk : ℕ → α) {n : ℕ}
    (hn : 0 < n) {a f : List α} (ha : a.length = n * n) (hf : f.length = n * n) (q : ℕ) {j : ℕ}
    (hj : scaling lib a = .ok j) (hz : matOf n a ^ (2 * q + 1) = 0) :
    ∃ r, matrixExponential lib junk n a f q = .ok r ∧ r.length = n * n ∧
      matOf n r = IsNilpotent.exp (matOf n a) := by
  have h2 : (((2 ^ j : ℕ) : α)) ≠ 0 := Nat.cast_ne_zero.mpr (by positivity)
  have hz' : (((2 ^ j : ℕ) : α)⁻¹ • matOf n a) ^ (2 * q + 1) = 0 := by
    rw [smul_pow, hz, smul_zero]
  have hnil : IsNilpotent (((2 ^ j : ℕ) : α)⁻¹ • matOf n a) := ⟨_, hz'⟩
  have hu := padeDen_isUnit q n hnil
  obtain ⟨r, r1, r2, p, p1, p2⟩ := matrixExponential_spec hg hs junk hn ha hf q hj hu
  refine ⟨r, r1, r2, ?_⟩
  have hp : p = IsNilpotent.exp (((2 ^ j : ℕ) : α)⁻¹ • matOf n a) := by
    rw [← pade_exact q n hz'] at p1
    exact hu.mul_left_cancel p1
  rw [p2, hp, exp_pow_two hnil, smul_smul, mul_inv_cancel₀ h2, one_smul]

end TAT
