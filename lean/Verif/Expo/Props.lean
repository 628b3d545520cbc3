import Verif.Expo.Whole
import Verif.Expo.Reference
import Verif.Trace.Props
import Mathlib.LinearAlgebra.Matrix.ToLinearEquiv

/-!
# C52, C53: the exponential
-/

set_option linter.unusedSectionVars false

namespace TAT

open Matrix

variable {ν σ α ρ : Type}

/-! ## C52: one matrix -/

/-- **C52.** What `matrix_exponential` writes: with `x` the matrix divided by `2 ^ j`, the quotient of
the Padé polynomials at `x`, squared `j` times. -/
theorem C52_pade [Field α] [CharZero α] [Zero ρ] [LT ρ] [DecidableLT ρ]
    {lib : ExpoLib α ρ} (hg : GemmOk lib.gemm) (hs : GesvOk lib.gesv) (junk : ℕ → α) {n : ℕ}
    (hn : 0 < n) {a f : List α} (ha : a.length = n * n) (hf : f.length = n * n) (q : ℕ) {j : ℕ}
    (hj : scaling lib a = .ok j)
    (hu : IsUnit (Polynomial.aeval (((2 ^ j : ℕ) : α)⁻¹ • matOf n a) (padeDen α q))) :
    ∃ r, matrixExponential lib junk n a f q = .ok r ∧ r.length = n * n ∧
      ∃ p, Polynomial.aeval (((2 ^ j : ℕ) : α)⁻¹ • matOf n a) (padeDen α q) * p =
          Polynomial.aeval (((2 ^ j : ℕ) : α)⁻¹ • matOf n a) (padeNum α q) ∧
        matOf n r = p ^ 2 ^ j := matrixExponential_spec hg hs junk hn ha hf q hj hu

/-- **C52.** The quotient agrees with the exponential series up to the power `2 q`. -/
theorem C52_order [Field α] [CharZero α] (q : ℕ) :
    (PowerSeries.X : PowerSeries α) ^ (2 * q + 1) ∣
      (padeDen α q : PowerSeries α) * PowerSeries.exp α - (padeNum α q : PowerSeries α) := by
  rw [PowerSeries.X_pow_dvd_iff]
  intro m hm
  rw [map_sub, sub_eq_zero, PowerSeries.coeff_mul, Polynomial.coeff_coe, ← pade_order q m (by omega),
    Finset.Nat.sum_antidiagonal_eq_sum_range_succ_mk]
  apply Finset.sum_congr rfl
  intro k _
  dsimp only
  rw [Polynomial.coeff_coe, PowerSeries.coeff_exp]
  simp

/-- **C52.** Exact when the power `2 q + 1` of the matrix is zero. -/
theorem C52_nilpotent [Field α] [CharZero α] [Zero ρ] [LT ρ] [DecidableLT ρ]
    {lib : ExpoLib α ρ} (hg : GemmOk lib.gemm) (hs : GesvOk lib.gesv) (junk : ℕ → α) {n : ℕ}
    (hn : 0 < n) {a f : List α} (ha : a.length = n * n) (hf : f.length = n * n) (q : ℕ) {j : ℕ}
    (hj : scaling lib a = .ok j) (hz : matOf n a ^ (2 * q + 1) = 0) :
    ∃ r, matrixExponential lib junk n a f q = .ok r ∧ r.length = n * n ∧
      matOf n r = IsNilpotent.exp (matOf n a) := matrixExponential_nilpotent hg hs junk hn ha hf q hj hz

theorem maxOfAbs_zero [Zero ρ] [LT ρ] [DecidableLT ρ] {abs : α → ρ} {a : List α}
    (h : ∀ x ∈ a, ¬ 0 < abs x) : maxOfAbs abs a = 0 := by
  unfold maxOfAbs
  induction a with
  | nil => rfl
  | cons x l ih =>
    rw [List.foldl_cons, if_neg (h x List.mem_cons_self)]
    exact ih fun y hy => h y (List.mem_cons_of_mem _ hy)

/-- **C52.** For the zero matrix the logarithm of zero is converted to an integer, which is
undefined. -/
theorem C52_zero_undefined [Field α] [Zero ρ] [LT ρ] [DecidableLT ρ] {lib : ExpoLib α ρ}
    (h0 : ¬ 0 < lib.abs 0) (hl : lib.intLog2 0 = none) (junk : ℕ → α) (n q : ℕ) (f : List α) :
    matrixExponential lib junk n (List.replicate (n * n) 0) f q = .ub := by
  unfold matrixExponential
  rw [if_neg (by simp), List.take_of_length_le (by simp)]
  unfold scaling
  rw [maxOfAbs_zero, hl]
  · rfl
  · intro x hx
    rw [(List.mem_replicate.1 hx).2]; exact h0

/-- The routines used in the examples. -/
theorem refExpo_ok : GemmOk refExpo.gemm ∧ GesvOk refExpo.gesv :=
  ⟨refGemm_ok, refGesv_ok⟩

/-- `C52_pade` at `1`: the matrix is divided by 2. -/
example : scaling refExpo [1] = .ok 1 ∧
    matrixExponential refExpo (fun _ => 77) 1 [1] [5] 3 = .ok [1500625 / 552049] := by
  decide +kernel

/-- The hypothesis of `C52_pade` on the denominator holds for this matrix. -/
example : IsUnit (Polynomial.aeval (((2 ^ 1 : ℕ) : ℚ)⁻¹ • matOf 2 [0, 1, 0, (0 : ℚ)]) (padeDen ℚ 2)) :=
  padeDen_isUnit 2 2 ⟨2, by ext i j; fin_cases i <;> fin_cases j <;> decide +kernel⟩

/-- `C52_nilpotent`: the exponential of a nilpotent matrix. -/
example : scaling refExpo [0, 1, 0, 0] = .ok 1 ∧ matOf 2 [0, 1, 0, (0 : ℚ)] ^ (2 * 2 + 1) = 0 ∧
    matrixExponential refExpo (fun _ => 77) 2 [0, 1, 0, 0] [5, 5, 5, 5] 2 = .ok [1, 1, 0, 1] := by
  refine ⟨by decide +kernel, ?_, by decide +kernel⟩
  ext i j; fin_cases i <;> fin_cases j <;> decide +kernel

example : ¬ 0 < refExpo.abs 0 ∧ refExpo.intLog2 0 = none := by decide +kernel

/-- **C52.** The scaling is by the largest element, not by a norm of the matrix, so the denominator
need not be invertible: here one step is asked for and the solver is given a singular system. -/
theorem C52_singular : scaling refExpo (List.replicate 16 (1 / 2)) = .ok 0 ∧
    ¬ IsUnit (Polynomial.aeval (((2 ^ 0 : ℕ) : ℚ)⁻¹ • matOf 4 (List.replicate 16 (1 / 2 : ℚ)))
      (padeDen ℚ 1)) := by
  refine ⟨by decide +kernel, ?_⟩
  rw [aeval_padeDen, Matrix.isUnit_iff_isUnit_det, isUnit_iff_ne_zero, not_not,
    ← Matrix.exists_mulVec_eq_zero_iff]
  refine ⟨fun _ => 1, fun h => one_ne_zero (congrFun h 0), ?_⟩
  funext i
  simp only [Finset.sum_range_succ, Finset.sum_range_zero, pow_zero, pow_one]
  fin_cases i <;> decide +kernel

/-! ## C53: tensors -/

variable [LinearOrder ν] [TatSym σ]

theorem rowsOf_matOf [Zero α] {n : ℕ} {d : List α} (h : d.length = n * n) : rowsOf (matOf n d) = d := by
  have aux : ∀ (m : ℕ) (l : List α), l.length = m * n →
      ((List.range m).flatMap fun i => (List.range n).map fun j => l.getD (i * n + j) 0) = l := by
    intro m
    induction m with
    | zero => intro l hl; rw [Nat.zero_mul] at hl; rw [List.eq_nil_of_length_eq_zero hl]; rfl
    | succ m ih =>
      intro l hl
      have hl' : l.length = n + m * n := by rw [hl]; ring
      rw [List.range_succ_eq_map, List.flatMap_cons, List.flatMap_map]
      have e1 : ((List.range n).map fun j => l.getD (0 * n + j) 0) = l.take n := by
        apply List.ext_getElem
        · simp [hl']
        · intro i i1 i2
          have : i < l.length := by simp at i1; omega
          simp [List.getD_eq_getElem?_getD, List.getElem?_eq_getElem this]
      have e2 : ∀ i j, l.getD (Nat.succ i * n + j) 0 = (l.drop n).getD (i * n + j) 0 := by
        intro i j
        simp only [List.getD_eq_getElem?_getD, List.getElem?_drop]
        congr 2
        rw [Nat.succ_mul]; ring
      simp only [e1, e2]
      rw [ih (l.drop n) (by rw [List.length_drop, hl']; omega), List.take_append_drop]
  have := aux n d h
  rw [← List.map_coe_finRange_eq_range, List.flatMap_map] at this
  refine Eq.trans ?_ this
  unfold rowsOf
  simp only [List.map_map]
  rfl

/-- **C53.** For a tensor whose edges are grouped in pairs of matching edges, the exponential is the
tensor whose matrix in every sector is the Padé approximant of the exponential of the matrix of the
given tensor in this sector; it is the exponential if the matrix has a vanishing power.  Missing:
pairs such that several combinations of symmetries have the same total, for which the claim is false
(`C53_two_pairs_wrong`), and sectors in which all elements are zero, for which the result is
undefined (`C53_zero_undefined`). -/
theorem C53_exponential_partial [Field α] [CharZero α] [Zero ρ] [LT ρ] [DecidableLT ρ]
    {lib : ExpoLib α ρ} (hg : GemmOk lib.gemm) (hs : GesvOk lib.gesv)
    (env : ExpEnv σ α) {en : ExpNames ν} (hen : en.e1 ≠ en.e2) (noName : ν) (step : ℕ)
    {t : Tensor ν σ α} (ht : WF t) {pairs : List (ν × ν)} (hp : t.names.Perm (pairNames pairs))
    (hm : Matched t t pairs) (hl : Separated t (pairs.map Prod.fst) ∨ ∀ s : σ, -s = s)
    (hpos : ∀ n ∈ t.names, ∀ x ∈ mapOf t n, 0 < x.2)
    (hgood : ∀ cs : List (ν × ν), cs.Perm pairs ∨ cs.Perm (pairs.map Prod.swap) →
      ∀ s n num, ∀ X : Matrix (Fin n) (Fin n) α, 0 < n → RowOrder t (cs.map Prod.fst) s n num →
      SectorMatrix t cs s num X → ∃ j, scaling lib (rowsOf X) = .ok j ∧
        IsUnit (Polynomial.aeval (((2 ^ j : ℕ) : α)⁻¹ • X) (padeDen α step))) :
    ∃ cs u, (cs.Perm pairs ∨ cs.Perm (pairs.map Prod.swap)) ∧
      exponential lib env en noName t pairs step = .ok u ∧
      ExpResult t u cs fun n X Y =>
        (∃ j p, scaling lib (rowsOf X) = .ok j ∧
          Polynomial.aeval (((2 ^ j : ℕ) : α)⁻¹ • X) (padeDen α step) * p =
            Polynomial.aeval (((2 ^ j : ℕ) : α)⁻¹ • X) (padeNum α step) ∧ Y = p ^ 2 ^ j) ∧
        (X ^ (2 * step + 1) = 0 → Y = IsNilpotent.exp X) := by
  refine exponential_spec env hen noName step ht hp hm hl ?_
  rintro cs hcs hsq s ⟨q, q1, q2⟩ n num X hn hr hx d f hd hX hf
  have hn0 : 0 < n := by
    have hsub : ∀ m ∈ cs.map Prod.fst, m ∈ t.names := fun m hm =>
      hsq.perm.mem_iff.2 (List.mem_append_left _ hm)
    have hrow : RowPos t (cs.map Prod.fst) s fun m => ((q m).1, 0) := by
      refine ⟨fun m hm => ?_, q2⟩
      obtain ⟨v, hv⟩ := Option.isSome_iff_exists.1 (OMap.find?_isSome.2
        (q1.1 m (List.mem_append_left _ hm)))
      have := hpos m (hsub m hm) _ (OMap.mem_of_find? hv)
      show 0 < dimM (mapOf t m) (q m).1
      unfold dimM
      rw [hv]; exact this
    exact lt_of_le_of_lt (Nat.zero_le _) (hr.lt _ hrow)
  obtain ⟨j, j1, j2⟩ := hgood cs hcs s n num X hn0 hr hx
  have hrows : rowsOf X = d := by rw [← hX]; exact rowsOf_matOf hd
  rw [hrows] at j1 ⊢
  subst hX
  obtain ⟨r, r1, r2, p, r3, r4⟩ := matrixExponential_spec hg hs env.junk hn0 hd hf step j1 j2
  refine ⟨r, r1, r2, ⟨j, p, j1, r3, r4⟩, fun hz => ?_⟩
  obtain ⟨r', r1', _, r3'⟩ := matrixExponential_nilpotent hg hs env.junk hn0 hd hf step j1 hz
  rw [r1] at r1'
  rw [Outcome.ok.inj r1', r3']

end TAT
