import Verif.Expo.Spec
import Verif.Qr.Kernel

/-!
# The steps of `matrix_exponential` in terms of matrices
-/

namespace TAT

open Matrix

variable {α ρ : Type}

theorem freshVec_length (junk : ℕ → α) (n : ℕ) : (freshVec junk n).length = n := by
  simp [freshVec]

theorem sqIdx_lt {n i j : ℕ} (hi : i < n) (hj : j < n) : i * n + j < n * n := by
  calc i * n + j < i * n + n := by omega
    _ = (i + 1) * n := by ring
    _ ≤ n * n := Nat.mul_le_mul_right _ hi

theorem gemm_mat [CommRing α] {g : Gemm α} (hg : GemmOk g) {n : ℕ} (hn : 0 < n) {a b c : List α}
    (ha : a.length = n * n) (hb : b.length = n * n) (hc : c.length = n * n) :
    ∃ r, g (squareGemm n a b c) = .ok r ∧ r.length = n * n ∧
      matOf n r = matOf n b * matOf n a := by
  have swap : ∀ i j : ℕ, i + j * n = j * n + i := fun i j => Nat.add_comm _ _
  obtain ⟨r, r1, r2, r3, -⟩ := hg (squareGemm n a b c) rfl hn hn hn {
    lda := le_refl n
    ldb := le_refl n
    ldc := le_refl n
    a := fun i hi l hl => by
      show i + l * n < a.length
      rw [ha, swap]; exact sqIdx_lt hl hi
    b := fun l hl j hj => by
      show l + j * n < b.length
      rw [hb, swap]; exact sqIdx_lt hj hl
    c := fun i hi j hj => by
      show i + j * n < c.length
      rw [hc, swap]; exact sqIdx_lt hj hi }
  refine ⟨r, r1, r2.trans hc, ?_⟩
  ext j i
  have h := r3 i.val i.isLt j.val j.isLt
  rw [Matrix.mul_apply, Finset.sum_fin_eq_sum_range]
  show r.getD (j.val * n + i.val) 0 = _
  rw [Nat.add_comm]
  refine h.trans ?_
  show (1 : α) * ((List.range n).map fun l => a.getD (i.val + l * n) 0 * b.getD (l + j.val * n) 0).sum = _
  rw [one_mul, ← List.sum_toFinset _ List.nodup_range]
  rw [show (List.range n).toFinset = Finset.range n by ext; simp]
  apply Finset.sum_congr rfl
  intro l hl
  rw [Finset.mem_range] at hl
  rw [dif_pos hl]
  show _ = b.getD (j.val * n + l) 0 * a.getD (l * n + i.val) 0
  rw [swap, swap, mul_comm]

theorem flatten_replicate_getD [Zero α] (x : List α) (m p : ℕ) (hp : p < m * x.length) :
    ((List.replicate m x).flatten).getD p 0 = x.getD (p % x.length) 0 := by
  induction m generalizing p with
  | zero => simp at hp
  | succ m ih =>
    rw [List.replicate_succ, List.flatten_cons]
    by_cases h : p < x.length
    · rw [List.getD_append _ _ _ _ h, Nat.mod_eq_of_lt h]
    · have h' : x.length ≤ p := Nat.le_of_not_lt h
      rw [List.getD_append_right _ _ _ _ h', ih _ (by rw [Nat.succ_mul] at hp; omega)]
      rw [Nat.mod_eq_sub_mod h']

theorem identityMatrix_mat [Zero α] [One α] {n : ℕ} (hn : 0 < n) {dst : List α}
    (hd : dst.length = n * n) :
    ∃ r, identityMatrix n dst = .ok r ∧ r.length = n * n ∧ matOf n r = 1 := by
  obtain ⟨m, rfl⟩ : ∃ m, n = m + 1 := ⟨n - 1, by omega⟩
  have hlen : ((List.replicate m ((1 : α) :: List.replicate (m + 1) 0)).flatten ++ [1]).length =
      (m + 1) * (m + 1) := by
    simp only [List.length_append, List.length_flatten, List.map_replicate, List.length_cons,
      List.length_replicate, List.sum_replicate, List.length_nil, smul_eq_mul]
    ring
  unfold identityMatrix
  rw [if_neg (by omega), Nat.add_sub_cancel]
  unfold fillFront
  rw [if_pos (by omega), List.drop_eq_nil_of_le (by omega), List.append_nil]
  refine ⟨_, rfl, hlen, ?_⟩
  ext i j
  have hi := i.isLt
  have hj := j.isLt
  show (((List.replicate m ((1 : α) :: List.replicate (m + 1) 0)).flatten ++ [1]).getD
    (i.val * (m + 1) + j.val) 0) = _
  have hfl : ((List.replicate m ((1 : α) :: List.replicate (m + 1) 0)).flatten).length =
      m * (m + 2) := by
    simp [List.length_flatten]
  have hlx : ((1 : α) :: List.replicate (m + 1) 0).length = m + 2 := by simp
  by_cases hlast : i.val = m ∧ j.val = m
  · have hij : i = j := Fin.ext (by omega)
    rw [hij, Matrix.one_apply_eq, hlast.2]
    rw [show m * (m + 1) + m = m * (m + 2) by ring]
    rw [List.getD_append_right _ _ _ _ (by omega), hfl]
    simp
  · have hlt : i.val * (m + 1) + j.val < m * (m + 2) := by
      have := sqIdx_lt (n := m + 1) hi hj
      have e : (m + 1) * (m + 1) = m * (m + 2) + 1 := by ring
      rcases Nat.lt_or_ge i.val m with h | h
      · have : (i.val + 1) * (m + 1) ≤ m * (m + 1) := Nat.mul_le_mul_right _ h
        have e1 : (i.val + 1) * (m + 1) = i.val * (m + 1) + m + 1 := by ring
        have e2 : m * (m + 2) = m * (m + 1) + m := by ring
        omega
      · have him : i.val = m := by omega
        rw [him]
        have e2 : m * (m + 2) = m * (m + 1) + m := by ring
        omega
    rw [List.getD_append _ _ _ _ (by omega), flatten_replicate_getD _ _ _ (by rw [hlx]; exact hlt),
      hlx]
    by_cases hij : i = j
    · rw [hij, Matrix.one_apply_eq]
      rw [show j.val * (m + 1) + j.val = j.val * (m + 2) by ring, Nat.mul_mod_left]
      rfl
    · rw [Matrix.one_apply_ne hij]
      have hne : i.val ≠ j.val := fun h => hij (Fin.ext h)
      have hpos : ∃ p, (i.val * (m + 1) + j.val) % (m + 2) = p + 1 ∧ p < m + 1 := by
        rcases Nat.lt_or_ge i.val j.val with h | h
        · refine ⟨j.val - i.val - 1, ?_, by omega⟩
          have : i.val * (m + 1) + j.val = (j.val - i.val) + (m + 2) * i.val := by
            have e : (m + 2) * i.val = i.val * (m + 1) + i.val := by ring
            omega
          rw [this, Nat.add_mul_mod_self_left, Nat.mod_eq_of_lt (by omega)]
          omega
        · refine ⟨m + 2 - (i.val - j.val) - 1, ?_, by omega⟩
          obtain ⟨i', hi'⟩ : ∃ i', i.val = i' + 1 := ⟨i.val - 1, by omega⟩
          have : i.val * (m + 1) + j.val = (m + 2 - (i.val - j.val)) + (m + 2) * i' := by
            rw [hi']
            have e : (m + 2) * i' = i' * (m + 1) + i' := by ring
            have e2 : (i' + 1) * (m + 1) = i' * (m + 1) + m + 1 := by ring
            omega
          rw [this, Nat.add_mul_mod_self_left, Nat.mod_eq_of_lt (by omega)]
          omega
      obtain ⟨p, hp, hp'⟩ := hpos
      rw [hp, List.getD_cons_succ, List.getD_replicate _ hp']

theorem matOf_map [CommRing α] (n : ℕ) (l : List α) (c : α) :
    matOf n (l.map fun x => x * c) = c • matOf n l := by
  ext i j
  show (l.map fun x => x * c).getD (i.val * n + j.val) 0 = c * l.getD (i.val * n + j.val) 0
  rw [List.getD_eq_getElem?_getD, List.getD_eq_getElem?_getD, List.getElem?_map]
  cases l[i.val * n + j.val]? <;> simp [mul_comm]

theorem matOf_zipWith [CommRing α] (n : ℕ) {l x : List α} (hl : l.length = n * n)
    (hx : x.length = n * n) (c : α) :
    matOf n (List.zipWith (fun y z => y + c * z) l x) = matOf n l + c • matOf n x := by
  ext i j
  have h := sqIdx_lt i.isLt j.isLt
  show (List.zipWith (fun y z => y + c * z) l x).getD (i.val * n + j.val) 0 =
    l.getD (i.val * n + j.val) 0 + c * x.getD (i.val * n + j.val) 0
  simp only [List.getD_eq_getElem?_getD, List.getElem?_zipWith]
  rw [List.getElem?_eq_getElem (by omega), List.getElem?_eq_getElem (by omega)]
  rfl

theorem colMat_transposed [Zero α] {m n : ℕ} {l l' : List α}
    (h : ∀ i < m, ∀ j < n, l'.getD (j * m + i) 0 = l.getD (i * n + j) 0) (i : Fin m) (j : Fin n) :
    colMat m n l' i j = l.getD (i.val * n + j.val) 0 := by
  show l'.getD (i.val + j.val * m) 0 = _
  rw [Nat.add_comm]
  exact h _ i.isLt _ j.isLt

theorem linearSolve_mat [CommRing α] {lib : ExpoLib α ρ} (hl : GesvOk lib.gesv) (junk : ℕ → α)
    {n : ℕ} (hn : 0 < n) {a b x : List α} (ha : a.length = n * n) (hb : b.length = n * n)
    (hx : x.length = n * n) (hu : IsUnit (matOf n a).det) :
    ∃ r, linearSolve lib junk n n a b x = .ok r ∧ r.length = n * n ∧
      matOf n a * matOf n r = matOf n b := by
  obtain ⟨a', a1, a2, a3⟩ := matrixTranspose_getD hn hn ha
    (freshVec_length junk (n * n))
  obtain ⟨b', b1, b2, b3⟩ := matrixTranspose_getD hn hn hb
    (freshVec_length junk (n * n))
  have ea : colMat n n a' = matOf n a := by
    ext i j; exact colMat_transposed a3 i j
  have eb : colMat n n b' = matOf n b := by
    ext i j; exact colMat_transposed b3 i j
  obtain ⟨s1, s2⟩ := hl n n a' b' hn hn a2 b2 (by rw [ea]; exact hu)
  obtain ⟨x', x1, x2, x3⟩ := matrixTranspose_getD hn hn s1 hx
  refine ⟨x', ?_, x2, ?_⟩
  · unfold linearSolve
    rw [a1]
    show ((matrixTranspose n n b (freshVec junk (n * n))).bind _) = _
    rw [b1]
    exact x1
  · rw [ea, eb] at s2
    rw [← s2]
    congr 1
    ext i j
    show x'.getD (i.val * n + j.val) 0 = (lib.gesv n n a' b').1.getD (i.val + j.val * n) 0
    rw [x3 _ j.isLt _ i.isLt, Nat.add_comm]

theorem squareLoop_mat [CommRing α] {lib : ExpoLib α ρ} (hg : GemmOk lib.gemm) {n : ℕ} (hn : 0 < n)
    {f : List α} (hf : f.length = n * n) (j : ℕ) {cur other : List α} (hc : cur.length = n * n)
    (ho : other.length = n * n) :
    ∃ r, squareLoop lib n f (j + 1) cur other = .ok r ∧ r.length = n * n ∧
      matOf n r = matOf n cur ^ 2 ^ (j + 1) := by
  induction j generalizing cur other with
  | zero =>
    obtain ⟨r, r1, r2, r3⟩ := gemm_mat hg hn hc hc hf
    exact ⟨r, r1, r2, by rw [r3, Nat.zero_add, pow_one, pow_two]⟩
  | succ j ih =>
    obtain ⟨x, x1, x2, x3⟩ := gemm_mat hg hn hc hc ho
    obtain ⟨r, r1, r2, r3⟩ := ih x2 hc
    refine ⟨r, ?_, r2, ?_⟩
    · show ((lib.gemm (squareGemm n cur cur other)).bind fun x => squareLoop lib n f (j + 1) x cur) = _
      rw [x1]
      exact r1
    · rw [r3, x3, ← pow_two, ← pow_mul, pow_succ 2 (j + 1), Nat.mul_comm]

end TAT
