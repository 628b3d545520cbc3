import Verif.Qr.Props
import Verif.Contract.Props
import Mathlib.Algebra.Field.Rat
import Mathlib.Tactic.FieldSimp

/-!
# The assumption about LAPACK can be met

Over every field there are routines with the properties required of `gelqf`, `orglq`, `geqrf` and
`orgqr`: every matrix is a lower triangle times another matrix.
-/

namespace TAT

variable {K : Type} [Field K]

/-- Every matrix is a lower triangle times a square matrix. -/
theorem exists_lower (m : ℕ) : ∀ (S : Finset ℕ), S.card = m → ∀ A : ℕ → ℕ → K,
    ∃ L Q : ℕ → ℕ → K, (∀ i l, i < l → L i l = 0) ∧
      ∀ i, ∀ j ∈ S, A i j = ((List.range m).map fun l => L i l * Q l j).sum := by
  induction m with
  | zero =>
    intro S hS A
    refine ⟨fun _ _ => 0, fun _ _ => 0, fun _ _ _ => rfl, fun i j hj => ?_⟩
    rw [Finset.card_eq_zero] at hS
    simp [hS] at hj
  | succ m ih =>
    intro S hS A
    -- a vector with a coordinate that is not zero, the first row being a multiple of it
    obtain ⟨q, k, x, hk, hq, hx⟩ : ∃ (q : ℕ → K) (k : ℕ) (x : K), k ∈ S ∧ q k ≠ 0 ∧
        ∀ j ∈ S, A 0 j = x * q j := by
      by_cases h : ∃ k ∈ S, A 0 k ≠ 0
      · obtain ⟨k, h1, h2⟩ := h
        exact ⟨A 0, k, 1, h1, h2, fun j _ => by ring⟩
      · obtain ⟨k, hk⟩ := Finset.card_pos.1 (by rw [hS]; omega : 0 < S.card)
        refine ⟨fun _ => 1, k, 0, hk, one_ne_zero, fun j hj => ?_⟩
        by_contra hc
        exact h ⟨j, hj, by simpa using hc⟩
    obtain ⟨L, Q, h1, h2⟩ := ih (S.erase k) (by rw [Finset.card_erase_of_mem hk, hS]; rfl)
      fun i j => A (i + 1) j - A (i + 1) k / q k * q j
    refine ⟨fun i l => match i, l with
        | 0, 0 => x
        | 0, _ + 1 => 0
        | i + 1, 0 => A (i + 1) k / q k
        | i + 1, l + 1 => L i l,
      fun l j => match l with
        | 0 => q j
        | l + 1 => if j = k then 0 else Q l j, fun i l hil => ?_, fun i j hj => ?_⟩
    · cases l with
      | zero => omega
      | succ l =>
        cases i with
        | zero => rfl
        | succ i => exact h1 i l (by omega)
    · rw [List.range_succ_eq_map, List.map_cons, List.sum_cons, List.map_map]
      cases i with
      | zero =>
        simp only [Function.comp_def, zero_mul]
        rw [hx j hj]
        simp
      | succ i =>
        simp only [Function.comp_def]
        by_cases hjk : j = k
        · subst hjk
          simp only [if_true, mul_zero]
          rw [List.sum_eq_zero (by
            intro y hy
            obtain ⟨_, _, rfl⟩ := List.mem_map.1 hy
            rfl)]
          field_simp
          ring
        · simp only [if_neg hjk]
          rw [← h2 i j (Finset.mem_erase.2 ⟨hjk, hj⟩)]
          ring

/-- A sum over the first numbers, when the other terms are zero. -/
theorem sum_range_min (f : ℕ → K) (n m : ℕ) (h : ∀ l, n ≤ l → f l = 0) :
    ((List.range m).map f).sum = ((List.range (min n m)).map f).sum := by
  rcases Nat.le_total m n with hmn | hmn
  · rw [Nat.min_eq_right hmn]
  · rw [Nat.min_eq_left hmn]
    obtain ⟨d, rfl⟩ := Nat.exists_eq_add_of_le hmn
    rw [List.range_add, List.map_append, List.sum_append]
    have : ((List.map (fun x => n + x) (List.range d)).map f).sum = 0 := by
      apply List.sum_eq_zero
      intro y hy
      obtain ⟨z, hz, rfl⟩ := List.mem_map.1 hy
      obtain ⟨w, _, rfl⟩ := List.mem_map.1 hz
      exact h _ (by omega)
    rw [this, add_zero]

/-- The column-major list of an `r`×`c` matrix. -/
def colMajor (r c : ℕ) (f : ℕ → ℕ → K) : List K :=
  (List.range (r * c)).map fun x => f (x % r) (x / r)

theorem colMajor_getD {r c : ℕ} (f : ℕ → ℕ → K) {i j : ℕ} (hi : i < r) (hj : j < c) :
    (colMajor r c f).getD (i + j * r) 0 = f i j := by
  have hlt : i + j * r < r * c := by
    calc i + j * r < r + j * r := by omega
      _ = r * (j + 1) := by ring
      _ ≤ r * c := Nat.mul_le_mul_left _ hj
  have e1 : (i + j * r) % r = i := by rw [Nat.add_mul_mod_self_right]; exact Nat.mod_eq_of_lt hi
  have e2 : (i + j * r) / r = j := by
    rw [Nat.add_mul_div_right _ _ (by omega), Nat.div_eq_of_lt hi, Nat.zero_add]
  unfold colMajor
  rw [List.getD_eq_getElem?_getD, List.getElem?_map, List.getElem?_range hlt]
  simp [e1, e2]

omit [Field K] in
theorem colMajor_length (r c : ℕ) (f : ℕ → ℕ → K) : (colMajor r c f).length = r * c := by
  simp [colMajor]

open Classical in
/-- Routines as required. `tau` holds the other factor. -/
theorem exists_lapackQrOk : ∃ lp : LapackQr K, LapackQrOk lp := by
  have hl : ∀ (n m : ℕ) (A : ℕ → ℕ → K), ∃ LQ : (ℕ → ℕ → K) × (ℕ → ℕ → K),
      (∀ i l, i < l → LQ.1 i l = 0) ∧ ∀ i < n, ∀ j < m, A i j =
        ((List.range (min n m)).map fun l => LQ.1 i l * LQ.2 l j).sum := by
    intro n m A
    obtain ⟨L, Q, h1, h2⟩ := exists_lower m (Finset.range m) (by simp) A
    refine ⟨(L, Q), h1, fun i hi j hj => ?_⟩
    rw [h2 i j (Finset.mem_range.2 hj)]
    exact sum_range_min _ n m fun l hl => by rw [h1 i l (by omega), zero_mul]
  choose F hF1 hF2 using hl
  let mat (n : ℕ) (data : List K) : ℕ → ℕ → K := fun i j => data.getD (i + j * n) 0
  let tr (A : ℕ → ℕ → K) : ℕ → ℕ → K := fun i j => A j i
  refine ⟨⟨fun n m data => some (colMajor n m (F n m (mat n data)).1,
      colMajor (min n m) m (F n m (mat n data)).2),
    fun _ _ _ _ tau => some tau,
    fun n m data => some (colMajor n m (tr (F m n (tr (mat n data))).1),
      colMajor n (min n m) (tr (F m n (tr (mat n data))).2)),
    fun _ _ _ _ tau => some tau⟩, ⟨fun n m data hn hm hd => ?_, fun n m data hn hm hd => ?_⟩⟩
  · refine ⟨_, _, rfl, colMajor_length _ _ _, fun c _ _ =>
      ⟨_, rfl, colMajor_length _ _ _, fun i hi j hj => ?_⟩⟩
    refine (hF2 n m (mat n data) i hi j hj).trans ?_
    congr 1
    apply List.map_congr_left
    intro l hl
    rw [List.mem_range] at hl
    have hl' : l < n ∧ l < m := ⟨by omega, by omega⟩
    rw [colMajor_getD _ hl hj, colMajor_getD _ hi hl'.2]
    split
    · rfl
    · rw [hF1 _ _ _ i l (by omega)]
  · refine ⟨_, _, rfl, colMajor_length _ _ _, fun c _ _ =>
      ⟨_, rfl, colMajor_length _ _ _, fun i hi j hj => ?_⟩⟩
    refine (hF2 m n (tr (mat n data)) j hj i hi).trans ?_
    rw [Nat.min_comm]
    congr 1
    apply List.map_congr_left
    intro l hl
    rw [List.mem_range] at hl
    have hl' : l < n ∧ l < m := ⟨by omega, by omega⟩
    rw [colMajor_getD _ hi hl, colMajor_getD _ hl'.1 hj, mul_comm]
    congr 1
    split
    · rfl
    · exact hF1 _ _ _ j l (by omega)

/-! ## a case -/

/-- A fermionic tensor with rational elements. -/
def sampleQ : Tensor ℕ FermiSymmetry ℚ :=
  ⟨[1, 2, 3],
    [⟨false, [(⟨0⟩, 1), (⟨1⟩, 2)]⟩, ⟨true, [(⟨-1⟩, 1), (⟨0⟩, 1)]⟩, ⟨true, [(⟨-1⟩, 1), (⟨0⟩, 2)]⟩],
    [([⟨0⟩, ⟨0⟩, ⟨0⟩], [3, 5]), ([⟨1⟩, ⟨-1⟩, ⟨0⟩], [1, 2, 3, 4]), ([⟨1⟩, ⟨0⟩, ⟨-1⟩], [7, 8])]⟩

theorem sampleQ_wf : WF sampleQ := by
  refine ⟨by decide, by decide, by decide, by decide +kernel, by decide +kernel⟩

/-- The tensor satisfies what C36 needs, with the edge 2 on Q (which then is the second factor). -/
example (env : DecompEnv FermiSymmetry ℚ) (junk : ℕ → ℚ) : ∃ lp q r,
    qr lp env junk ⟨50, 51⟩ sampleQ 'q' [2] 8 9 = .ok (q, r) ∧
    QrResult sampleQ q r [2] [1, 3] 8 9 := by
  obtain ⟨lp, hlp⟩ := exists_lapackQrOk (K := ℚ)
  obtain ⟨q, r, h1, h2⟩ := C36_qr hlp env junk (qn := ⟨50, 51⟩) (by decide) sampleQ_wf (by decide)
    (direction := 'q') (useR := false) (by decide) [2] (commonQ := 8) (commonR := 9) (by decide)
    (by decide) (by decide) (by decide) (by decide) (by decide)
  exact ⟨lp, q, r, h1, h2⟩

end TAT
