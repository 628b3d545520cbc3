import Verif.Torus.ExactMain

/-!
# Helper lemmas: all of `get_exact` of `examples/PBC.cpp`
-/

namespace TAT.Torus

open TAT.Grid (IsSite sides GridEnvOk Lab labName labText_injective positions)

set_option linter.unusedSectionVars false

variable {ν α β : Type} [LinearOrder ν] [Field α] [LinearOrder β] [Zero β] {e : AuxEnv ν α β} {L : ℕ}

theorem exactSteps_append (e : AuxEnv ν α β) (L : ℕ) (site : ℕ → ℕ → Tensor ν NoSymmetry α) (l l' : List (ℕ × ℕ))
    (r : Tensor ν NoSymmetry α) :
    exactSteps e L site (l ++ l') r = (exactSteps e L site l r).bind fun r => exactSteps e L site l' r := by
  induction l generalizing r with
  | nil => rfl
  | cons p l ih =>
    rw [List.cons_append, exactSteps, exactSteps]
    cases exactStep e L site r p with
    | ok r' => exact ih r'
    | error _ => rfl
    | ub => rfl

theorem done_row (L i : ℕ) : done L i L = done L (i + 1) 0 := by
  ext ⟨a, b⟩
  have := b.isLt
  simp only [done, Finset.mem_filter, Finset.mem_univ, true_and]
  omega

theorem closed_row (hL : 2 ≤ L) {i : ℕ} (hi : i < L) : closed L i L = closed L (i + 1) 0 := by
  ext ⟨x, a, b⟩
  have := a.isLt
  have := b.isLt
  cases x <;> simp only [closed, Finset.mem_filter, Finset.mem_univ, true_and, if_true, Bool.false_eq_true, if_false,
    or_true, and_true, false_or, Nat.not_lt_zero, and_false, or_false] <;> omega

theorem open_row (h v : ℕ → ℕ → ℕ) {i : ℕ} : openLegs L h v i L = openLegs L h v (i + 1) 0 := by
  funext ⟨x, o⟩
  cases o with
  | none => cases x <;> rfl
  | some k =>
    cases x <;> simp only [openLegs]
    · refine if_congr ?_ rfl rfl
      omega
    · by_cases hk : k < L
      · rw [if_pos hk, if_neg (Nat.not_lt_zero k)]
        refine if_congr ?_ rfl rfl
        omega
      · rw [if_neg (by omega), if_neg (by omega)]
    · rw [if_neg (by omega), if_neg (by omega)]
    · rw [if_neg (by omega), if_neg (by omega)]

theorem exactRow_ok (he : GridEnvOk e sides) (hL : 2 ≤ L) {site : ℕ → ℕ → Tensor ν NoSymmetry α} {h v : ℕ → ℕ → ℕ}
    (ht : IsTorus e.nm L site h v) {i : ℕ} (hi : i < L) {r : Tensor ν NoSymmetry α}
    (hr : HasLegs (labName e.nm) r (openLegs L h v i 0))
    (hv : ∀ f, gval (labName e.nm) r f =
      net (bondDims h v) (atBonds e.nm site) (closed L i 0) (done L i 0) fun b => f (lab1 b)) (j : ℕ) (hj : j ≤ L) :
    ∃ r', exactSteps e L site ((List.range j).map fun j => (i, j)) r = .ok r' ∧
      HasLegs (labName e.nm) r' (openLegs L h v i j) ∧
      ∀ f, gval (labName e.nm) r' f =
        net (bondDims h v) (atBonds e.nm site) (closed L i j) (done L i j) fun b => f (lab1 b) := by
  induction j with
  | zero => exact ⟨r, rfl, hr, hv⟩
  | succ j ih =>
    obtain ⟨r', a1, a2, a3⟩ := ih (by omega)
    obtain ⟨r'', b1, b2, b3⟩ := exactStep_ok he hL ht ⟨i, hi⟩ ⟨j, by omega⟩ a2 a3
    refine ⟨r'', ?_, b2, b3⟩
    rw [List.range_succ, List.map_append, exactSteps_append, a1, Outcome.bind, List.map_cons, List.map_nil,
      exactSteps, b1]
    rfl

theorem exactRows_ok (he : GridEnvOk e sides) (hL : 2 ≤ L) {site : ℕ → ℕ → Tensor ν NoSymmetry α} {h v : ℕ → ℕ → ℕ}
    (ht : IsTorus e.nm L site h v) (i : ℕ) (hi : i ≤ L) :
    ∃ r, exactSteps e L site ((List.range i).flatMap fun i => (List.range L).map fun j => (i, j)) oneTensor = .ok r ∧
      HasLegs (labName e.nm) r (openLegs L h v i 0) ∧
      ∀ f, gval (labName e.nm) r f =
        net (bondDims h v) (atBonds e.nm site) (closed L i 0) (done L i 0) fun b => f (lab1 b) := by
  induction i with
  | zero =>
    have hl : ∀ n, leg (oneTensor : Tensor ν NoSymmetry α) n = none := fun n => leg_eq_none.2 (by simp [oneTensor])
    refine ⟨oneTensor, rfl, ⟨(oneTensor_legs (e := e) sides).dense, fun n hn => absurd (hl n) hn, fun g => ?_⟩,
      fun f => ?_⟩
    · rw [gleg, hl]
      obtain ⟨x, o⟩ := g
      cases x <;> cases o <;> simp [openLegs]
    · have hd : done L 0 0 = ∅ := by
        ext p
        simp [done]
      have hc : closed L 0 0 = ∅ := by
        ext ⟨x, a, b⟩
        cases x <;> simp [closed] <;> omega
      rw [gval, oneTensor_val, net, hd, hc]
      simp only [Finset.prod_empty, Finset.sum_const, nsmul_eq_mul, mul_one]
      rw [Fintype.card_piFinset]
      simp [boxes]
  | succ i ih =>
    obtain ⟨r, a1, a2, a3⟩ := ih (by omega)
    obtain ⟨r', b1, b2, b3⟩ := exactRow_ok he hL ht (by omega) a2 a3 L le_rfl
    rw [open_row] at b2
    rw [done_row, closed_row hL (by omega)] at b3
    refine ⟨r', ?_, b2, b3⟩
    rw [List.range_succ, List.flatMap_append, exactSteps_append, a1, Outcome.bind, List.flatMap_cons,
      List.flatMap_nil, List.append_nil, b1]

/-- The sum over all bonds at once is that over the rows and over the columns. -/
theorem net_all (nm : String → ν) (site : ℕ → ℕ → Tensor ν NoSymmetry α) (h v : ℕ → ℕ → ℕ) (φ : Bond L → ℕ) :
    net (bondDims h v) (atBonds nm site) Finset.univ Finset.univ φ = torusValue nm L h v site := by
  unfold net torusValue
  rw [← Finset.sum_product']
  refine Finset.sum_nbij' (fun x => (fun i j => x (true, i, j), fun i j => x (false, i, j)))
    (fun y b => if b.1 then y.1 b.2.1 b.2.2 else y.2 b.2.1 b.2.2) ?_ ?_ ?_ ?_ ?_
  · intro x hx
    simp only [Fintype.mem_piFinset, boxes, Finset.mem_univ, if_true, Finset.mem_product, Finset.mem_range] at hx ⊢
    exact ⟨fun i j => by simpa [bondDims] using hx (true, i, j), fun i j => by simpa [bondDims] using hx (false, i, j)⟩
  · intro y hy
    simp only [Fintype.mem_piFinset, boxes, Finset.mem_univ, if_true, Finset.mem_product, Finset.mem_range] at hy ⊢
    rintro ⟨x, i, j⟩
    cases x
    · simpa [bondDims] using hy.2 i j
    · simpa [bondDims] using hy.1 i j
  · intro x _
    funext ⟨b, i, j⟩
    cases b <;> rfl
  · intro y _
    rfl
  · intro x _
    rw [Fintype.prod_prod_type]
    rfl

theorem getExact_ok (he : GridEnvOk e sides) (hL : 2 ≤ L) {site : ℕ → ℕ → Tensor ν NoSymmetry α} {h v : ℕ → ℕ → ℕ}
    (ht : IsTorus e.nm L site h v) : getExact e L site = .ok (torusValue e.nm L h v site) := by
  obtain ⟨r, a1, a2, a3⟩ := exactRows_ok he hL ht L le_rfl
  have hd : done L L 0 = Finset.univ := by
    ext p
    simp [done]
  have hc : closed L L 0 = Finset.univ := by
    ext ⟨x, a, b⟩
    cases x <;> simp [closed]
    omega
  have hl : ∀ n, leg r n = none := fun n => by
    by_contra hn
    obtain ⟨⟨x, o⟩, rfl⟩ := a2.only n hn
    have := a2.legs (x, o)
    rw [gleg] at this
    rw [this] at hn
    cases x <;> cases o <;> simp [openLegs] at hn
  have h0 : HasLegs (legName e.nm sideString) r fun _ => none :=
    ⟨a2.dense, fun n hn => absurd (hl n) hn, fun g => hl _⟩
  have hv : ∀ x y, val r x = val r y := fun x y => val_congr fun n hn => absurd (hl n) hn
  rw [getExact, positions, a1, Outcome.bind, only_ok h0 (fun _ => 0)]
  have := a3 fun _ => 0
  rw [gval] at this
  rw [gval, hv _ (Function.extend (labName e.nm) (fun _ => 0) fun _ => 0), this, hd, hc, net_all]

end TAT.Torus
