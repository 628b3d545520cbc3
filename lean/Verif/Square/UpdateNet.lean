import Verif.Square.BondUpdate
import Verif.Square.ExactApply
import Verif.Square.ConvProps
import Verif.Square.UpdateProps

/-!
# What a simple update does with the amplitudes: lemmas
-/

namespace TAT

set_option linter.unusedSectionVars false

variable {ν α β : Type} [LinearOrder ν]

/-! ## Operators -/

section

variable [CommRing α] {M N d : ℕ}

/-- A term on one site. -/
theorem actOn_one {F : Type} [Field F] (x : LatticeSite M N) (H : List ℕ → List ℕ → F) (ψ : SpinConfig M N d → F)
    (s : SpinConfig M N d) : actOn [x] H ψ s = ∑ a : Fin d, ψ (Function.update s x a) * H [a.val] [(s x).val] := by
  rw [actOn, ← Finset.sum_filter]
  symm
  refine Finset.sum_bij (fun a _ => Function.update s x a) (fun a _ => ?_) (fun a _ b _ h => ?_) (fun s' hs' => ?_)
    (fun a _ => ?_)
  · simp only [Finset.mem_filter, Finset.mem_univ, true_and]
    intro y hy
    rw [Function.update_of_ne (by simpa using hy)]
  · simpa using congrFun h x
  · simp only [Finset.mem_filter, Finset.mem_univ, true_and] at hs'
    refine ⟨s' x, Finset.mem_univ _, funext fun y => ?_⟩
    by_cases hy : y = x
    · subst hy; simp
    · rw [Function.update_of_ne hy, hs' y (by simpa using hy)]
  · simp [spinsAt]

/-- A term on two sites. -/
theorem actOn_two {F : Type} [Field F] {x y : LatticeSite M N} (hxy : x ≠ y) (H : List ℕ → List ℕ → F)
    (ψ : SpinConfig M N d → F) (s : SpinConfig M N d) :
    actOn [x, y] H ψ s = ∑ a : Fin d, ∑ b : Fin d, ψ (Function.update (Function.update s x a) y b) *
      H [a.val, b.val] [(s x).val, (s y).val] := by
  have h2 := Fintype.sum_prod_type (f := fun p : Fin d × Fin d => ψ (Function.update (Function.update s x p.1) y p.2) *
    H [p.1.val, p.2.val] [(s x).val, (s y).val])
  rw [actOn, ← Finset.sum_filter]
  refine Eq.trans ?_ h2
  symm
  refine Finset.sum_bij (fun p _ => Function.update (Function.update s x p.1) y p.2) (fun a _ => ?_)
    (fun a _ b _ h => ?_) (fun s' hs' => ?_) (fun a _ => ?_)
  · simp only [Finset.mem_filter, Finset.mem_univ, true_and]
    intro z hz
    simp only [List.mem_cons, List.not_mem_nil, or_false, not_or] at hz
    rw [Function.update_of_ne hz.2, Function.update_of_ne hz.1]
  · have h1 := congrFun h x
    have h2 := congrFun h y
    rw [Function.update_of_ne hxy, Function.update_of_ne hxy, Function.update_self, Function.update_self] at h1
    rw [Function.update_self, Function.update_self] at h2
    exact Prod.ext h1 h2
  · simp only [Finset.mem_filter, Finset.mem_univ, true_and] at hs'
    refine ⟨(s' x, s' y), Finset.mem_univ _, funext fun z => ?_⟩
    by_cases hy : z = y
    · subst hy; simp
    · by_cases hx : z = x
      · subst hx; simp [hy]
      · rw [Function.update_of_ne hy, Function.update_of_ne hx, hs' z (by simp [hx, hy])]
  · simp [spinsAt, hxy]

end

/-- The labels of an operator on two sites. -/
theorem OperatorOn.legs2 {nm : String → ν} (hnm : Function.Injective nm) {U : Tensor ν NoSymmetry α} {d : ℕ}
    (h : OperatorOn d 2 nm U) :
    HasLegs (netName nm) U (legs4 .in0 (some d) .in1 (some d) .out0 (some d) .out1 (some d)) := by
  have ho : ∀ n, leg U n ≠ none → ∃ g, n = netName nm g ∧ (g = .in0 ∨ g = .in1 ∨ g = .out0 ∨ g = .out1) := fun n hn => by
    obtain ⟨i, hi, hh⟩ := h.only n hn
    obtain rfl | rfl : i = 0 ∨ i = 1 := by omega
    · rcases hh with rfl | rfl
      · exact ⟨.in0, rfl, by simp⟩
      · exact ⟨.out0, rfl, by simp⟩
    · rcases hh with rfl | rfl
      · exact ⟨.in1, rfl, by simp⟩
      · exact ⟨.out1, rfl, by simp⟩
  refine ⟨h.dense, fun n hn => (ho n hn).elim fun g hg => ⟨g, hg.1⟩, fun g => ?_⟩
  by_cases hg : g = .in0 ∨ g = .in1 ∨ g = .out0 ∨ g = .out1
  · rcases hg with rfl | rfl | rfl | rfl
    · exact h.inp 0 (by omega)
    · exact h.inp 1 (by omega)
    · exact h.out 0 (by omega)
    · exact h.out 1 (by omega)
  · have : gleg (netName nm) U g = none := by
      by_contra hne
      obtain ⟨g', h1, h2⟩ := ho _ hne
      rw [netName_inj hnm h1] at hg
      exact hg h2
    rw [this]
    simp only [not_or] at hg
    simp [legs4, hg]

/-- The labels of an operator on one site. -/
theorem OperatorOn.legs1 {nm : String → ν} (hnm : Function.Injective nm) {U : Tensor ν NoSymmetry α} {d : ℕ}
    (h : OperatorOn d 1 nm U) :
    HasLegs (netName nm) U (legs3 .in0 (some d) .out0 (some d) .out0 (some d)) := by
  have ho : ∀ n, leg U n ≠ none → ∃ g, n = netName nm g ∧ (g = .in0 ∨ g = .out0) := fun n hn => by
    obtain ⟨i, hi, hh⟩ := h.only n hn
    obtain rfl : i = 0 := by omega
    rcases hh with rfl | rfl
    · exact ⟨.in0, rfl, by simp⟩
    · exact ⟨.out0, rfl, by simp⟩
  refine ⟨h.dense, fun n hn => (ho n hn).elim fun g hg => ⟨g, hg.1⟩, fun g => ?_⟩
  by_cases hg : g = .in0 ∨ g = .out0
  · rcases hg with rfl | rfl
    · exact h.inp 0 (by omega)
    · exact h.out 0 (by omega)
  · have : gleg (netName nm) U g = none := by
      by_contra hne
      obtain ⟨g', h1, h2⟩ := ho _ hne
      rw [netName_inj hnm h1] at hg
      exact hg h2
    rw [this]
    simp only [not_or] at hg
    simp [legs3, hg]

theorem operator_value2 [Field α] [LinearOrder β] [Field β] {e : NetEnv ν α β} (he : NetEnvOk e)
    {U : Tensor ν NoSymmetry α} {d : ℕ} (h : OperatorOn d 2 e.nm U) (p0 p1 s0 s1 : ℕ) :
    gval (netName e.nm) U (pt4 .in0 p0 .in1 p1 .out0 s0 .out1 s1) = matrixElement e.nm U [p0, p1] [s0, s1] := by
  rw [matrixElement, val_eq_gval (netName_inj he.inj) (h.legs2 he.inj), gval4 he (h.legs2 he.inj) fun g => spinIndex e.nm [p0, p1] [s0, s1] (netName e.nm g)]
  congr 2
  · exact (spinIndex_in he.inj [p0, p1] [s0, s1] (k := 0) (by simp)).symm
  · exact (spinIndex_in he.inj [p0, p1] [s0, s1] (k := 1) (by simp)).symm
  · exact (spinIndex_out he.inj [p0, p1] [s0, s1] (k := 0) (by simp)).symm
  · exact (spinIndex_out he.inj [p0, p1] [s0, s1] (k := 1) (by simp)).symm

theorem operator_value1 [Field α] [LinearOrder β] [Field β] {e : NetEnv ν α β} (he : NetEnvOk e)
    {U : Tensor ν NoSymmetry α} {d : ℕ} (h : OperatorOn d 1 e.nm U) (p0 s0 : ℕ) :
    gval (netName e.nm) U (pt3 .in0 p0 .out0 s0 .out0 s0) = matrixElement e.nm U [p0] [s0] := by
  rw [matrixElement, val_eq_gval (netName_inj he.inj) (h.legs1 he.inj), gval3 he (h.legs1 he.inj) fun g => spinIndex e.nm [p0] [s0] (netName e.nm g)]
  congr 2
  · exact (spinIndex_in he.inj [p0] [s0] (k := 0) (by simp)).symm
  · exact (spinIndex_out he.inj [p0] [s0] (k := 0) (by simp)).symm
  · exact (spinIndex_out he.inj [p0] [s0] (k := 0) (by simp)).symm

/-! ## Two neighbouring sites of a column -/

/-- The value as a function of two neighbouring sites of a column and of the dimension of the edge between them. -/
theorem netVal_pair_column [CommRing α] (M N : ℕ) (h v : ℕ → ℕ → ℕ) (S : ℕ → ℕ → ℕ → ℕ → ℕ → ℕ → α) {i j : ℕ}
    (hi : i + 1 < M) (hj : j < N) : ∃ (X : Type) (I : Finset X) (w : X → α) (l r u l' r' d : X → ℕ),
      ∀ (K : ℕ) (A B : ℕ → ℕ → ℕ → ℕ → α),
        netVal M N h (fun i' j' => if i' = i + 1 ∧ j' = j then K else v i' j')
          (fun i' j' => if i' = i ∧ j' = j then A else if i' = i + 1 ∧ j' = j then B else S i' j') =
          ∑ x ∈ I, w x * ∑ k ∈ Finset.range K, A (l x) (r x) (u x) k * B (l' x) (r' x) k (d x) := by
  obtain ⟨I, w, l, r, u, d, u', d', hh⟩ := netVal_pair N M (fun j i => v i j) (fun j i => h i j)
    (fun j i l r u d => S i j u d l r) (i := j) (j := i) hj hi
  refine ⟨_, I, w, u, d, l, u', d', r, fun K A B => ?_⟩
  rw [netVal_transpose]
  have := hh K (fun l r u d => A u d l r) (fun l r u d => B u d l r)
  rw [← this]
  congr 1
  · funext j' i'
    exact if_congr and_comm rfl rfl
  · funext j' i' l r u d
    rw [apply_ite (fun F : ℕ → ℕ → ℕ → ℕ → α => F u d l r), apply_ite (fun F : ℕ → ℕ → ℕ → ℕ → α => F u d l r),
      apply_ite (fun F : ℕ → ℕ → ℕ → ℕ → α => F l r u d), apply_ite (fun F : ℕ → ℕ → ℕ → ℕ → α => F l r u d)]
    exact if_congr and_comm rfl (if_congr and_comm rfl rfl)

end TAT
