import Verif.Square.ExactApply
import Verif.Square.DenseNew
import Mathlib.Data.String.Basic
import Mathlib.Algebra.Order.Field.Basic
import Mathlib.Algebra.BigOperators.Field
import Mathlib.Algebra.Order.AbsoluteValue.Basic
import Mathlib.Order.Bounds.Basic
import Mathlib.Logic.Function.Iterate
import Mathlib.Algebra.Order.Ring.Rat
import Mathlib.Algebra.Field.Rat
import Mathlib.Tactic.Ring
import Mathlib.Tactic.Linarith

/-!
# Property C61: the exact lattice
-/

namespace TAT

set_option linter.unusedSectionVars false

variable {ν α ρ : Type} [LinearOrder ν] [Field α] [LinearOrder ρ] [Field ρ] [IsStrictOrderedRing ρ]
  {M N d : ℕ}

/-! ## The Hamiltonian -/

/-- A term: the sites and the operator. -/
abbrev SiteTerm (M N : ℕ) (ν α : Type) := List (LatticeSite M N) × Tensor ν NoSymmetry α

/-- The terms as the code has them. -/
def codeTerms (ts : List (SiteTerm M N ν α)) : List (TermKey × Tensor ν NoSymmetry α) :=
  ts.map fun e => (e.1.map sitePos, e.2)

/-- Every term has distinct sites and an operator with the right edges. -/
def TermsOk (M N d : ℕ) (nm : String → ν) (ts : List (SiteTerm M N ν α)) : Prop :=
  ∀ e ∈ ts, e.1.Nodup ∧ OperatorOn d e.1.length nm e.2

/-- The sum of all terms applied to a function of the configurations. -/
def hamiltonianOn (nm : String → ν) (ts : List (SiteTerm M N ν α)) (ψ : SpinConfig M N d → α)
    (s : SpinConfig M N d) : α :=
  (ts.map fun e => actOn e.1 (matrixElement nm e.2) ψ s).sum

/-- `a - H` -/
def shiftedOn (e : ExactEnv ν α ρ) (ts : List (SiteTerm M N ν α)) (a : ρ) (ψ : SpinConfig M N d → α)
    (s : SpinConfig M N d) : α :=
  e.ofReal a * ψ s - hamiltonianOn e.nm ts ψ s

/-- `m` is the largest modulus. -/
def LargestModulus (e : ExactEnv ν α ρ) (ψ : SpinConfig M N d → α) (m : ρ) : Prop :=
  IsGreatest (Set.range fun s => e.abs (ψ s)) m

/-- The reals among the scalars and the modulus. -/
structure ModulusOk (e : ExactEnv ν α ρ) : Prop where
  nonneg : ∀ x, 0 ≤ e.abs x
  zero_iff : ∀ x, e.abs x = 0 ↔ x = 0
  mul : ∀ x y, e.abs (x * y) = e.abs x * e.abs y
  ofReal : ∀ r, e.abs (e.ofReal r) = |r|
  ofReal_mul : ∀ r q, e.ofReal (r * q) = e.ofReal r * e.ofReal q
  ofReal_sub : ∀ r q, e.ofReal (r - q) = e.ofReal r - e.ofReal q

/-! ## Vectors -/

theorem VectorOn.leg_eq {nm : String → ν} {v w : Tensor ν NoSymmetry α} (hv : VectorOn M N d nm v)
    (hw : VectorOn M N d nm w) (n : ν) : leg w n = leg v n := by
  by_cases h : ∃ x : LatticeSite M N, n = physName nm (sitePos x)
  · obtain ⟨x, rfl⟩ := h
    rw [hv.site, hw.site]
  · have h1 : leg v n = none := by
      by_contra hn
      exact h (hv.only n hn)
    have h2 : leg w n = none := by
      by_contra hn
      exact h (hw.only n hn)
    rw [h1, h2]

theorem VectorOn.of_leg {nm : String → ν} {v w : Tensor ν NoSymmetry α} (hv : VectorOn M N d nm v)
    (hw : Dense w) (hl : ∀ n, leg w n = leg v n) : VectorOn M N d nm w :=
  ⟨hw, fun x => by rw [hl, hv.site], fun n hn => hv.only n (by rwa [hl] at hn)⟩

/-- The stored elements are the amplitudes. -/
theorem VectorOn.elems {nm : String → ν} (hnm : Function.Injective nm) {v : Tensor ν NoSymmetry α}
    (hv : VectorOn M N d nm v) {a : α} :
    a ∈ allElems v ↔ ∃ s : SpinConfig M N d, amplitude nm v s = a := by
  rw [dense_elems hv.dense]
  constructor
  · rintro ⟨x, hx, rfl⟩
    have hb : ∀ y : LatticeSite M N, x (physName nm (sitePos y)) < d := fun y => by
      have := hx (physName nm (sitePos y)) (by rw [hv.site]; simp)
      rwa [legDim, hv.site] at this
    refine ⟨fun y => ⟨x (physName nm (sitePos y)), hb y⟩, val_congr fun n hn => ?_⟩
    obtain ⟨y, rfl⟩ := hv.only n hn
    rw [configIndex_site hnm]
  · rintro ⟨s, rfl⟩
    refine ⟨configIndex nm s, fun n hn => ?_, rfl⟩
    obtain ⟨y, rfl⟩ := hv.only n hn
    rw [configIndex_site hnm, legDim, hv.site]
    exact (s y).isLt

theorem VectorOn.exists_config {nm : String → ν} (hnm : Function.Injective nm) {v : Tensor ν NoSymmetry α}
    (hv : VectorOn M N d nm v) : Nonempty (SpinConfig M N d) := by
  refine ⟨fun x => ⟨0, ?_⟩⟩
  have := hv.dense.pos (physName nm (sitePos x))
  rwa [legDim, hv.site] at this

/-- `norm<-1>` is the largest modulus of the amplitudes. -/
theorem normMax_largest {e : ExactEnv ν α ρ} (hnm : Function.Injective e.nm) (hm : ModulusOk e)
    {v : Tensor ν NoSymmetry α} (hv : VectorOn M N d e.nm v) :
    LargestModulus e (amplitude (M := M) (N := N) (d := d) e.nm v) (normMax e.abs v) := by
  obtain ⟨h1, h2, h3⟩ := C48_max e.abs v
  refine ⟨?_, ?_⟩
  · rcases h3 with h3 | ⟨x, hx, h3⟩
    · obtain ⟨s⟩ := hv.exists_config hnm
      refine ⟨s, ?_⟩
      have := h1 _ ((hv.elems hnm).2 ⟨s, rfl⟩)
      rw [h3] at this ⊢
      exact le_antisymm this (hm.nonneg _)
    · obtain ⟨s, rfl⟩ := (hv.elems hnm).1 hx
      exact ⟨s, h3.symm⟩
  · rintro _ ⟨s, rfl⟩
    exact h1 _ ((hv.elems hnm).2 ⟨s, rfl⟩)

/-! ## One step -/

theorem applyTerms_ok {e : ExactEnv ν α ρ} (he : ExactEnvOk e) {v : Tensor ν NoSymmetry α}
    (hv : VectorOn M N d e.nm v) (ts : List (SiteTerm M N ν α)) (ht : TermsOk M N d e.nm ts)
    {acc : Tensor ν NoSymmetry α} (ha : VectorOn M N d e.nm acc) :
    ∃ w, applyTerms e v (codeTerms ts) acc = .ok w ∧ VectorOn M N d e.nm w ∧
      ∀ s : SpinConfig M N d, amplitude e.nm w s =
        amplitude e.nm acc s + hamiltonianOn e.nm ts (amplitude e.nm v) s := by
  induction ts generalizing acc with
  | nil =>
    refine ⟨acc, rfl, ha, fun s => ?_⟩
    simp [hamiltonianOn]
  | cons t ts ih =>
    obtain ⟨h1, h2⟩ := ht t (by simp)
    obtain ⟨w, a1, a2, a3⟩ := applyTerm_ok he hv h1 h2
    obtain ⟨r, b1, b2, b3, b4⟩ := dense_inplace e.env (op := (· + ·)) (add_zero 0) ha.dense a2.dense
      (ha.leg_eq a2)
    obtain ⟨w', c1, c2, c3⟩ := ih (fun x hx => ht x (by simp [hx])) (ha.of_leg b2 b3)
    refine ⟨w', ?_, c2, fun s => ?_⟩
    · rw [codeTerms, List.map_cons, applyTerms, a1, Outcome.bind, b1, Outcome.bind]
      exact c1
    · rw [c3 s, hamiltonianOn, hamiltonianOn, List.map_cons, List.sum_cons, ← a3 s, ← add_assoc]
      congr 1
      exact b4 _

/-- **C61**: one step replaces the vector `ψ` by `(a - H) ψ`, divided by its largest modulus, and gives
`a` less this modulus as the energy. -/
theorem C61_step {e : ExactEnv ν α ρ} (he : ExactEnvOk e) (hm : ModulusOk e) {v : Tensor ν NoSymmetry α}
    (hv : VectorOn M N d e.nm v) {ts : List (SiteTerm M N ν α)} (ht : TermsOk M N d e.nm ts) (a : ρ) :
    ∃ m, LargestModulus e (shiftedOn e ts a (amplitude (M := M) (N := N) (d := d) e.nm v)) m ∧
      (m = 0 → exactStep e (codeTerms ts) a v = .error "division by zero") ∧
      (m ≠ 0 → ∃ w, exactStep e (codeTerms ts) a v = .ok (a - m, w) ∧ VectorOn M N d e.nm w ∧
        ∀ s : SpinConfig M N d, amplitude e.nm w s =
          shiftedOn e ts a (amplitude e.nm v) s / e.ofReal m) := by
  obtain ⟨z, a1, a2, a3, a4⟩ := dense_zero e.junk hv.dense
  obtain ⟨t, b1, b2, b3⟩ := applyTerms_ok he hv ts ht (hv.of_leg a2 a3)
  obtain ⟨c1, c2, c3⟩ := dense_number hv.dense (f := fun x => x * e.ofReal a) (zero_mul _)
  have hc := hv.of_leg c1 c2
  obtain ⟨r, d1, d2, d3, d4⟩ := dense_inplace e.env (op := (· - ·)) (sub_zero 0) hc.dense b2.dense
    (hc.leg_eq b2)
  have hr := hc.of_leg d2 d3
  have hamp : amplitude (M := M) (N := N) (d := d) e.nm r = shiftedOn e ts a (amplitude e.nm v) := by
    funext s
    have h4 := d4 (configIndex e.nm s)
    have hz : amplitude e.nm (zero z) s = 0 := a4 _
    have h3 := b3 s
    rw [hz, zero_add] at h3
    rw [amplitude, h4, c3, shiftedOn, mul_comm, ← h3]
    rfl
  refine ⟨normMax e.abs r, ?_, fun h0 => ?_, fun h0 => ?_⟩
  · rw [← hamp]
    exact normMax_largest he.inj hm hr
  · rw [exactStep, a1, Outcome.bind, b1, Outcome.bind, d1, Outcome.bind]
    exact if_pos h0
  · obtain ⟨f1, f2, f3⟩ := dense_number d2 (f := fun x => x / e.ofReal (normMax e.abs r)) (zero_div _)
    refine ⟨_, ?_, hr.of_leg f1 f2, fun s => ?_⟩
    · rw [exactStep, a1, Outcome.bind, b1, Outcome.bind, d1, Outcome.bind]
      exact if_neg h0
    · rw [← hamp]
      exact f3 _

/-! ## All steps -/

theorem actOn_smul (xs : List (LatticeSite M N)) (h : List ℕ → List ℕ → α) (c : α)
    (ψ : SpinConfig M N d → α) (s : SpinConfig M N d) :
    actOn xs h (fun s => ψ s / c) s = actOn xs h ψ s / c := by
  rw [actOn, actOn, Finset.sum_div]
  refine Finset.sum_congr rfl fun s' _ => ?_
  split
  · rw [div_mul_eq_mul_div]
  · rw [zero_div]

theorem shiftedOn_div (e : ExactEnv ν α ρ) (ts : List (SiteTerm M N ν α)) (a : ρ) (c : α)
    (ψ : SpinConfig M N d → α) :
    shiftedOn e ts a (fun s => ψ s / c) = fun s => shiftedOn e ts a ψ s / c := by
  funext s
  have : hamiltonianOn e.nm ts (fun s => ψ s / c) s = hamiltonianOn e.nm ts ψ s / c := by
    rw [hamiltonianOn, hamiltonianOn]
    induction ts with
    | nil => simp
    | cons t ts ih => rw [List.map_cons, List.sum_cons, ih, actOn_smul, List.map_cons, List.sum_cons, add_div]
  rw [shiftedOn, shiftedOn, this, sub_div, mul_div_assoc]

theorem largest_div {e : ExactEnv ν α ρ} (hm : ModulusOk e) {ψ : SpinConfig M N d → α} {m c : ρ}
    (h : LargestModulus e ψ m) (hc : 0 < c) : LargestModulus e (fun s => ψ s / e.ofReal c) (m / c) := by
  have habs : ∀ x, e.abs (x / e.ofReal c) = e.abs x / c := by
    intro x
    have hne : e.ofReal c ≠ 0 := fun h0 => by
      have := hm.ofReal c
      rw [h0, (hm.zero_iff 0).2 rfl] at this
      exact hc.ne' (abs_eq_zero.1 this.symm)
    have := hm.mul (x / e.ofReal c) (e.ofReal c)
    rw [div_mul_cancel₀ _ hne, hm.ofReal, abs_of_pos hc] at this
    rw [this, mul_div_cancel_right₀ _ hc.ne']
  obtain ⟨⟨s, hs⟩, h2⟩ := h
  refine ⟨⟨s, ?_⟩, ?_⟩
  · show e.abs (ψ s / e.ofReal c) = m / c
    rw [habs]
    exact congrArg (· / c) hs
  · rintro _ ⟨s', rfl⟩
    show e.abs (ψ s' / e.ofReal c) ≤ m / c
    rw [habs]
    exact div_le_div_of_nonneg_right (h2 ⟨s', rfl⟩) hc.le

theorem largest_pos {e : ExactEnv ν α ρ} (hm : ModulusOk e) {ψ : SpinConfig M N d → α} {m : ρ}
    (h : LargestModulus e ψ m) : 0 ≤ m := by
  obtain ⟨⟨s, hs⟩, _⟩ := h
  rw [← hs]
  exact hm.nonneg _

theorem largest_zero {e : ExactEnv ν α ρ} (hm : ModulusOk e) {ψ : SpinConfig M N d → α}
    (h : LargestModulus e ψ 0) : ψ = fun _ => 0 := by
  funext s
  exact (hm.zero_iff _).1 (le_antisymm (h.2 ⟨s, rfl⟩) (hm.nonneg _))

theorem shiftedOn_zero (e : ExactEnv ν α ρ) (ts : List (SiteTerm M N ν α)) (a : ρ) :
    shiftedOn e ts a (fun _ : SpinConfig M N d => (0 : α)) = fun _ => 0 := by
  have := shiftedOn_div e ts a 0 (fun _ : SpinConfig M N d => (0 : α))
  simpa using this

theorem ofReal_one {e : ExactEnv ν α ρ} (hm : ModulusOk e) : e.ofReal 1 = 1 := by
  have one : e.ofReal 1 ≠ 0 := fun h => by
    have := hm.ofReal 1
    rw [h, (hm.zero_iff 0).2 rfl, abs_one] at this
    exact one_ne_zero this.symm
  have := hm.ofReal_mul 1 1
  rw [mul_one] at this
  exact (mul_eq_left₀ one).1 this.symm

/-- One step from the vector after `k` steps. -/
theorem exactStep_iterate {e : ExactEnv ν α ρ} (he : ExactEnvOk e) (hm : ModulusOk e)
    {ts : List (SiteTerm M N ν α)} (ht : TermsOk M N d e.nm ts) {a : ρ} {ψ : SpinConfig M N d → α} {m : ℕ → ρ}
    (hmax : ∀ k, LargestModulus e ((shiftedOn e ts a)^[k] ψ) (m k)) {k : ℕ} {w : Tensor ν NoSymmetry α}
    (hw : VectorOn M N d e.nm w) (hk : m k ≠ 0)
    (hval : ∀ s : SpinConfig M N d, amplitude e.nm w s = (shiftedOn e ts a)^[k] ψ s / e.ofReal (m k)) :
    (m (k + 1) = 0 → exactStep e (codeTerms ts) a w = .error "division by zero") ∧
    (m (k + 1) ≠ 0 → ∃ w', exactStep e (codeTerms ts) a w = .ok (a - m (k + 1) / m k, w') ∧
      VectorOn M N d e.nm w' ∧ ∀ s : SpinConfig M N d,
        amplitude e.nm w' s = (shiftedOn e ts a)^[k + 1] ψ s / e.ofReal (m (k + 1))) := by
  have hpos : 0 < m k := lt_of_le_of_ne (largest_pos hm (hmax k)) (Ne.symm hk)
  obtain ⟨q, h1, h2, h3⟩ := C61_step he hm hw ht a
  have hamp : amplitude e.nm w = fun s => (shiftedOn e ts a)^[k] ψ s / e.ofReal (m k) := funext hval
  rw [hamp, shiftedOn_div] at h1
  have hq : q = m (k + 1) / m k := by
    have := hmax (k + 1)
    rw [Function.iterate_succ_apply'] at this
    exact h1.unique (largest_div hm this hpos)
  have hq0 : q = 0 ↔ m (k + 1) = 0 := by
    rw [hq, div_eq_zero_iff]
    simp [hk]
  refine ⟨fun h0 => h2 (hq0.2 h0), fun h0 => ?_⟩
  obtain ⟨w', c1, c2, c3⟩ := h3 (fun h => h0 (hq0.1 h))
  refine ⟨w', by rw [c1, hq], c2, fun s => ?_⟩
  rw [c3 s, hamp, shiftedOn_div, Function.iterate_succ_apply', div_div, ← hm.ofReal_mul, hq,
    mul_div_cancel₀ _ hk]

theorem exactSteps_iterate {e : ExactEnv ν α ρ} (he : ExactEnvOk e) (hm : ModulusOk e)
    {ts : List (SiteTerm M N ν α)} (ht : TermsOk M N d e.nm ts) {a : ρ} {ψ : SpinConfig M N d → α} {m : ℕ → ρ}
    (hmax : ∀ k, LargestModulus e ((shiftedOn e ts a)^[k] ψ) (m k)) (j : ℕ) {k : ℕ} (x : ρ)
    {w : Tensor ν NoSymmetry α} (hw : VectorOn M N d e.nm w) (hk : m k ≠ 0)
    (hval : ∀ s : SpinConfig M N d, amplitude e.nm w s = (shiftedOn e ts a)^[k] ψ s / e.ofReal (m k)) :
    (m (k + j + 1) = 0 → exactSteps e (codeTerms ts) a (j + 1) (x, w) = .error "division by zero") ∧
    (m (k + j + 1) ≠ 0 → ∃ w', exactSteps e (codeTerms ts) a (j + 1) (x, w) =
        .ok (a - m (k + j + 1) / m (k + j), w') ∧
      VectorOn M N d e.nm w' ∧ ∀ s : SpinConfig M N d,
        amplitude e.nm w' s = (shiftedOn e ts a)^[k + j + 1] ψ s / e.ofReal (m (k + j + 1))) := by
  have hne : ∀ k, m k = 0 → m (k + 1) = 0 := by
    intro k h'
    have := hmax k
    rw [h'] at this
    have hz := largest_zero hm this
    have := hmax (k + 1)
    rw [Function.iterate_succ_apply', hz, shiftedOn_zero] at this
    obtain ⟨⟨s, hs⟩, _⟩ := this
    exact hs.symm.trans ((hm.zero_iff 0).2 rfl)
  have hne' : ∀ i k, m k = 0 → m (k + i) = 0 := by
    intro i
    induction i with
    | zero => exact fun _ h => h
    | succ i ih => exact fun k h => hne _ (ih k h)
  induction j generalizing k w x with
  | zero =>
    obtain ⟨h1, h2⟩ := exactStep_iterate he hm ht hmax hw hk hval
    refine ⟨fun h => ?_, fun h => ?_⟩
    · rw [exactSteps, h1 h]
      rfl
    · obtain ⟨w', c1, c2⟩ := h2 h
      refine ⟨w', ?_, c2⟩
      rw [exactSteps, c1, Outcome.bind, exactSteps]
      rfl
  | succ j ih =>
    obtain ⟨h1, h2⟩ := exactStep_iterate he hm ht hmax hw hk hval
    by_cases h0 : m (k + 1) = 0
    · refine ⟨fun _ => ?_, fun h => absurd ?_ h⟩
      · rw [exactSteps, h1 h0]
        rfl
      · have := hne' (j + 1) _ h0
        rwa [show k + 1 + (j + 1) = k + (j + 1) + 1 by omega] at this
    · obtain ⟨w', c1, c2, c3⟩ := h2 h0
      have := ih (a - m (k + 1) / m k) c2 h0 c3
      rw [show k + 1 + j + 1 = k + (j + 1) + 1 by omega, show k + 1 + j = k + (j + 1) by omega] at this
      rw [exactSteps, c1, Outcome.bind]
      exact this

/-- **C61**: `n + 1` steps from a vector of largest modulus one give `(a - H)ⁿ⁺¹ ψ` divided by its largest
modulus, where `a` is the modulus of the approximate energy of the whole lattice.  The energy returned is
`a` less the ratio of the last two of these moduli, for each site.  When `(a - H)ⁿ⁺¹ ψ` vanishes the code
divides by zero. -/
theorem C61_update {e : ExactEnv ν α ρ} (he : ExactEnvOk e) (hm : ModulusOk e) {v : Tensor ν NoSymmetry α}
    (hv : VectorOn M N d e.nm v) {ts : List (SiteTerm M N ν α)} (ht : TermsOk M N d e.nm ts)
    (approximateEnergy : ρ) (hMN : 0 < M * N) (n : ℕ) {m : ℕ → ρ}
    (hmax : ∀ k, LargestModulus e ((shiftedOn e ts (|approximateEnergy| * M * N))^[k]
      (amplitude (M := M) (N := N) (d := d) e.nm v)) (m k)) (h0 : m 0 = 1) :
    (m (n + 1) = 0 →
      exactUpdate e M N (codeTerms ts) (n + 1) approximateEnergy v = .error "division by zero") ∧
    (m (n + 1) ≠ 0 → ∃ w, exactUpdate e M N (codeTerms ts) (n + 1) approximateEnergy v =
        .ok ((|approximateEnergy| * M * N - m (n + 1) / m n) / (M * N), w) ∧
      VectorOn M N d e.nm w ∧
      ∀ s : SpinConfig M N d, amplitude e.nm w s =
        (shiftedOn e ts (|approximateEnergy| * M * N))^[n + 1] (amplitude e.nm v) s /
          e.ofReal (m (n + 1))) := by
  obtain ⟨h1, h2⟩ := exactSteps_iterate he hm ht hmax n (k := 0) 0 hv (by rw [h0]; exact one_ne_zero)
    (fun s => by rw [h0, ofReal_one hm, div_one]; rfl)
  rw [zero_add] at h1 h2
  refine ⟨fun h => ?_, fun h => ?_⟩
  · rw [exactUpdate, h1 h]
    rfl
  · obtain ⟨w, c1, c2⟩ := h2 h
    refine ⟨w, ?_, c2⟩
    rw [exactUpdate, c1, Outcome.bind]
    refine if_neg ?_
    rw [← Nat.cast_mul]
    exact Nat.cast_ne_zero.2 hMN.ne'

/-- **C61**: from an eigenvector of the energy `E` below `a` the energy returned is `E` for each site, and
the vector stays this eigenvector.  When `E` is above `a` the energy returned is wrong: it is that of
`2 a - E`. -/
theorem C61_eigen {e : ExactEnv ν α ρ} (he : ExactEnvOk e) (hm : ModulusOk e) {v : Tensor ν NoSymmetry α}
    (hv : VectorOn M N d e.nm v) {ts : List (SiteTerm M N ν α)} (ht : TermsOk M N d e.nm ts)
    (approximateEnergy E : ρ) (hMN : 0 < M * N) (n : ℕ)
    (h1 : LargestModulus e (amplitude (M := M) (N := N) (d := d) e.nm v) 1)
    (hE : ∀ s : SpinConfig M N d, hamiltonianOn e.nm ts (amplitude e.nm v) s =
      e.ofReal E * amplitude e.nm v s)
    (hne : E ≠ |approximateEnergy| * M * N) :
    ∃ w, exactUpdate e M N (codeTerms ts) (n + 1) approximateEnergy v =
        .ok ((if E ≤ |approximateEnergy| * M * N then E else 2 * (|approximateEnergy| * M * N) - E) /
          (M * N), w) ∧
      VectorOn M N d e.nm w ∧
      ∀ s : SpinConfig M N d, amplitude e.nm w s = amplitude e.nm v s *
        e.ofReal ((if E ≤ |approximateEnergy| * M * N then 1 else -1) ^ (n + 1)) := by
  have key := fun m => C61_update he hm hv ht approximateEnergy hMN n (m := m)
  generalize ha : |approximateEnergy| * M * N = a at key hne ⊢
  generalize hψ : amplitude (M := M) (N := N) (d := d) e.nm v = ψ at key h1 hE ⊢
  have hpow : ∀ k, (shiftedOn e ts a)^[k] ψ = fun s => e.ofReal ((a - E) ^ k) * ψ s := by
    intro k
    induction k with
    | zero => funext s; rw [pow_zero, ofReal_one hm, one_mul]; rfl
    | succ k ih =>
      have hc : e.ofReal ((a - E) ^ k) ≠ 0 := fun h => by
        have := hm.ofReal ((a - E) ^ k)
        rw [h, (hm.zero_iff 0).2 rfl] at this
        exact pow_ne_zero k (sub_ne_zero.2 hne.symm) (abs_eq_zero.1 this.symm)
      have h2 : (fun s => e.ofReal ((a - E) ^ k) * ψ s) = fun s => ψ s / (e.ofReal ((a - E) ^ k))⁻¹ := by
        funext s
        rw [div_inv_eq_mul, mul_comm]
      rw [Function.iterate_succ_apply', ih, h2, shiftedOn_div]
      funext s
      rw [shiftedOn, hE, ← sub_mul, ← hm.ofReal_sub, div_inv_eq_mul, pow_succ, hm.ofReal_mul]
      ring
  have hlarge : ∀ k, LargestModulus e ((shiftedOn e ts a)^[k] ψ) (|a - E| ^ k) := by
    intro k
    rw [hpow k]
    have habs : ∀ s, e.abs (e.ofReal ((a - E) ^ k) * ψ s) = |a - E| ^ k * e.abs (ψ s) := fun s => by
      rw [hm.mul, hm.ofReal, abs_pow]
    obtain ⟨⟨s, hs⟩, h3⟩ := h1
    refine ⟨⟨s, ?_⟩, ?_⟩
    · show e.abs (e.ofReal ((a - E) ^ k) * ψ s) = _
      rw [habs, show e.abs (ψ s) = 1 from hs, mul_one]
    · rintro _ ⟨s', rfl⟩
      show e.abs (e.ofReal ((a - E) ^ k) * ψ s') ≤ _
      rw [habs]
      have h4 : e.abs (ψ s') ≤ 1 := h3 ⟨s', rfl⟩
      calc |a - E| ^ k * e.abs (ψ s') ≤ |a - E| ^ k * 1 :=
            mul_le_mul_of_nonneg_left h4 (pow_nonneg (abs_nonneg _) k)
        _ = |a - E| ^ k := mul_one _
  have hpos : 0 < |a - E| := abs_pos.2 (sub_ne_zero.2 hne.symm)
  obtain ⟨w, c1, c2, c3⟩ := (key (fun k => |a - E| ^ k) hlarge (pow_zero _)).2
    (pow_pos hpos _).ne'
  have hratio : |a - E| ^ (n + 1) / |a - E| ^ n = |a - E| := by
    rw [pow_succ, mul_div_cancel_left₀ _ (pow_pos hpos n).ne']
  refine ⟨w, ?_, c2, fun s => ?_⟩
  · rw [c1, hratio]
    congr 3
    split
    · next h => rw [abs_of_nonneg (sub_nonneg.2 h)]; ring
    · next h => rw [abs_of_neg (sub_neg.2 (not_le.1 h))]; ring
  · have hofne : e.ofReal (|a - E| ^ (n + 1)) ≠ 0 := fun h => by
      have := hm.ofReal (|a - E| ^ (n + 1))
      rw [h, (hm.zero_iff 0).2 rfl] at this
      exact (pow_pos hpos (n + 1)).ne' (abs_eq_zero.1 this.symm)
    rw [c3 s, hpow, div_eq_iff hofne, mul_assoc, ← hm.ofReal_mul, ← mul_pow, mul_comm]
    congr 3
    congr 1
    split
    · next h => rw [abs_of_nonneg (sub_nonneg.2 h), one_mul]
    · next h => rw [abs_of_neg (sub_neg.2 (not_le.1 h))]; ring

/-! ## Observation -/

/-- The sum of the products of two vectors over all configurations. -/
def overlap (φ ψ : SpinConfig M N d → α) : α := ∑ s, φ s * ψ s

theorem overlap_ok {e : ExactEnv ν α ρ} (he : ExactEnvOk e) {v w : Tensor ν NoSymmetry α}
    (hv : VectorOn M N d e.nm v) (hw : VectorOn M N d e.nm w) :
    ∃ r, contractAllEdge e.ce e.cn w v = .ok r ∧ Dense r ∧ (∀ n, leg r n = none) ∧
      ∀ x, val r x = overlap (M := M) (N := N) (d := d) (amplitude e.nm w) (amplitude e.nm v) := by
  have hnm := he.inj
  have hall : ∀ x : LatticeSite M N, x ∈ (Finset.univ : Finset (LatticeSite M N)).toList := by simp
  have hmem : ∀ n, n ∈ ((Finset.univ : Finset (LatticeSite M N)).toList.map
      fun x => physName e.nm (sitePos x)) ↔ leg w n ≠ none := by
    intro n
    rw [List.mem_map]
    constructor
    · rintro ⟨x, _, rfl⟩
      rw [hw.site]
      simp
    · intro h
      obtain ⟨x, rfl⟩ := hw.only n h
      exact ⟨x, hall x, rfl⟩
  obtain ⟨r, b1, b2, b3, b4⟩ := dense_all e.ce he.gemm he.names hw.dense hv.dense
    (ns := (Finset.univ : Finset (LatticeSite M N)).toList.map fun x => physName e.nm (sitePos x))
    ((Finset.nodup_toList _).map fun x y h => siteName_inj hnm h)
    (fun n => by rw [hmem, hw.leg_eq hv n, and_self]) (fun n _ => hv.leg_eq hw n)
  refine ⟨r, b1, b2, fun n => ?_, fun x => ?_⟩
  · rw [b3]
    split
    · rfl
    · next h =>
      rw [hmem, not_not] at h
      rw [hw.leg_eq hv n, h]
      rfl
  · obtain ⟨s⟩ := hv.exists_config hnm
    rw [b4, sumNames_configs hnm (fun x => by rw [legDim, hw.site]; rfl) _ (Finset.nodup_toList _) _ s
      (G := fun s => amplitude e.nm w s * amplitude e.nm v s), overlap]
    · refine Finset.sum_congr rfl fun s' _ => if_pos fun x hx => absurd (hall x) hx
    · intro z' s' h1 _ _
      congr 1
      · refine val_congr fun n hn => ?_
        obtain ⟨x, rfl⟩ := hw.only n hn
        rw [h1 x (hall x), configIndex_site hnm]
      · refine val_congr fun n hn => ?_
        obtain ⟨x, rfl⟩ := hv.only n hn
        rw [h1 x (hall x), configIndex_site hnm]

/-- **C61**: the denominator is the real part of the sum of the squares of the amplitudes. -/
theorem C61_denominator {e : ExactEnv ν α ρ} (he : ExactEnvOk e) {v : Tensor ν NoSymmetry α}
    (hv : VectorOn M N d e.nm v) :
    exactDenominator e v = .ok (e.re (overlap (M := M) (N := N) (d := d) (amplitude e.nm v)
      (amplitude e.nm v))) := by
  obtain ⟨r, h1, h2, h3, h4⟩ := overlap_ok he hv hv
  rw [exactDenominator, h1, Outcome.bind, dense_only h2 h3 e.re (fun _ => 0), h4]

/-- **C61**: an observed operator is the real part of the sum over the configurations of the amplitude after
the operator and the amplitude, divided by the denominator on demand. -/
theorem C61_observe {e : ExactEnv ν α ρ} (he : ExactEnvOk e) {v t : Tensor ν NoSymmetry α}
    (hv : VectorOn M N d e.nm v) {xs : List (LatticeSite M N)} (hx : xs.Nodup)
    (ht : OperatorOn d xs.length e.nm t) (b : Bool) :
    exactObserve e v (xs.map sitePos, t) b =
      let ψ : SpinConfig M N d → α := amplitude e.nm v
      let numerator := e.re (overlap (actOn xs (matrixElement e.nm t) ψ) ψ)
      if b then
        if e.re (overlap ψ ψ) = 0 then .error "division by zero"
        else .ok (numerator / e.re (overlap ψ ψ))
      else .ok numerator := by
  obtain ⟨w, a1, a2, a3⟩ := applyTerm_ok he hv hx ht
  obtain ⟨r, h1, h2, h3, h4⟩ := overlap_ok he hv a2
  have ha : amplitude (M := M) (N := N) (d := d) e.nm w =
    actOn xs (matrixElement e.nm t) (amplitude e.nm v) := funext a3
  rw [exactObserve, a1, Outcome.bind, h1, Outcome.bind, dense_only h2 h3 e.re (fun _ => 0), h4, Outcome.bind,
    C61_denominator he hv, Outcome.bind, ha]

theorem sumObserved_ok {e : ExactEnv ν α ρ} (he : ExactEnvOk e) (hre : ∀ x y, e.re (x + y) = e.re x + e.re y)
    {v : Tensor ν NoSymmetry α} (hv : VectorOn M N d e.nm v) (ts : List (SiteTerm M N ν α))
    (ht : TermsOk M N d e.nm ts) (x : ρ) :
    sumObserved e v (codeTerms ts) x = .ok (x + e.re (overlap (hamiltonianOn (M := M) (N := N) (d := d) e.nm ts
      (amplitude e.nm v)) (amplitude e.nm v))) := by
  induction ts generalizing x with
  | nil =>
    have h0 : e.re 0 = 0 := by
      have := hre 0 0
      rwa [add_zero, left_eq_add] at this
    rw [codeTerms, List.map_nil, sumObserved]
    congr 1
    have : overlap (hamiltonianOn (M := M) (N := N) (d := d) e.nm []
      (amplitude e.nm v)) (amplitude e.nm v) = 0 :=
      Finset.sum_eq_zero fun s _ => by rw [hamiltonianOn, List.map_nil, List.sum_nil, zero_mul]
    rw [this, h0, add_zero]
  | cons t ts ih =>
    obtain ⟨h1, h2⟩ := ht t (by simp)
    rw [codeTerms, List.map_cons, sumObserved, C61_observe he hv h1 h2 false]
    show sumObserved e v (codeTerms ts) _ = _
    refine (ih (fun y hy => ht y (by simp [hy])) _).trans ?_
    rw [add_assoc, ← hre]
    congr 3
    rw [overlap, overlap, overlap, ← Finset.sum_add_distrib]
    refine Finset.sum_congr rfl fun s _ => ?_
    rw [← add_mul]
    congr 1

/-- **C61**: the observed energy is that of the sum of all terms, for each site. -/
theorem C61_observe_energy {e : ExactEnv ν α ρ} (he : ExactEnvOk e)
    (hre : ∀ x y, e.re (x + y) = e.re x + e.re y) {v : Tensor ν NoSymmetry α}
    (hv : VectorOn M N d e.nm v) {ts : List (SiteTerm M N ν α)} (ht : TermsOk M N d e.nm ts) :
    exactObserveEnergy e M N (codeTerms ts) v =
      let ψ : SpinConfig M N d → α := amplitude e.nm v
      if e.re (overlap ψ ψ) = 0 ∨ M * N = 0 then .error "division by zero"
      else .ok (e.re (overlap (hamiltonianOn e.nm ts ψ) ψ) / e.re (overlap ψ ψ) / (M * N)) := by
  rw [exactObserveEnergy, sumObserved_ok he hre hv ts ht, Outcome.bind, C61_denominator he hv, Outcome.bind,
    zero_add]
  have : ((M : ρ) * (N : ρ) = 0) ↔ (M * N = 0) := by
    rw [← Nat.cast_mul, Nat.cast_eq_zero]
  simp only [this]

/-! ## The constructor -/

theorem siteNames_eq (nm : String → ν) (M N : ℕ) :
    siteNames nm M N = (latticeSites M N).map fun x => physName nm (sitePos x) := by
  have hc : ∀ n : ℕ, counters n = (List.finRange n).map fun i => (i.val : ℤ) := by
    intro n
    rw [counters, ← List.map_coe_finRange_eq_range, List.map_map]
    rfl
  rw [siteNames, latticeSites, hc, hc, List.flatMap_map, List.map_flatMap]
  refine congrArg (List.flatMap · _) (funext fun i => ?_)
  rw [List.map_map, List.map_map]
  rfl

theorem latticeSites_nodup (M N : ℕ) : (latticeSites M N).Nodup := by
  rw [latticeSites, List.nodup_flatMap]
  refine ⟨fun i _ => (List.nodup_finRange N).map fun j k h => (Prod.mk.inj h).2, ?_⟩
  refine (List.nodup_finRange M).imp fun {i j} hij => ?_
  rw [Function.onFun, List.disjoint_left]
  intro x h1 h2
  obtain ⟨k, _, rfl⟩ := List.mem_map.1 h1
  obtain ⟨l, _, h⟩ := List.mem_map.1 h2
  exact hij (Prod.mk.inj h).1.symm

/-- A tensor with an edge for each site whose elements come from a generator. -/
theorem vectorOn_set {S : Type} (e : ExactEnv ν α ρ) (hnm : Function.Injective e.nm) (gen : S → α × S)
    (s : S) (M N : ℕ) (hd : 0 < d) :
    ∃ t, mkTensor e.junk (siteNames e.nm M N) (List.replicate (M * N) ⟨false, [(0, d)]⟩) = .ok t ∧
      VectorOn M N d e.nm (setWith gen s t) ∧ allElems (setWith gen s t) = outputs gen s (d ^ (M * N)) := by
  have hlen : (latticeSites M N).length = M * N := by
    rw [latticeSites, List.length_flatMap]
    simp
  have hrep : (List.replicate (M * N) ⟨false, [(0, d)]⟩ : List (Edge NoSymmetry)) =
      (List.replicate (M * N) d).map plainEdge := by
    rw [List.map_replicate]
    rfl
  obtain ⟨t, h1, h2, h3, h4, h5⟩ := dense_set e.junk gen s
    (names := (latticeSites M N).map fun x => physName e.nm (sitePos x)) (dims := List.replicate (M * N) d)
    ((latticeSites_nodup M N).map fun x y h => siteName_inj hnm h) (by simp [hlen])
    (fun x hx => by rw [List.eq_of_mem_replicate hx]; exact hd)
  rw [siteNames_eq, hrep]
  refine ⟨t, h1, ⟨h2, fun x => ?_, fun n hn => ?_⟩, by rw [h5, List.prod_replicate]⟩
  · obtain ⟨i, hi, hx⟩ := List.mem_iff_getElem.1 (mem_latticeSites x)
    have := h4 i (by simpa using hi)
    rw [List.getElem_map, hx, List.getElem_replicate] at this
    exact this
  · rw [leg_ne_none, h3, List.mem_map] at hn
    obtain ⟨x, _, rfl⟩ := hn
    exact ⟨x, rfl⟩

/-- **C61**: the constructor gives a vector with an edge for each site whose elements are the numbers of the
generator divided by the largest of their moduli, so that the largest modulus is one.  It divides by zero
when all these numbers are zero. -/
theorem C61_new {S : Type} {e : ExactEnv ν α ρ} (hnm : Function.Injective e.nm) (hm : ModulusOk e)
    (gen : S → α × S) (s : S) (M N : ℕ) (hd : 0 < d) :
    ((∀ x ∈ outputs gen s (d ^ (M * N)), x = 0) →
      exactNew e gen s M N d = .error "division by zero") ∧
    ((∃ x ∈ outputs gen s (d ^ (M * N)), x ≠ 0) → ∃ v m, exactNew e gen s M N d = .ok v ∧
      VectorOn M N d e.nm v ∧ IsGreatest {r | ∃ x ∈ outputs gen s (d ^ (M * N)), r = e.abs x} m ∧
      allElems v = (outputs gen s (d ^ (M * N))).map (fun x => x / e.ofReal m) ∧
      LargestModulus e (amplitude (M := M) (N := N) (d := d) e.nm v) 1) := by
  obtain ⟨t, h1, h2, h3⟩ := vectorOn_set (d := d) e hnm gen s M N hd
  have hl := normMax_largest hnm hm h2
  have hz : normMax e.abs (setWith gen s t) = 0 ↔ ∀ x ∈ outputs gen s (d ^ (M * N)), x = 0 := by
    rw [← h3]
    constructor
    · intro h x hx
      obtain ⟨s', rfl⟩ := (h2.elems hnm).1 hx
      rw [h] at hl
      exact congrFun (largest_zero hm hl) s'
    · intro h
      obtain ⟨⟨s', hs⟩, _⟩ := hl
      rw [← hs]
      exact (hm.zero_iff _).2 (h _ ((h2.elems hnm).2 ⟨s', rfl⟩))
  refine ⟨fun h => ?_, fun ⟨x, hx, hx0⟩ => ?_⟩
  · rw [exactNew, h1, Outcome.bind]
    exact if_pos (hz.2 h)
  · have h0 : normMax e.abs (setWith gen s t) ≠ 0 := fun h => hx0 (hz.1 h x hx)
    have hpos : 0 < normMax e.abs (setWith gen s t) := lt_of_le_of_ne (largest_pos hm hl) h0.symm
    obtain ⟨f1, f2, f3⟩ := dense_number h2.dense
      (f := fun x => x / e.ofReal (normMax e.abs (setWith gen s t))) (zero_div _)
    refine ⟨_, normMax e.abs (setWith gen s t), ?_, h2.of_leg f1 f2, ⟨?_, ?_⟩, ?_, ?_⟩
    · rw [exactNew, h1, Outcome.bind]
      exact if_neg h0
    · obtain ⟨⟨s', hs⟩, _⟩ := hl
      exact ⟨_, h3 ▸ (h2.elems hnm).2 ⟨s', rfl⟩, hs.symm⟩
    · rintro _ ⟨y, hy, rfl⟩
      rw [← h3] at hy
      obtain ⟨s', rfl⟩ := (h2.elems hnm).1 hy
      exact hl.2 ⟨s', rfl⟩
    · rw [← h3]
      rw [allElems, allElems, List.map_flatMap]
      exact List.flatMap_map ..
    · have := largest_div hm hl hpos
      rw [div_self h0] at this
      convert this using 2
      exact f3 _

/-! ## Scalars with a square root of minus one -/

/-- **C61**: the vector is contracted with itself, not with its conjugate.  With a square root of minus one
among the scalars there is a vector with elements of modulus one whose denominator is zero, so nothing can be
observed. -/
theorem C61_not_conjugated {e : ExactEnv ν α ρ} (he : ExactEnvOk e) (h0 : e.re 0 = 0) {i : α}
    (hi : i * i = -1) (h2 : (2 : α) ≠ 0) :
    ∃ v, VectorOn 1 1 2 e.nm v ∧
      (∃ s s' : SpinConfig 1 1 2, s ≠ s' ∧ amplitude e.nm v s = 1 ∧ amplitude e.nm v s' = i) ∧
      exactDenominator e v = .ok 0 := by
  have hne : i ≠ 1 := by
    rintro rfl
    rw [one_mul] at hi
    apply h2
    rw [← one_add_one_eq_two]
    nth_rewrite 1 [hi]
    exact neg_add_cancel 1
  obtain ⟨t, -, hv, hel⟩ := vectorOn_set (d := 2) e he.inj (fun b : Bool => (if b then 1 else i, !b)) true 1 1
    (by decide)
  have hel : allElems (setWith (fun b : Bool => (if b then 1 else i, !b)) true t) = [1, i] := hel
  generalize setWith (fun b : Bool => (if b then 1 else i, !b)) true t = v at hv hel
  obtain ⟨s, hs⟩ := (hv.elems he.inj (a := 1)).1 (by rw [hel]; simp)
  obtain ⟨s', hs'⟩ := (hv.elems he.inj (a := i)).1 (by rw [hel]; simp)
  have hss : s ≠ s' := by
    rintro rfl
    exact hne (hs'.symm.trans hs)
  refine ⟨v, hv, ⟨s, s', hss, hs, hs'⟩, ?_⟩
  have huniv : (Finset.univ : Finset (SpinConfig 1 1 2)) = {s, s'} := by
    refine (Finset.eq_univ_of_card _ ?_).symm
    rw [Finset.card_pair hss]
    decide
  rw [C61_denominator he hv, overlap, huniv, Finset.sum_pair hss, hs, hs', hi, mul_one, add_neg_cancel, h0]

/-! ## An example -/

/-- Rational numbers, strings as names. -/
def exactEnv0 : ExactEnv String ℚ ℚ where
  ce := ⟨refGemm, ⟨⟨8, 32768, 1, 1⟩, fun _ _ => 5, fun _ => true⟩, ⟨⟨8, 32768, 1, 1⟩, fun _ _ => 6, fun _ => true⟩,
    ⟨⟨8, 32768, 1, 1⟩, fun _ _ => 7, fun _ => true⟩, fun _ _ => 8, fun _ _ => 9⟩
  cn := ⟨"Contract_0", "Contract_1", "Contract_2"⟩
  env := ⟨⟨8, 32768, 1, 1⟩, fun _ _ => 4, fun _ => true⟩
  junk := fun _ _ => 3
  nm := id
  abs := fun x => |x|
  ofReal := id
  re := id

theorem exactEnv0_ok : ExactEnvOk exactEnv0 := ⟨refGemm_ok, by decide, fun _ _ h => h⟩

theorem exactEnv0_modulus : ModulusOk exactEnv0 :=
  ⟨abs_nonneg, fun _ => abs_eq_zero, abs_mul, fun _ => rfl, fun _ _ => rfl, fun _ _ => rfl⟩

/-- An operator with equal elements. -/
theorem constant_operator (c : ℚ) : ∃ t : Tensor String NoSymmetry ℚ, OperatorOn 2 1 exactEnv0.nm t ∧
    ∀ a < 2, ∀ b < 2, matrixElement exactEnv0.nm t [a] [b] = c := by
  obtain ⟨t, -, h2, h3, h4, h5⟩ := dense_set (fun _ _ => (0 : ℚ)) (fun _ : Unit => (c, ())) ()
    (names := ["I0", "O0"]) (dims := [2, 2]) (by decide) rfl (by decide)
  generalize setWith (fun _ : Unit => (c, ())) () t = r at h2 h3 h4 h5
  have hI : leg r "I0" = some 2 := h4 0 (by decide)
  have hO : leg r "O0" = some 2 := h4 1 (by decide)
  have hin : inName exactEnv0.nm 0 = "I0" := by decide +kernel
  have hout : outName exactEnv0.nm 0 = "O0" := by decide +kernel
  refine ⟨r, ⟨h2, fun k hk => ?_, fun k hk => ?_, fun n hn => ?_⟩, fun a ha b hb => ?_⟩
  · obtain rfl : k = 0 := by omega
    rw [hin, hI]
  · obtain rfl : k = 0 := by omega
    rw [hout, hO]
  · rw [leg_ne_none, h3] at hn
    refine ⟨0, by decide, ?_⟩
    rw [hin, hout]
    simpa using hn
  · have : val r (spinIndex exactEnv0.nm [a] [b]) ∈ allElems r := by
      refine (dense_elems h2).2 ⟨_, fun n hn => ?_, rfl⟩
      rw [leg_ne_none, h3] at hn
      rcases (by simpa using hn : n = "I0" ∨ n = "O0") with rfl | rfl
      · rw [legDim, hI, ← hin, spinIndex_in (nm := exactEnv0.nm) (fun _ _ h => h) _ _ (Nat.one_pos)]
        exact ha
      · rw [legDim, hO, ← hout, spinIndex_out (nm := exactEnv0.nm) (fun _ _ h => h) _ _ (Nat.one_pos)]
        exact hb
    rw [h5] at this
    rw [matrixElement]
    simpa [outputs] using this

/-- An eigenvector on the lattice of one row and two columns: equal amplitudes and, at the first site, an
operator with equal elements. -/
theorem constant_eigenvector (c : ℚ) : ∃ v t : Tensor String NoSymmetry ℚ,
    VectorOn 1 2 2 exactEnv0.nm v ∧ TermsOk 1 2 2 exactEnv0.nm [([(0, 0)], t)] ∧
    LargestModulus exactEnv0 (amplitude (M := 1) (N := 2) (d := 2) exactEnv0.nm v) 1 ∧
    ∀ s : SpinConfig 1 2 2, hamiltonianOn exactEnv0.nm [([(0, 0)], t)] (amplitude exactEnv0.nm v) s =
      exactEnv0.ofReal (2 * c) * amplitude exactEnv0.nm v s := by
  obtain ⟨t, h1, h2⟩ := constant_operator c
  obtain ⟨T, -, hv, hel⟩ := vectorOn_set (d := 2) exactEnv0 exactEnv0_ok.inj (fun _ : Unit => ((1 : ℚ), ())) ()
    1 2 (by decide)
  generalize setWith (fun _ : Unit => ((1 : ℚ), ())) () T = v at hv hel
  have hone : ∀ s : SpinConfig 1 2 2, amplitude exactEnv0.nm v s = 1 := fun s => by
    have := (hv.elems exactEnv0_ok.inj).2 ⟨s, rfl⟩
    rw [hel] at this
    simpa [outputs] using this
  refine ⟨v, t, hv, ?_, ⟨⟨fun _ => 0, ?_⟩, ?_⟩, fun s => ?_⟩
  · intro x hx
    rw [List.mem_singleton] at hx
    subst hx
    exact ⟨by simp, h1⟩
  · show |amplitude exactEnv0.nm v _| = 1
    rw [hone, abs_one]
  · rintro _ ⟨s, rfl⟩
    show |amplitude exactEnv0.nm v s| ≤ 1
    rw [hone, abs_one]
  · have hm : ∀ s' s : SpinConfig 1 2 2, matrixElement exactEnv0.nm t (spinsAt s' [(0, 0)]) (spinsAt s [(0, 0)]) = c :=
      fun s' s => h2 _ (s' (0, 0)).isLt _ (s (0, 0)).isLt
    rw [hamiltonianOn, List.map_cons, List.map_nil, List.sum_cons, List.sum_nil, add_zero, actOn, hone, mul_one]
    show _ = 2 * c
    simp only [hone, hm, one_mul]
    rw [← Finset.sum_filter, Finset.sum_const, nsmul_eq_mul]
    congr 1
    have : ∀ s : SpinConfig 1 2 2, (Finset.univ.filter fun s' : SpinConfig 1 2 2 =>
      ∀ x, x ∉ ([(0, 0)] : List (LatticeSite 1 2)) → s' x = s x).card = 2 := by decide +kernel
    rw [this s]
    rfl

/-- The hypotheses of `C61_eigen`, with the energy below and above the approximate one: with `H = -1` for
all elements the energy `-1` for each site is found, with `H = 1` and the approximate energy `1/4` the value
is `-1/2` although the energy is `1`. -/
example (n : ℕ) :
    (∃ v t w, exactUpdate exactEnv0 1 2 (codeTerms (M := 1) (N := 2) [([(0, 0)], t)]) (n + 1) 1 v =
      .ok (-1, w)) ∧
    (∃ v t w, exactUpdate exactEnv0 1 2 (codeTerms (M := 1) (N := 2) [([(0, 0)], t)]) (n + 1) (1 / 4) v =
      .ok (-1 / 2, w)) := by
  constructor
  · obtain ⟨v, t, h1, h2, h3, h4⟩ := constant_eigenvector (-1)
    obtain ⟨w, h5, _⟩ := C61_eigen exactEnv0_ok exactEnv0_modulus h1 h2 1 (2 * -1) (by decide) n h3 h4 (by norm_num)
    refine ⟨v, t, w, h5.trans ?_⟩
    norm_num
  · obtain ⟨v, t, h1, h2, h3, h4⟩ := constant_eigenvector 1
    obtain ⟨w, h5, _⟩ := C61_eigen exactEnv0_ok exactEnv0_modulus h1 h2 (1 / 4) (2 * 1) (by decide) n h3 h4
      (by norm_num [abs_of_pos])
    refine ⟨v, t, w, h5.trans ?_⟩
    norm_num [abs_of_pos]

end TAT
