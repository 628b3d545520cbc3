import Verif.Square.GradSpec
import Mathlib.Algebra.BigOperators.Field
import Mathlib.Algebra.Order.BigOperators.Group.Finset
import Mathlib.Algebra.Order.Field.Basic
import Mathlib.Data.Real.Basic
import Mathlib.Data.Fintype.Order
import Mathlib.Tactic.Linarith
import Mathlib.Tactic.Ring
import Mathlib.Analysis.SpecificLimits.Basic

/-!
# Lemmas about finite Markov chains

`iterProb P n x y` is the probability to be at `y` after `n` steps from `x`, `chainMean P n F x` the mean of a
function of the places after every step.  A chain which can stay everywhere and come from everywhere to everywhere
forgets its start at an exponential rate, and the mean of a function over `n` steps deviates in square by `O(1/n)`.
-/

namespace TAT

open Finset

variable {X : Type} [Fintype X]

/-- The probability that `n` steps lead from one place to another. -/
def iterProb [DecidableEq X] (P : X → X → ℝ) : ℕ → X → X → ℝ
  | 0, x, y => if x = y then 1 else 0
  | n + 1, x, y => ∑ z, P x z * iterProb P n z y

/-- The mean of a function of the places after every one of `n` steps. -/
def chainMean (P : X → X → ℝ) : ℕ → (List X → ℝ) → X → ℝ
  | 0, F, _ => F []
  | n + 1, F, x => ∑ y, P x y * chainMean P n (fun l => F (y :: l)) y

/-- The mean of a function after one step. -/
def stepMean (P : X → X → ℝ) (f : X → ℝ) (x : X) : ℝ := ∑ y, P x y * f y

/-- The mean of a function after `n` steps. -/
def iterMean (P : X → X → ℝ) (f : X → ℝ) : ℕ → X → ℝ
  | 0 => f
  | n + 1 => stepMean P (iterMean P f n)

/-- A stochastic matrix. -/
structure Stochastic (P : X → X → ℝ) : Prop where
  nonneg : ∀ x y, 0 ≤ P x y
  sum : ∀ x, ∑ y, P x y = 1

section

variable {P : X → X → ℝ}

theorem iterProb_nonneg [DecidableEq X] (hP : ∀ x y, 0 ≤ P x y) (n : ℕ) (x y : X) : 0 ≤ iterProb P n x y := by
  induction n generalizing x with
  | zero => rw [iterProb]; split <;> norm_num
  | succ n ih => exact sum_nonneg fun z _ => mul_nonneg (hP _ _) (ih _)

theorem iterProb_add [DecidableEq X] (m n : ℕ) (x y : X) :
    iterProb P (m + n) x y = ∑ z, iterProb P m x z * iterProb P n z y := by
  induction m generalizing x with
  | zero => simp [iterProb]
  | succ m ih =>
    rw [Nat.succ_add, iterProb]
    simp only [ih, iterProb, sum_mul, mul_sum]
    rw [sum_comm]
    simp only [mul_assoc]

theorem iterProb_one [DecidableEq X] (x y : X) : iterProb P 1 x y = P x y := by simp [iterProb]

theorem iterProb_sum [DecidableEq X] (hP : Stochastic P) (n : ℕ) (x : X) : ∑ y, iterProb P n x y = 1 := by
  induction n generalizing x with
  | zero => simp [iterProb]
  | succ n ih =>
    simp only [iterProb]
    rw [sum_comm]
    simp only [← mul_sum, ih, mul_one, hP.sum]

theorem iterMean_eq [DecidableEq X] (f : X → ℝ) (n : ℕ) (x : X) : iterMean P f n x = ∑ y, iterProb P n x y * f y := by
  induction n generalizing x with
  | zero => simp [iterMean, iterProb]
  | succ n ih =>
    rw [iterMean, stepMean]
    simp only [ih, iterProb, sum_mul, mul_sum]
    rw [sum_comm]
    simp only [mul_assoc]

theorem iterMean_add [DecidableEq X] (f : X → ℝ) (m n : ℕ) (x : X) :
    iterMean P f (m + n) x = ∑ y, iterProb P m x y * iterMean P f n y := by
  simp only [iterMean_eq, iterProb_add, sum_mul, mul_sum]
  rw [sum_comm]
  simp only [mul_assoc]

/-- Reversible chains are reversible over many steps. -/
theorem iterProb_balance [DecidableEq X] {w : X → ℝ} (h : ∀ x y, w x * P x y = w y * P y x) (n : ℕ) (x y : X) :
    w x * iterProb P n x y = w y * iterProb P n y x := by
  induction n generalizing x y with
  | zero =>
    by_cases e : x = y
    · rw [e]
    · simp [iterProb, e, Ne.symm e]
  | succ n ih =>
    rw [Nat.add_comm n 1, iterProb_add, Nat.add_comm 1 n, iterProb_add, mul_sum, mul_sum]
    refine sum_congr rfl fun z _ => ?_
    rw [iterProb_one, iterProb_one, ← mul_assoc, h, ← mul_assoc, ← ih z y, mul_right_comm, mul_right_comm]

/-! ## The chain forgets where it started -/

/-- All values are in an interval of some width. -/
def Within (f : X → ℝ) (a o : ℝ) : Prop := ∀ x, a ≤ f x ∧ f x ≤ a + o

theorem stepMean_within (hP : Stochastic P) {f : X → ℝ} {a o : ℝ} (h : Within f a o) : Within (stepMean P f) a o := by
  intro x
  constructor
  · calc a = ∑ y, P x y * a := by rw [← sum_mul, hP.sum, one_mul]
      _ ≤ _ := sum_le_sum fun y _ => mul_le_mul_of_nonneg_left (h y).1 (hP.nonneg _ _)
  · calc _ ≤ ∑ y, P x y * (a + o) := sum_le_sum fun y _ => mul_le_mul_of_nonneg_left (h y).2 (hP.nonneg _ _)
      _ = a + o := by rw [← sum_mul, hP.sum, one_mul]

/-- If every place is reached with probability at least `δ`, the width shrinks. -/
theorem stepMean_shrink [Nonempty X] (hP : Stochastic P) {δ : ℝ} (hδ : ∀ x y, δ ≤ P x y) {f : X → ℝ} {a o : ℝ}
    (h : Within f a o) : ∃ a', Within (stepMean P f) a' ((1 - δ) * o) := by
  obtain ⟨m, hm⟩ := Finite.exists_min f
  obtain ⟨M, hM⟩ := Finite.exists_max f
  have ho : f M - f m ≤ o := by linarith [(h M).2, (h m).1]
  have hne : ∀ x y, 0 ≤ P x y := hP.nonneg
  by_cases hδ0 : δ < 0
  · refine ⟨a, fun x => ⟨(stepMean_within hP h x).1, (stepMean_within hP h x).2.trans ?_⟩⟩
    have : 0 ≤ o := by linarith [hM m]
    nlinarith
  push Not at hδ0
  have hδ1 : δ ≤ 1 := by
    obtain ⟨x⟩ := ‹Nonempty X›
    calc δ ≤ P x x := hδ x x
      _ ≤ ∑ y, P x y := single_le_sum (fun y _ => hne x y) (mem_univ x)
      _ = 1 := hP.sum x
  have up : ∀ x, stepMean P f x ≤ f M - δ * (f M - f m) := by
    intro x
    have e : stepMean P f x = f M - ∑ y, P x y * (f M - f y) := by
      simp only [mul_sub, sum_sub_distrib, ← sum_mul, hP.sum, one_mul, stepMean]
      ring
    have : P x m * (f M - f m) ≤ ∑ y, P x y * (f M - f y) :=
      single_le_sum (f := fun y => P x y * (f M - f y))
        (fun y _ => mul_nonneg (hne x y) (by linarith [hM y])) (mem_univ m)
    have : δ * (f M - f m) ≤ P x m * (f M - f m) :=
      mul_le_mul_of_nonneg_right (hδ x m) (by linarith [hM m])
    linarith
  have dn : ∀ x, f m ≤ stepMean P f x := by
    intro x
    have := (stepMean_within hP (f := f) (a := f m) (o := f M - f m)
      (fun y => ⟨hm y, by linarith [hM y]⟩) x).1
    exact this
  refine ⟨f m, fun x => ⟨dn x, (up x).trans ?_⟩⟩
  have : (1 - δ) * (f M - f m) ≤ (1 - δ) * o := mul_le_mul_of_nonneg_left ho (by linarith)
  linarith

/-- A chain which mixes: from everywhere to everywhere, and it can stay. -/
structure Mixing [DecidableEq X] (P : X → X → ℝ) : Prop extends Stochastic P where
  stay : ∀ x, 0 < P x x
  reach : ∀ x y, ∃ n, 0 < iterProb P n x y

theorem Mixing.reach_le [DecidableEq X] (hP : Mixing P) {n : ℕ} {x y : X} (h : 0 < iterProb P n x y) {m : ℕ}
    (hm : n ≤ m) : 0 < iterProb P m x y := by
  induction m, hm using Nat.le_induction with
  | base => exact h
  | succ m _ ih =>
    rw [iterProb_add]
    refine lt_of_lt_of_le (mul_pos ih ?_) (single_le_sum (f := fun z => iterProb P m x z * iterProb P 1 z y)
      (fun z _ => mul_nonneg (iterProb_nonneg hP.nonneg _ _ _) (iterProb_nonneg hP.nonneg _ _ _)) (mem_univ y))
    rw [iterProb_one]
    exact hP.stay y

theorem Mixing.uniform [DecidableEq X] [Nonempty X] (hP : Mixing P) :
    ∃ (N : ℕ) (δ : ℝ), 0 < N ∧ 0 < δ ∧ δ ≤ 1 ∧ ∀ x y, δ ≤ iterProb P N x y := by
  choose n hn using hP.reach
  obtain ⟨N, hN⟩ : ∃ N, ∀ p : X × X, n p.1 p.2 ≤ N := by
    obtain ⟨p, hp⟩ := Finite.exists_max fun p : X × X => n p.1 p.2
    exact ⟨_, hp⟩
  have pos : ∀ x y, 0 < iterProb P (N + 1) x y := fun x y => hP.reach_le (hn x y) ((hN (x, y)).trans (Nat.le_succ _))
  obtain ⟨q, hq⟩ := Finite.exists_min fun p : X × X => iterProb P (N + 1) p.1 p.2
  refine ⟨N + 1, iterProb P (N + 1) q.1 q.2, by omega, pos _ _, ?_, fun x y => hq (x, y)⟩
  calc _ ≤ ∑ y, iterProb P (N + 1) q.1 y :=
        single_le_sum (f := fun y => iterProb P (N + 1) q.1 y) (fun y _ => iterProb_nonneg hP.nonneg _ _ _) (mem_univ q.2)
    _ = 1 := iterProb_sum hP.toStochastic _ _

/-- A sequence which does not grow and shrinks by a factor every `N` steps has bounded sums. -/
theorem sum_bounded {o : ℕ → ℝ} {N : ℕ} {δ : ℝ} (hN : 0 < N) (hδ : 0 < δ) (hδ1 : δ ≤ 1) (h0 : ∀ n, 0 ≤ o n)
    (h1 : ∀ n, o n ≤ o 0) (h2 : ∀ n, o (N + n) ≤ (1 - δ) * o n) (n : ℕ) : ∑ k ∈ range n, o k ≤ N * o 0 / δ := by
  induction n using Nat.strong_induction_on with
  | _ n ih =>
    by_cases hn : n < N
    · calc _ ≤ ∑ k ∈ range n, o 0 := sum_le_sum fun k _ => h1 k
        _ = n * o 0 := by simp
        _ ≤ N * o 0 := mul_le_mul_of_nonneg_right (by exact_mod_cast hn.le) (h0 0)
        _ ≤ N * o 0 / δ := by
          rw [le_div_iff₀ hδ]
          exact mul_le_of_le_one_right (mul_nonneg (Nat.cast_nonneg _) (h0 0)) hδ1
    · obtain ⟨m, rfl⟩ := Nat.exists_eq_add_of_le (not_lt.1 hn)
      rw [sum_range_add]
      have a1 : ∑ k ∈ range N, o k ≤ N * o 0 := by
        calc _ ≤ ∑ k ∈ range N, o 0 := sum_le_sum fun k _ => h1 k
          _ = N * o 0 := by simp
      have a2 : ∑ k ∈ range m, o (N + k) ≤ (1 - δ) * ∑ k ∈ range m, o k := by
        rw [mul_sum]
        exact sum_le_sum fun k _ => h2 k
      have a3 : (1 - δ) * ∑ k ∈ range m, o k ≤ (1 - δ) * (N * o 0 / δ) :=
        mul_le_mul_of_nonneg_left (ih m (by omega)) (by linarith)
      have a4 : N * o 0 + (1 - δ) * (N * o 0 / δ) = N * o 0 / δ := by
        field_simp
        ring
      linarith

/-- The bound of the deviations: it falls by a factor every `N` steps. -/
noncomputable def widthAt (N : ℕ) (δ o : ℝ) (n : ℕ) : ℝ := (1 - δ) ^ (n / N) * o

theorem iterMean_within [DecidableEq X] [Nonempty X] (hP : Stochastic P) {N : ℕ} {δ : ℝ} (hN : 0 < N)
    (hδ : ∀ x y, δ ≤ iterProb P N x y) {f : X → ℝ} {a o : ℝ} (h : Within f a o) (n : ℕ) :
    ∃ a', Within (iterMean P f n) a' (widthAt N δ o n) := by
  induction n using Nat.strong_induction_on with
  | _ n ih =>
    by_cases hn : n < N
    · rw [widthAt, Nat.div_eq_of_lt hn, pow_zero, one_mul]
      have : ∀ m, Within (iterMean P f m) a o := by
        intro m
        induction m with
        | zero => exact h
        | succ m im => exact stepMean_within hP im
      exact ⟨a, this n⟩
    · obtain ⟨m, rfl⟩ := Nat.exists_eq_add_of_le (not_lt.1 hn)
      obtain ⟨a', ha'⟩ := ih m (by omega)
      have hS : Stochastic (iterProb P N) := ⟨iterProb_nonneg hP.nonneg N, iterProb_sum hP N⟩
      obtain ⟨a'', ha''⟩ := stepMean_shrink hS hδ ha'
      refine ⟨a'', fun x => ?_⟩
      have := ha'' x
      rw [iterMean_add]
      rw [widthAt, Nat.add_div_left _ hN, pow_succ]
      rw [widthAt, ← mul_assoc, mul_comm (1 - δ)] at this
      exact this

/-- The mean over the stationary distribution. -/
theorem iterMean_stationary {w : X → ℝ} (h : ∀ y, ∑ x, w x * P x y = w y) (f : X → ℝ) (n : ℕ) :
    ∑ x, w x * iterMean P f n x = ∑ x, w x * f x := by
  induction n with
  | zero => rfl
  | succ n ih =>
    rw [← ih]
    simp only [iterMean, stepMean, mul_sum]
    rw [sum_comm]
    refine sum_congr rfl fun y _ => ?_
    rw [← h y, sum_mul]
    simp only [mul_assoc]

theorem iterMean_near [DecidableEq X] [Nonempty X] (hP : Stochastic P) {N : ℕ} {δ : ℝ} (hN : 0 < N)
    (hδ : ∀ x y, δ ≤ iterProb P N x y) {w : X → ℝ} (hw : ∀ x, 0 ≤ w x) (hZ : 0 < ∑ x, w x)
    (hs : ∀ y, ∑ x, w x * P x y = w y) {f : X → ℝ} {a o : ℝ} (h : Within f a o) (n : ℕ) (x : X) :
    |iterMean P f n x - (∑ y, w y * f y) / ∑ y, w y| ≤ widthAt N δ o n := by
  obtain ⟨a', ha'⟩ := iterMean_within hP hN hδ h n
  have e := iterMean_stationary hs f n
  have l1 : a' ≤ (∑ y, w y * f y) / ∑ y, w y := by
    rw [le_div_iff₀ hZ, ← e, mul_comm, sum_mul]
    exact sum_le_sum fun y _ => mul_le_mul_of_nonneg_left (ha' y).1 (hw y)
  have l2 : (∑ y, w y * f y) / ∑ y, w y ≤ a' + widthAt N δ o n := by
    rw [div_le_iff₀ hZ, ← e, mul_comm, sum_mul]
    exact sum_le_sum fun y _ => mul_le_mul_of_nonneg_left (ha' y).2 (hw y)
  rw [abs_le]
  constructor <;> linarith [(ha' x).1, (ha' x).2]

theorem widthAt_tendsto {N : ℕ} {δ : ℝ} (hN : 0 < N) (h0 : 0 < δ) (h1 : δ ≤ 1) (o : ℝ) :
    Filter.Tendsto (widthAt N δ o) Filter.atTop (nhds 0) := by
  have t1 : Filter.Tendsto (fun n : ℕ => n / N) Filter.atTop Filter.atTop :=
    Filter.tendsto_atTop.2 fun b => Filter.eventually_atTop.2 ⟨N * b, fun n hn => by
      rw [Nat.le_div_iff_mul_le hN, mul_comm]; exact hn⟩
  have t2 := (tendsto_pow_atTop_nhds_zero_of_lt_one (r := 1 - δ) (by linarith) (by linarith)).comp t1
  have := t2.mul_const o
  rw [zero_mul] at this
  exact this

/-- **The chain forgets its start.** -/
theorem iterProb_tendsto [DecidableEq X] (hP : Mixing P) {w : X → ℝ} (hw : ∀ x, 0 ≤ w x) (hZ : 0 < ∑ x, w x)
    (hs : ∀ y, ∑ x, w x * P x y = w y) (x y : X) :
    Filter.Tendsto (fun n => iterProb P n x y) Filter.atTop (nhds (w y / ∑ z, w z)) := by
  have : Nonempty X := ⟨x⟩
  obtain ⟨N, δ, hN, h0, h1, hδ⟩ := hP.uniform
  obtain ⟨f, hf⟩ : ∃ f : X → ℝ, f = fun z => if z = y then 1 else 0 := ⟨_, rfl⟩
  have hW : Within f 0 1 := by
    intro z
    rw [hf]
    dsimp only
    split <;> norm_num
  have e1 : ∀ n, iterMean P f n x = iterProb P n x y := by
    intro n
    rw [iterMean_eq, hf]
    simp
  have e2 : ∑ z, w z * f z = w y := by
    rw [hf]
    simp
  rw [tendsto_iff_dist_tendsto_zero]
  refine squeeze_zero (fun n => dist_nonneg) (fun n => ?_) (widthAt_tendsto hN h0 h1 1)
  have := iterMean_near hP.toStochastic hN hδ hw hZ hs hW n x
  rwa [e1, e2] at this

/-! ## Means over the steps -/

theorem chainMean_congr (n : ℕ) {F G : List X → ℝ} (h : ∀ l, l.length = n → F l = G l) (x : X) :
    chainMean P n F x = chainMean P n G x := by
  induction n generalizing F G x with
  | zero => exact h [] rfl
  | succ n ih =>
    exact sum_congr rfl fun y _ => congrArg _ (ih (fun l hl => h (y :: l) (by simp [hl])) y)

theorem chainMean_const (hP : Stochastic P) (n : ℕ) (a : ℝ) (x : X) : chainMean P n (fun _ => a) x = a := by
  induction n generalizing x with
  | zero => rfl
  | succ n ih => simp only [chainMean, ih, ← sum_mul, hP.sum, one_mul]

theorem chainMean_add (n : ℕ) (F G : List X → ℝ) (x : X) :
    chainMean P n (fun l => F l + G l) x = chainMean P n F x + chainMean P n G x := by
  induction n generalizing F G x with
  | zero => rfl
  | succ n ih => simp only [chainMean, ih, mul_add, sum_add_distrib]

theorem chainMean_smul (n : ℕ) (a : ℝ) (F : List X → ℝ) (x : X) :
    chainMean P n (fun l => a * F l) x = a * chainMean P n F x := by
  induction n generalizing F x with
  | zero => rfl
  | succ n ih =>
    simp only [chainMean, ih, mul_sum]
    exact sum_congr rfl fun y _ => by ring

theorem stepMean_add (f g : X → ℝ) (x : X) :
    stepMean P (fun y => f y + g y) x = stepMean P f x + stepMean P g x := by
  simp only [stepMean, mul_add, sum_add_distrib]

theorem stepMean_sum {ι : Type} (s : Finset ι) (f : ι → X → ℝ) (x : X) :
    stepMean P (fun y => ∑ i ∈ s, f i y) x = ∑ i ∈ s, stepMean P (f i) x := by
  simp only [stepMean, mul_sum]
  rw [sum_comm]

/-- The mean of a sum over the steps. -/
theorem chainMean_sum (hP : Stochastic P) (g : X → ℝ) (n : ℕ) (x : X) :
    chainMean P n (fun l => (l.map g).sum) x = ∑ k ∈ range n, iterMean P g (k + 1) x := by
  induction n generalizing x with
  | zero => rfl
  | succ n ih =>
    rw [sum_range_succ']
    simp only [chainMean, List.map_cons, List.sum_cons]
    have : ∀ y, chainMean P n (fun l => g y + (l.map g).sum) y = g y + ∑ k ∈ range n, iterMean P g (k + 1) y := by
      intro y
      rw [chainMean_add, chainMean_const hP, ih]
    simp only [this]
    refine (stepMean_add g _ x).trans ?_
    rw [stepMean_sum, add_comm]
    rfl

/-- The mean of the square of a sum over the steps grows at most linearly. -/
theorem chainMean_square [DecidableEq X] [Nonempty X] (hP : Mixing P) {w : X → ℝ} (hw : ∀ x, 0 ≤ w x)
    (hZ : 0 < ∑ x, w x) (hs : ∀ y, ∑ x, w x * P x y = w y) (g : X → ℝ) (hg : ∑ x, w x * g x = 0) :
    ∃ K, ∀ n x, chainMean P n (fun l => (l.map g).sum ^ 2) x ≤ n * K := by
  obtain ⟨N, δ, hN, h0, h1, hδ⟩ := hP.uniform
  obtain ⟨m, hm⟩ := Finite.exists_min g
  obtain ⟨M, hM⟩ := Finite.exists_max g
  obtain ⟨o, ho⟩ : ∃ o, o = g M - g m := ⟨_, rfl⟩
  have hW : Within g (g m) o := fun x => ⟨hm x, by rw [ho]; linarith [hM x]⟩
  have ho0 : 0 ≤ o := by rw [ho]; linarith [hM m]
  have near : ∀ n x, |iterMean P g n x| ≤ widthAt N δ o n := by
    intro n x
    have := iterMean_near hP.toStochastic hN hδ hw hZ hs hW n x
    rwa [hg, zero_div, sub_zero] at this
  have hd : 0 ≤ 1 - δ := by linarith
  have w0 : ∀ n, 0 ≤ widthAt N δ o n := fun n => mul_nonneg (pow_nonneg hd _) ho0
  have w00 : widthAt N δ o 0 = o := by simp [widthAt]
  have w1 : ∀ n, widthAt N δ o n ≤ widthAt N δ o 0 := by
    intro n
    rw [w00]
    exact mul_le_of_le_one_left ho0 (pow_le_one₀ hd (by linarith))
  have w2 : ∀ n, widthAt N δ o (N + n) ≤ (1 - δ) * widthAt N δ o n := by
    intro n
    rw [widthAt, widthAt, Nat.add_div_left _ hN, pow_succ, ← mul_assoc, mul_comm (1 - δ)]
  obtain ⟨B, hB⟩ : ∃ B, B = N * o / δ := ⟨_, rfl⟩
  have hsum : ∀ n x, |chainMean P n (fun l => (l.map g).sum) x| ≤ B := by
    intro n x
    rw [chainMean_sum hP.toStochastic, hB]
    have h3 := sum_bounded hN h0 h1 w0 w1 w2 (n + 1)
    rw [w00, sum_range_succ'] at h3
    calc _ ≤ ∑ k ∈ range n, |iterMean P g (k + 1) x| := abs_sum_le_sum_abs _ _
      _ ≤ ∑ k ∈ range n, widthAt N δ o (k + 1) := sum_le_sum fun k _ => near _ _
      _ ≤ _ := by linarith [w0 0]
  have gabs : ∀ x, |g x| ≤ o := fun x => by
    have := near 0 x
    rwa [w00] at this
  have hB0 : 0 ≤ B := (abs_nonneg _).trans (hsum 0 (Classical.arbitrary X))
  refine ⟨o * o + 2 * (o * B), fun n => ?_⟩
  induction n with
  | zero =>
    intro x
    simp [chainMean]
  | succ n ih =>
    intro x
    have one : ∀ y, chainMean P n (fun l => ((y :: l).map g).sum ^ 2) y ≤ (n + 1 : ℕ) * (o * o + 2 * (o * B)) := by
      intro y
      have e : (fun l : List X => ((y :: l).map g).sum ^ 2) =
          fun l => g y * g y + (2 * g y * (l.map g).sum + (l.map g).sum ^ 2) := by
        funext l
        rw [List.map_cons, List.sum_cons]
        ring
      rw [e, chainMean_add, chainMean_add, chainMean_const hP.toStochastic, chainMean_smul]
      have b1 : g y * g y ≤ o * o := by
        rw [← abs_mul_abs_self]
        exact mul_self_le_mul_self (abs_nonneg _) (gabs y)
      have b2 : 2 * g y * chainMean P n (fun l => (l.map g).sum) y ≤ 2 * (o * B) := by
        rw [mul_assoc]
        refine mul_le_mul_of_nonneg_left ?_ (by norm_num)
        refine (le_abs_self _).trans ?_
        rw [abs_mul]
        exact mul_le_mul (gabs y) (hsum n y) (abs_nonneg _) ho0
      have b3 := ih y
      push_cast
      linarith
    calc _ ≤ ∑ y, P x y * ((n + 1 : ℕ) * (o * o + 2 * (o * B))) :=
          sum_le_sum fun y _ => mul_le_mul_of_nonneg_left (one y) (hP.nonneg _ _)
      _ = _ := by rw [← sum_mul, hP.sum, one_mul]

/-- **The mean over the steps tends to the mean over the stationary distribution**, in square and like `1 / n`. -/
theorem chainMean_deviation [DecidableEq X] [Nonempty X] (hP : Mixing P) {w : X → ℝ} (hw : ∀ x, 0 ≤ w x)
    (hZ : 0 < ∑ x, w x) (hs : ∀ y, ∑ x, w x * P x y = w y) (f : X → ℝ) :
    ∃ K, ∀ n x, 0 < n →
      chainMean P n (fun l => (meanOver l f - (∑ y, w y * f y) / ∑ y, w y) ^ 2) x ≤ K / n := by
  obtain ⟨μ, hμ⟩ : ∃ μ, μ = (∑ y, w y * f y) / ∑ y, w y := ⟨_, rfl⟩
  obtain ⟨K, hK⟩ := chainMean_square hP hw hZ hs (fun x => f x - μ) (by
    simp only [mul_sub, sum_sub_distrib, ← sum_mul]
    rw [hμ, mul_div_cancel₀ _ hZ.ne', sub_self])
  refine ⟨K, fun n x hn => ?_⟩
  rw [← hμ]
  have hn' : (n : ℝ) ≠ 0 := by exact_mod_cast hn.ne'
  have e : chainMean P n (fun l => (meanOver l f - μ) ^ 2) x =
      chainMean P n (fun l => 1 / (n : ℝ) ^ 2 * (l.map fun x => f x - μ).sum ^ 2) x := by
    refine chainMean_congr n (fun l hl => ?_) x
    have : (l.map fun x => f x - μ).sum = (l.map f).sum - n * μ := by
      rw [← hl]
      clear hl
      induction l with
      | nil => simp
      | cons a l ih =>
        rw [List.map_cons, List.sum_cons, ih, List.map_cons, List.sum_cons, List.length_cons]
        push_cast
        ring
    rw [this, meanOver, hl]
    field_simp
  rw [e, chainMean_smul]
  have hpos : (0 : ℝ) < n := by exact_mod_cast hn
  calc _ ≤ 1 / (n : ℝ) ^ 2 * (n * K) := mul_le_mul_of_nonneg_left (hK n x) (by positivity)
    _ = K / n := by field_simp

end

end TAT
