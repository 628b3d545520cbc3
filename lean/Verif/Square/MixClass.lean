import Verif.Square.MixLemmas

/-!
# Reversible chains on the places which can be reached
-/

namespace TAT

open Finset

variable {X : Type} [Fintype X] [DecidableEq X] {P : X → X → ℝ}

/-- Some number of steps leads from one place to another with positive probability. -/
def Leads (P : X → X → ℝ) (x y : X) : Prop := ∃ n, 0 < iterProb P n x y

/-- A chain on part of the places. -/
def restrict (P : X → X → ℝ) (D : X → Prop) (x y : {x // D x}) : ℝ := P x.1 y.1

section

variable {D : X → Prop} [DecidablePred D]

omit [DecidableEq X] in
theorem sum_restrict (f : X → ℝ) (h : ∀ y, ¬D y → f y = 0) : ∑ y, f y = ∑ y : {y // D y}, f y.1 := by
  classical
  rw [← sum_filter_add_sum_filter_not univ D f, sum_eq_zero (s := univ.filter fun y => ¬D y) fun y hy =>
    h y (mem_filter.1 hy).2, add_zero]
  exact (sum_subtype _ (fun y => by simp) f)

theorem iterProb_outside (hc : ∀ x y, D x → ¬D y → P x y = 0) (n : ℕ) {x y : X} (hx : D x) (hy : ¬D y) :
    iterProb P n x y = 0 := by
  induction n generalizing x with
  | zero => exact if_neg fun e : x = y => hy (e ▸ hx)
  | succ n ih =>
    refine sum_eq_zero fun z _ => ?_
    by_cases hz : D z
    · rw [ih hz, mul_zero]
    · rw [hc x z hx hz, zero_mul]

theorem iterProb_restrict (hc : ∀ x y, D x → ¬D y → P x y = 0) (n : ℕ) (x y : {x // D x}) :
    iterProb (restrict P D) n x y = iterProb P n x.1 y.1 := by
  induction n generalizing x with
  | zero =>
    by_cases e : x = y
    · rw [e, iterProb, iterProb, if_pos rfl, if_pos rfl]
    · rw [iterProb, iterProb, if_neg e, if_neg fun h => e (Subtype.ext h)]
  | succ n ih =>
    rw [iterProb, iterProb, sum_restrict (D := D) _ fun z hz => by rw [hc _ _ x.2 hz, zero_mul]]
    exact sum_congr rfl fun z _ => by rw [ih z]; rfl

omit [DecidableEq X] in
theorem chainMean_restrict (hc : ∀ x y, D x → ¬D y → P x y = 0) (n : ℕ) (F : List X → ℝ) (x : {x // D x}) :
    chainMean (restrict P D) n (fun l => F (l.map Subtype.val)) x = chainMean P n F x.1 := by
  induction n generalizing F x with
  | zero => rfl
  | succ n ih =>
    rw [chainMean, chainMean, sum_restrict (D := D) _ fun z hz => by rw [hc _ _ x.2 hz, zero_mul]]
    refine sum_congr rfl fun z _ => ?_
    rw [← ih (fun l => F (z.1 :: l)) z]
    rfl

end

/-- A chain in detailed balance with some weights; where the weight is positive the probabilities add up to one and
the chain can stay. -/
structure Reversible (P : X → X → ℝ) (w : X → ℝ) : Prop where
  nonneg : ∀ x y, 0 ≤ P x y
  weight : ∀ x, 0 ≤ w x
  balance : ∀ x y, w x * P x y = w y * P y x
  sum : ∀ x, 0 < w x → ∑ y, P x y = 1
  stay : ∀ x, 0 < w x → 0 < P x x

variable {w : X → ℝ}

theorem Reversible.leads_pos (h : Reversible P w) {c x : X} (hc : 0 < w c) (hx : Leads P c x) : 0 < w x := by
  obtain ⟨n, hn⟩ := hx
  have e := iterProb_balance h.balance n c x
  rcases (h.weight x).lt_or_eq with h1 | h1
  · exact h1
  · rw [← h1, zero_mul] at e
    exact absurd e (mul_pos hc hn).ne'

theorem Reversible.leads_symm (h : Reversible P w) {c x : X} (hc : 0 < w c) (hx : Leads P c x) :
    Leads P x c := by
  have hw := h.leads_pos hc hx
  obtain ⟨n, hn⟩ := hx
  refine ⟨n, ?_⟩
  have e := iterProb_balance h.balance n c x
  have := e ▸ mul_pos hc hn
  exact pos_of_mul_pos_right this hw.le

theorem Reversible.leads_trans (h : Reversible P w) {x y z : X} (h1 : Leads P x y) (h2 : Leads P y z) :
    Leads P x z := by
  obtain ⟨m, hm⟩ := h1
  obtain ⟨n, hn⟩ := h2
  refine ⟨m + n, ?_⟩
  rw [iterProb_add]
  exact lt_of_lt_of_le (mul_pos hm hn) (single_le_sum (f := fun y => iterProb P m x y * iterProb P n y z)
    (fun y _ => mul_nonneg (iterProb_nonneg h.nonneg _ _ _) (iterProb_nonneg h.nonneg _ _ _)) (mem_univ y))

theorem leads_self (c : X) : Leads P c c := ⟨0, by simp [iterProb]⟩

theorem Reversible.closed (h : Reversible P w) (c x y : X) (hx : Leads P c x) (hy : ¬Leads P c y) : P x y = 0 := by
  by_contra hne
  refine hy (h.leads_trans hx ⟨1, ?_⟩)
  rw [iterProb_one]
  exact lt_of_le_of_ne (h.nonneg _ _) (Ne.symm hne)

open Classical in
theorem Reversible.mixing (h : Reversible P w) {c : X} (hc : 0 < w c) : Mixing (restrict P (Leads P c)) where
  nonneg x y := h.nonneg _ _
  sum x := by
    rw [← h.sum x.1 (h.leads_pos hc x.2)]
    exact (sum_restrict _ fun y hy => h.closed c _ _ x.2 hy).symm
  stay x := h.stay _ (h.leads_pos hc x.2)
  reach x y := by
    obtain ⟨n, hn⟩ := h.leads_trans (h.leads_symm hc x.2) y.2
    refine ⟨n, ?_⟩
    rwa [iterProb_restrict (h.closed c)]

open Classical in
theorem Reversible.stationary (h : Reversible P w) {c : X} (hc : 0 < w c) (y : {x // Leads P c x}) :
    ∑ x : {x // Leads P c x}, w x.1 * restrict P (Leads P c) x y = w y.1 := by
  have : ∀ x : {x // Leads P c x}, w x.1 * restrict P (Leads P c) x y = w y.1 * restrict P (Leads P c) y x :=
    fun x => h.balance x.1 y.1
  rw [sum_congr rfl fun x _ => this x, ← mul_sum, (h.mixing hc).sum, mul_one]

open Classical in
/-- The sum of a function over the places which can be reached. -/
noncomputable def reachSum (P : X → X → ℝ) (c : X) (f : X → ℝ) : ℝ := ∑ x, if Leads P c x then f x else 0

open Classical in
theorem reachSum_eq (P : X → X → ℝ) (c : X) (f : X → ℝ) :
    reachSum P c f = ∑ x : {x // Leads P c x}, f x.1 := by
  rw [reachSum, sum_restrict (D := Leads P c) _ fun y hy => if_neg hy]
  exact sum_congr rfl fun x _ => if_pos x.2

open Classical in
theorem Reversible.total_pos (h : Reversible P w) {c : X} (hc : 0 < w c) : 0 < reachSum P c w := by
  rw [reachSum]
  refine lt_of_lt_of_le hc (le_trans (le_of_eq (if_pos (leads_self c)).symm)
    (single_le_sum (f := fun x => if Leads P c x then w x else 0) (fun x _ => ?_) (mem_univ c)))
  split
  · exact h.weight x
  · exact le_rfl

open Classical in
/-- The chain tends to the weights of the places which can be reached. -/
theorem Reversible.limit (h : Reversible P w) {c : X} (hc : 0 < w c) (x : X) :
    Filter.Tendsto (fun n => iterProb P n c x) Filter.atTop
      (nhds (if Leads P c x then w x / reachSum P c w else 0)) := by
  by_cases hx : Leads P c x
  · rw [if_pos hx, reachSum_eq]
    have := iterProb_tendsto (h.mixing hc) (w := fun x : {x // Leads P c x} => w x.1) (fun x => h.weight _)
      (by rw [← reachSum_eq]; exact h.total_pos hc) (h.stationary hc) ⟨c, leads_self c⟩ ⟨x, hx⟩
    simpa only [iterProb_restrict (h.closed c)] using this
  · rw [if_neg hx]
    simp only [iterProb_outside (D := Leads P c) (h.closed c) _ (leads_self c) hx]
    exact tendsto_const_nhds

/-- The mean over the steps tends to the mean over the weights of the places which can be reached. -/
theorem Reversible.deviation (h : Reversible P w) {c : X} (hc : 0 < w c) (f : X → ℝ) :
    ∃ K, ∀ n, 0 < n → chainMean P n
      (fun l => (meanOver l f - reachSum P c (fun x => w x * f x) / reachSum P c w) ^ 2) c ≤ K / n := by
  classical
  have : Nonempty {x // Leads P c x} := ⟨⟨c, leads_self c⟩⟩
  obtain ⟨K, hK⟩ := chainMean_deviation (h.mixing hc) (w := fun x : {x // Leads P c x} => w x.1)
    (fun x => h.weight _) (by rw [← reachSum_eq]; exact h.total_pos hc) (h.stationary hc) fun x => f x.1
  refine ⟨K, fun n hn => ?_⟩
  have := hK n ⟨c, leads_self c⟩ hn
  rw [← chainMean_restrict (D := Leads P c) (h.closed c) n _ ⟨c, leads_self c⟩, reachSum_eq, reachSum_eq]
  refine le_trans (le_of_eq (chainMean_congr n (fun l _ => ?_) _)) this
  rw [meanOver, meanOver, List.map_map, List.length_map]
  rfl

end TAT
