import Verif.Torus.Steps

/-!
# Helper lemmas: `two_line_to_one_line` of `examples/tools.hpp` for lines that end in edges
-/

namespace TAT.Torus

open TAT.Grid (IsSite sides GridEnvOk freeNames namesOf Names products canonical truncated)

set_option linter.unusedSectionVars false
set_option linter.unusedSimpArgs false

variable {ν α β : Type} [LinearOrder ν] [Field α] [LinearOrder β] [Zero β] {e : AuxEnv ν α β}

/-- The edges between two sites: without suffix, and with the suffixes `_1` and `_2`. -/
abbrev Bd := Option ℕ × Option ℕ × Option ℕ

/-- Their indices. -/
abbrev Idx := ℕ × ℕ × ℕ

def fullB (a b : Bd) (u d : Option ℕ) : Leg → Option ℕ := full a.1 a.2.1 a.2.2 b.1 b.2.1 b.2.2 u d

/-- The element. -/
noncomputable def elemB (e : AuxEnv ν α β) (t : Tensor ν NoSymmetry α) (x w : Idx) (z y : ℕ) : α :=
  fval e t x.1 x.2.1 x.2.2 w.1 w.2.1 w.2.2 z y

def rng (b : Bd) : Finset Idx :=
  Finset.range (bondDim b.1) ×ˢ Finset.range (bondDim b.2.1) ×ˢ Finset.range (bondDim b.2.2)

theorem sum_plain (a : Option ℕ) (f : Idx → α) :
    ∑ k ∈ rng (a, none, none), f k = ∑ k ∈ Finset.range (bondDim a), f (k, 0, 0) := by
  simp only [rng, Finset.sum_product, bondDim, Option.getD_none, Finset.sum_range_one]

theorem sum_double (a b : Option ℕ) (f : Idx → α) : ∑ k ∈ rng (none, a, b), f k =
    ∑ k1 ∈ Finset.range (bondDim a), ∑ k2 ∈ Finset.range (bondDim b), f (0, k1, k2) := by
  simp only [rng, Finset.sum_product, bondDim, Option.getD_none, Finset.sum_range_one]

/-- A line, with the edges on its left and right, those above and below, and its value for given indices of these.
The edges between the sites are as `Q` says. -/
inductive Chain (e : AuxEnv ν α β) (Q : Bd → Prop) : List (Tensor ν NoSymmetry α) → Bd → Bd → List (Option ℕ) →
    List (Option ℕ) → (Idx → Idx → (ℕ → ℕ) → (ℕ → ℕ) → α) → Prop
  | one {t a b u d} : HasLegs (ringName e) t (fullB a b u d) →
      Chain e Q [t] a b [u] [d] fun x w z y => elemB e t x w (z 0) (y 0)
  | cons {t a b c u d l us ds V} : Q b → HasLegs (ringName e) t (fullB a b u d) → Chain e Q l b c us ds V →
      Chain e Q (t :: l) a c (u :: us) (d :: ds) fun x w z y =>
        ∑ k ∈ rng b, elemB e t x k (z 0) (y 0) * V k w (tailIdx z) (tailIdx y)

/-- One edge. -/
def Plain (b : Bd) : Prop := ∃ k, b = (some k, none, none)

/-- The two edges of a double line. -/
def Double (b : Bd) : Prop := ∃ p q, b = (none, p, q)

theorem products_chain (he : LinesEnvOk e) {l1 l2 : List (Tensor ν NoSymmetry α)} {A B : Bd} {a1 a2 b1 b2 : Option ℕ}
    {us zs ds : List (Option ℕ)} {V1 V2 : Idx → Idx → (ℕ → ℕ) → (ℕ → ℕ) → α}
    (h1 : Chain e Plain l1 A B us zs V1) (hA : A = (a1, none, none)) (hB : B = (b1, none, none))
    (h2 : Chain e Plain l2 (a2, none, none) (b2, none, none) zs ds V2) :
    ∃ l V, products e nn l1 l2 = .ok l ∧ Chain e Double l (none, a1, a2) (none, b1, b2) us ds V ∧
      ∀ x1 x2 w1 w2 z y, V (0, x1, x2) (0, w1, w2) z y = ∑ q ∈ indices (zs.map bondDim),
        V1 (x1, 0, 0) (w1, 0, 0) z q * V2 (x2, 0, 0) (w2, 0, 0) q y := by
  induction h1 generalizing l2 a1 a2 ds V2 with
  | @one t1 a b u d ht =>
    subst hA hB
    cases h2 with
    | @one t2 _ _ _ d2 ht2 =>
      obtain ⟨t, d1, d2, d3⟩ := ring_double he.grid (by exact ht) (by exact ht2)
      refine ⟨[t], _, ?_, .one (a := (none, a1, a2)) (b := (none, b1, b2)) d2, fun x1 x2 w1 w2 z y => ?_⟩
      · rw [products]
        have d1' : e.join (e.rename t1 [(nn.left, nn.left1), (nn.right, nn.right1)])
          (e.rename t2 [(nn.left, nn.left2), (nn.right, nn.right2)]) [(nn.down, nn.up)] = .ok t := d1
        rw [d1', Outcome.bind]
        rfl
      · rw [List.map_cons, List.map_nil, sum_indices_cons]
        simp only [sum_indices_nil]
        exact d3 _ _ _ _ _ _
    | cons _ _ hl => cases hl
  | @cons t1 a b c u d l1 us ds' V1' hQ ht hl ih =>
    subst hA hB
    obtain ⟨k, rfl⟩ := hQ
    cases h2 with
    | one _ => cases hl
    | @cons t2 _ b' _ _ d2 l2 _ ds2 V2' hQ2 ht2 hl2 =>
      obtain ⟨k', rfl⟩ := hQ2
      obtain ⟨t, d1, d2, d3⟩ := ring_double he.grid (by exact ht) (by exact ht2)
      obtain ⟨l, V, c1, c2, c3⟩ := ih rfl rfl hl2
      refine ⟨t :: l, _, ?_, .cons (a := (none, a1, a2)) (b := (none, some k, some k')) ⟨_, _, rfl⟩ d2 c2,
        fun x1 x2 w1 w2 z y => ?_⟩
      · rw [products]
        have d1' : e.join (e.rename t1 [(nn.left, nn.left1), (nn.right, nn.right1)])
          (e.rename t2 [(nn.left, nn.left2), (nn.right, nn.right2)]) [(nn.down, nn.up)] = .ok t := d1
        rw [d1', Outcome.bind, c1, Outcome.bind]
      · rw [List.map_cons, sum_indices_cons, sum_double]
        simp only [sum_plain, tailIdx_cons, c3]
        have := fun i1 i2 => d3 x1 x2 i1 i2 (z 0) (y 0)
        simp only [elemB, this]
        exact sum_four _ _ _ _ _ _ _ _

theorem canonical_chain (he : LinesEnvOk e) {l : List (Tensor ν NoSymmetry α)} {A C : Bd} {us ds : List (Option ℕ)}
    {V : Idx → Idx → (ℕ → ℕ) → (ℕ → ℕ) → α} (hl : Chain e Double l A C us ds V) {a : Bd} {b1 b2 c1 c2 : Option ℕ}
    (hA : A = (none, b1, b2)) (hC : C = (none, c1, c2)) {t : Tensor ν NoSymmetry α} {u d : Option ℕ}
    (ht : HasLegs (ringName e) t (fullB a (none, b1, b2) u d)) (n : ℕ) (hn : l.length ≤ n) :
    ∃ r W, canonical e nn n (t :: l) = .ok r ∧ Chain e Plain r a (none, c1, c2) (u :: us) (d :: ds) W ∧
      ∀ x w1 w2 z y, W x (0, w1, w2) z y = ∑ k ∈ rng (none, b1, b2),
        elemB e t x k (z 0) (y 0) * V k (0, w1, w2) (tailIdx z) (tailIdx y) := by
  induction hl generalizing a b1 b2 t u d n with
  | @one t' _ _ u' d' ht' =>
    subst hA hC
    cases n with
    | zero => simp at hn
    | succ n =>
      obtain ⟨U, S, v, x, t'', K, R, f1, f2, f3, f4, f5, f6, f7⟩ := ring_canonical he (by exact ht) (by exact ht')
      refine ⟨[v, t''], _, ?_, .cons (b := (some K, none, none)) ⟨_, rfl⟩ f4
        (.one (a := (some K, none, none)) (b := (none, c1, c2)) f5), fun x w1 w2 z y => ?_⟩
      · rw [canonical, f1, Outcome.bind]
        dsimp only
        rw [f2, Outcome.bind, f3, Outcome.bind]
        cases n <;> rfl
      · rw [sum_plain, sum_double]
        simp only [elemB, f6, f7, bondDim, Option.getD_some]
        simp only [Finset.mul_sum, Finset.sum_mul]
        rw [Finset.sum_comm]
        refine Finset.sum_congr rfl fun y1 _ => ?_
        rw [Finset.sum_comm]
        exact Finset.sum_congr rfl fun y2 _ => Finset.sum_congr rfl fun k _ => by ring
  | @cons t' _ B _ u' d' l us ds V' hQ ht' hl ih =>
    subst hA hC
    obtain ⟨p, q, rfl⟩ := hQ
    cases n with
    | zero => simp at hn
    | succ n =>
      obtain ⟨U, S, v, x, t'', K, R, f1, f2, f3, f4, f5, f6, f7⟩ := ring_canonical he (by exact ht) (by exact ht')
      obtain ⟨r, W, g1, g2, g3⟩ := ih (a := (some K, none, none)) rfl rfl (by exact f5) n (by simpa using hn)
      refine ⟨v :: r, _, ?_, .cons (b := (some K, none, none)) ⟨_, rfl⟩ f4 g2, fun x w1 w2 z y => ?_⟩
      · rw [canonical, f1, Outcome.bind]
        dsimp only
        rw [f2, Outcome.bind, f3, Outcome.bind, g1, Outcome.bind]
      · rw [sum_plain, sum_double]
        simp only [g3, sum_double]
        simp only [elemB, f6, f7, bondDim, Option.getD_some]
        exact sum_three_pairs _ _ _ _ _ _ _ _ _

theorem truncated_chain (he : LinesEnvOk e) {l : List (Tensor ν NoSymmetry α)} {a c : Bd} {us ds : List (Option ℕ)}
    {V : Idx → Idx → (ℕ → ℕ) → (ℕ → ℕ) → α} (hl : Chain e Plain l a c us ds V) :
    ∃ B r W, (∀ cut, Keeps B cut → truncated e nn cut l = .ok r) ∧ Chain e Plain r a c us ds W ∧
      ∀ x w z y, W x w z y = V x w z y := by
  induction hl with
  | @one t a b u d ht =>
    refine ⟨0, [t], _, fun cut _ => ?_, .one ht, fun _ _ _ _ => rfl⟩
    rw [truncated, truncated]
    rfl
  | @cons t a b c u d l us ds V hQ ht hl ih =>
    obtain ⟨k, rfl⟩ := hQ
    obtain ⟨B, r, W, g1, g2, g3⟩ := ih
    cases g2 with
    | @one t' _ _ u' d' ht' =>
      obtain ⟨x, w, v, K, f1, f2, f3, f4, f5⟩ := ring_truncated he (by exact ht) (by exact ht')
      refine ⟨max B K, _, _, fun cut hc => ?_, .cons (b := (some K, none, none)) ⟨_, rfl⟩ f3
        (.one (a := (some K, none, none)) f4), fun x w z y => ?_⟩
      · obtain ⟨U, S, k1, k2⟩ := f2 cut (hc.le (le_max_right _ _))
        rw [truncated, g1 cut (hc.le (le_max_left _ _)), Outcome.bind]
        dsimp only
        rw [f1, Outcome.bind, k1, Outcome.bind]
        dsimp only
        rw [k2, Outcome.bind]
      · dsimp only
        rw [sum_plain, sum_plain]
        simp only [← g3]
        exact (f5 _ _ _ _ _ _ _ _ _ _).symm
    | @cons t' _ b' _ u' d' l' us' ds' V' hQ' ht' hl' =>
      obtain ⟨x, w, v, K, f1, f2, f3, f4, f5⟩ := ring_truncated he (by exact ht) (by exact ht')
      refine ⟨max B K, _, _, fun cut hc => ?_, .cons (b := (some K, none, none)) ⟨_, rfl⟩ f3
        (.cons (a := (some K, none, none)) hQ' f4 hl'), fun x w z y => ?_⟩
      · obtain ⟨U, S, k1, k2⟩ := f2 cut (hc.le (le_max_right _ _))
        rw [truncated, g1 cut (hc.le (le_max_left _ _)), Outcome.bind]
        dsimp only
        rw [f1, Outcome.bind, k1, Outcome.bind]
        dsimp only
        rw [k2, Outcome.bind]
      · dsimp only
        rw [sum_plain, sum_plain]
        simp only [← g3]
        simp only [Finset.mul_sum]
        rw [Finset.sum_comm, Finset.sum_comm (s := Finset.range (bondDim (some k)))]
        refine Finset.sum_congr rfl fun i _ => ?_
        simp only [← mul_assoc]
        rw [← Finset.sum_mul, ← Finset.sum_mul]
        congr 1
        exact (f5 _ _ _ _ _ _ _ _ _ _).symm

end TAT.Torus
