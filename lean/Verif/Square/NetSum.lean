import Verif.Square.AuxSum

/-!
# The value of a network, one site after the other

The vector of the exact lattice takes up the sites row by row; a simple update changes one site or two
neighbouring sites and the edge between them.
-/

namespace TAT

variable {α : Type} [CommRing α] {X : Type}

theorem sum_piFinset_snoc {n : ℕ} (A : Fin (n + 1) → Finset X) (F : (Fin (n + 1) → X) → α) :
    ∑ q ∈ Fintype.piFinset A, F q =
      ∑ q ∈ Fintype.piFinset fun i : Fin n => A i.castSucc, ∑ x ∈ A (Fin.last n), F (Fin.snoc q x) := by
  have := Finset.filter_piFinset_eq_map_snocEquiv (α := fun _ => X) A (fun _ => True)
  simp only [Finset.filter_true] at this
  rw [this, Finset.sum_map, Finset.sum_product, Finset.sum_comm]
  rfl

/-! ## Row by row -/

/-- The sites of a row taken up from left to right: `F` belongs to the rows above, and `q` are the indices of the
edges above the sites not yet taken up and below those taken up. -/
def rowElim (h d : ℕ → ℕ) (S : ℕ → ℕ → ℕ → ℕ → ℕ → α) (F : (ℕ → ℕ) → α) : ℕ → ℕ → (ℕ → ℕ) → α
  | 0, _, q => F q
  | j + 1, r, q => ∑ a ∈ Finset.range (h j), ∑ b ∈ Finset.range (d j),
      rowElim h d S F j a (Function.update q j b) * S j a r b (q j)

/-- The first indices replaced. -/
def overIdx {j : ℕ} (z : Fin j → ℕ) (q : ℕ → ℕ) (n : ℕ) : ℕ := if h : n < j then z ⟨n, h⟩ else q n

theorem overIdx_snoc {j : ℕ} (z : Fin j → ℕ) (b : ℕ) (q : ℕ → ℕ) :
    overIdx (Fin.snoc z b : Fin (j + 1) → ℕ) q = overIdx z (Function.update q j b) := by
  funext n
  unfold overIdx
  by_cases h : n < j
  · rw [dif_pos (by omega), dif_pos h]
    exact Fin.snoc_castSucc (α := fun _ => ℕ) b z ⟨n, h⟩
  · by_cases h' : n = j
    · subst h'
      rw [dif_pos (by omega), dif_neg h, Function.update_self]
      exact Fin.snoc_last (α := fun _ => ℕ) b z
    · rw [dif_neg (by omega), dif_neg h, Function.update_of_ne h']

theorem rowElim_eq (h d : ℕ → ℕ) (S : ℕ → ℕ → ℕ → ℕ → ℕ → α) (F : (ℕ → ℕ) → α) (j r : ℕ) (q : ℕ → ℕ) :
    rowElim h d S F j r q = ∑ z ∈ box j d, F (overIdx z q) *
      chainTo (fun j => Finset.range (h j)) (fun j a b => S j a b (allIdx z j) (q j)) j r := by
  induction j generalizing r q with
  | zero =>
    have : ∀ z : Fin 0 → ℕ, overIdx z q = q := fun z => funext fun n => dif_neg (by omega)
    simp [rowElim, chainTo, box, this]
  | succ j ih =>
    rw [rowElim, box, sum_piFinset_snoc]
    calc _ = ∑ a ∈ Finset.range (h j), ∑ b ∈ Finset.range (d j), ∑ z ∈ box j d,
          F (overIdx z (Function.update q j b)) *
            chainTo (fun j => Finset.range (h j)) (fun j a b => S j a b (allIdx z j) (q j)) j a * S j a r b (q j) := by
          refine Finset.sum_congr rfl fun a _ => Finset.sum_congr rfl fun b _ => ?_
          rw [ih, Finset.sum_mul]
          refine Finset.sum_congr rfl fun z _ => ?_
          congr 2
          refine congrFun (chainTo_congr (fun _ _ => rfl) fun k hk => ?_) a
          rw [Function.update_of_ne (by omega)]
      _ = ∑ z ∈ box j d, ∑ b ∈ Finset.range (d j), ∑ a ∈ Finset.range (h j),
          F (overIdx z (Function.update q j b)) *
            chainTo (fun j => Finset.range (h j)) (fun j a b => S j a b (allIdx z j) (q j)) j a * S j a r b (q j) := by
          rw [Finset.sum_comm]
          rw [Finset.sum_congr rfl fun b _ => Finset.sum_comm]
          rw [Finset.sum_comm]
      _ = _ := by
          refine Finset.sum_congr rfl fun z _ => Finset.sum_congr rfl fun b _ => ?_
          rw [overIdx_snoc, chainTo, Finset.mul_sum]
          refine Finset.sum_congr rfl fun a _ => ?_
          rw [mul_assoc]
          congr 2
          · refine congrFun (chainTo_congr (fun _ _ => rfl) fun k hk => ?_) a
            have : allIdx (Fin.snoc z b : Fin (j + 1) → ℕ) k = allIdx z k := by
              rw [allIdx, allIdx, dif_pos (by omega), dif_pos hk]
              exact Fin.snoc_castSucc (α := fun _ => ℕ) b z ⟨k, hk⟩
            rw [this]
          · rw [allIdx, dif_pos (by omega)]
            exact congrArg (fun x => S j a r x (q j)) (Fin.snoc_last (α := fun _ => ℕ) b z).symm

/-- The rows above a given one. -/
def topSum (N : ℕ) (h v : ℕ → ℕ → ℕ) (S : ℕ → ℕ → ℕ → ℕ → ℕ → ℕ → α) (i : ℕ) (q : ℕ → ℕ) : α :=
  chainTo (fun i => box N (v i)) (fun i z y => rowChain N (h i) (S i) (allIdx z) (allIdx y)) i fun j : Fin N => q j

theorem topSum_zero (N : ℕ) (h v : ℕ → ℕ → ℕ) (S : ℕ → ℕ → ℕ → ℕ → ℕ → ℕ → α) (q : ℕ → ℕ) :
    topSum N h v S 0 q = 1 := rfl

theorem topSum_succ {N : ℕ} {h v : ℕ → ℕ → ℕ} (S : ℕ → ℕ → ℕ → ℕ → ℕ → ℕ → α) {i : ℕ} (hi : h i N = 1)
    (q : ℕ → ℕ) : topSum N h v S (i + 1) q = rowElim (h i) (v i) (S i) (topSum N h v S i) N 0 q := by
  rw [rowElim_eq, topSum, chainTo]
  refine Finset.sum_congr rfl fun z _ => ?_
  congr 1
  · rw [topSum]
    congr 1
    funext j
    rw [overIdx, dif_pos j.2]
  · rw [rowChain, chain_to, hi, Finset.sum_range_one]
    refine congrFun (chainTo_congr (fun _ _ => rfl) fun k hk => ?_) 0
    rw [allIdx, allIdx, dif_pos hk, dif_pos hk]

theorem netVal_top {M N : ℕ} {h v : ℕ → ℕ → ℕ} (S : ℕ → ℕ → ℕ → ℕ → ℕ → ℕ → α) (hv : ∀ j, v M j = 1)
    (q : ℕ → ℕ) (hq : ∀ j < N, q j = 0) : netVal M N h v S = topSum N h v S M q := by
  rw [netVal_rows, chain_to, topSum]
  have : box N (v M) = {fun _ => 0} := by
    ext z
    simp only [box, Fintype.mem_piFinset, hv, Finset.mem_range, Nat.lt_one_iff, Finset.mem_singleton]
    exact ⟨fun h => funext h, fun h j => congrFun h j⟩
  rw [this, Finset.sum_singleton]
  congr 1
  funext j
  rw [hq j j.2]

/-! ## One or two sites -/

/-- The value as a function of one site. -/
theorem netVal_single (M N : ℕ) (h v : ℕ → ℕ → ℕ) (S : ℕ → ℕ → ℕ → ℕ → ℕ → ℕ → α) {i j : ℕ} (hi : i < M)
    (hj : j < N) : ∃ (I : Finset ((Fin N → ℕ) × (Fin N → ℕ) × ℕ × ℕ))
      (w : (Fin N → ℕ) × (Fin N → ℕ) × ℕ × ℕ → α) (l r u d : (Fin N → ℕ) × (Fin N → ℕ) × ℕ × ℕ → ℕ),
      ∀ A : ℕ → ℕ → ℕ → ℕ → α,
        netVal M N h v (fun i' j' => if i' = i ∧ j' = j then A else S i' j') =
          ∑ x ∈ I, w x * A (l x) (r x) (u x) (d x) := by
  obtain ⟨m, rfl⟩ : ∃ m, M = i + 1 + m := ⟨M - (i + 1), by omega⟩
  obtain ⟨n, rfl⟩ : ∃ n, N = j + 1 + n := ⟨N - (j + 1), by omega⟩
  set N := j + 1 + n with hN
  refine ⟨box N (v i) ×ˢ box N (v (i + 1)) ×ˢ Finset.range (h i j) ×ˢ Finset.range (h i (j + 1)),
    fun x => topSum N h v S i (allIdx x.1) *
      (chainTo (fun j => Finset.range (h i j)) (fun j a b => S i j a b (allIdx x.1 j) (allIdx x.2.1 j)) j x.2.2.1 *
      chainFrom (fun j => Finset.range (h i j)) (fun j a b => S i j a b (allIdx x.1 j) (allIdx x.2.1 j)) n (j + 1) x.2.2.2) *
      chainFrom (fun i => box N (v i)) (fun i z y => rowChain N (h i) (S i) (allIdx z) (allIdx y)) m (i + 1) x.2.1,
    fun x => x.2.2.1, fun x => x.2.2.2, fun x => allIdx x.1 j, fun x => allIdx x.2.1 j, fun A => ?_⟩
  rw [netVal_rows, chain_link, Finset.sum_product]
  refine Finset.sum_congr rfl fun z _ => ?_
  rw [Finset.sum_product]
  refine Finset.sum_congr rfl fun y _ => ?_
  rw [Finset.sum_product]
  have e1 : chainTo (fun i => box N (v i)) (fun i' z y => rowChain N (h i')
      (fun j' => if i' = i ∧ j' = j then A else S i' j') (allIdx z) (allIdx y)) i z = topSum N h v S i (allIdx z) := by
    rw [topSum, show (fun j : Fin N => allIdx z j) = z from funext fun j => allIdx_val z j]
    refine congrFun (chainTo_congr (fun _ _ => rfl) fun k hk => ?_) z
    have : (fun j' => if k = i ∧ j' = j then A else S k j') = S k := funext fun j' => if_neg (by omega)
    rw [this]
  have e2 : chainFrom (fun i => box N (v i)) (fun i' z y => rowChain N (h i')
      (fun j' => if i' = i ∧ j' = j then A else S i' j') (allIdx z) (allIdx y)) m (i + 1) y =
      chainFrom (fun i => box N (v i)) (fun i z y => rowChain N (h i) (S i) (allIdx z) (allIdx y)) m (i + 1) y := by
    refine congrFun (chainFrom_congr (fun _ _ _ => rfl) fun k hk _ => ?_) y
    have : (fun j' => if k = i ∧ j' = j then A else S k j') = S k := funext fun j' => if_neg (by omega)
    rw [this]
  rw [e1, e2, rowChain, chain_link, Finset.mul_sum, Finset.sum_mul]
  refine Finset.sum_congr rfl fun a _ => ?_
  rw [Finset.mul_sum, Finset.sum_mul]
  refine Finset.sum_congr rfl fun b _ => ?_
  have e3 : chainTo (fun j => Finset.range (h i j)) (fun j' a b =>
      (if i = i ∧ j' = j then A else S i j') a b (allIdx z j') (allIdx y j')) j a =
      chainTo (fun j => Finset.range (h i j)) (fun j a b => S i j a b (allIdx z j) (allIdx y j)) j a := by
    refine congrFun (chainTo_congr (fun _ _ => rfl) fun k hk => ?_) a
    rw [if_neg (by omega)]
  have e4 : chainFrom (fun j => Finset.range (h i j)) (fun j' a b =>
      (if i = i ∧ j' = j then A else S i j') a b (allIdx z j') (allIdx y j')) n (j + 1) b =
      chainFrom (fun j => Finset.range (h i j)) (fun j a b => S i j a b (allIdx z j) (allIdx y j)) n (j + 1) b := by
    refine congrFun (chainFrom_congr (fun _ _ _ => rfl) fun k hk _ => ?_) b
    rw [if_neg (by omega)]
  rw [e3, e4, if_pos ⟨rfl, rfl⟩]
  ring

/-- The value as a function of two neighbouring sites of a row and of the dimension of the edge between them. -/
theorem netVal_pair (M N : ℕ) (h v : ℕ → ℕ → ℕ) (S : ℕ → ℕ → ℕ → ℕ → ℕ → ℕ → α) {i j : ℕ} (hi : i < M)
    (hj : j + 1 < N) : ∃ (I : Finset ((Fin N → ℕ) × (Fin N → ℕ) × ℕ × ℕ))
      (w : (Fin N → ℕ) × (Fin N → ℕ) × ℕ × ℕ → α) (l r u d u' d' : (Fin N → ℕ) × (Fin N → ℕ) × ℕ × ℕ → ℕ),
      ∀ (K : ℕ) (A B : ℕ → ℕ → ℕ → ℕ → α),
        netVal M N (fun i' j' => if i' = i ∧ j' = j + 1 then K else h i' j') v
          (fun i' j' => if i' = i ∧ j' = j then A else if i' = i ∧ j' = j + 1 then B else S i' j') =
          ∑ x ∈ I, w x * ∑ k ∈ Finset.range K, A (l x) k (u x) (d x) * B k (r x) (u' x) (d' x) := by
  obtain ⟨m, rfl⟩ : ∃ m, M = i + 1 + m := ⟨M - (i + 1), by omega⟩
  obtain ⟨n, rfl⟩ : ∃ n, N = j + 1 + 1 + n := ⟨N - (j + 1 + 1), by omega⟩
  set N := j + 1 + 1 + n with hN
  refine ⟨box N (v i) ×ˢ box N (v (i + 1)) ×ˢ Finset.range (h i j) ×ˢ Finset.range (h i (j + 2)),
    fun x => topSum N h v S i (allIdx x.1) *
      (chainTo (fun j => Finset.range (h i j)) (fun j a b => S i j a b (allIdx x.1 j) (allIdx x.2.1 j)) j x.2.2.1 *
      chainFrom (fun j => Finset.range (h i j)) (fun j a b => S i j a b (allIdx x.1 j) (allIdx x.2.1 j)) n (j + 2) x.2.2.2) *
      chainFrom (fun i => box N (v i)) (fun i z y => rowChain N (h i) (S i) (allIdx z) (allIdx y)) m (i + 1) x.2.1,
    fun x => x.2.2.1, fun x => x.2.2.2, fun x => allIdx x.1 j, fun x => allIdx x.2.1 j,
    fun x => allIdx x.1 (j + 1), fun x => allIdx x.2.1 (j + 1), fun K A B => ?_⟩
  obtain ⟨S', hS'⟩ : ∃ S' : ℕ → ℕ → ℕ → ℕ → ℕ → ℕ → α, S' = fun i' j' =>
    if i' = i ∧ j' = j then A else if i' = i ∧ j' = j + 1 then B else S i' j' := ⟨_, rfl⟩
  obtain ⟨h', hh'⟩ : ∃ h' : ℕ → ℕ → ℕ, h' = fun i' j' => if i' = i ∧ j' = j + 1 then K else h i' j' := ⟨_, rfl⟩
  rw [← hS', ← hh', netVal_rows, chain_link, Finset.sum_product]
  refine Finset.sum_congr rfl fun z _ => ?_
  rw [Finset.sum_product]
  refine Finset.sum_congr rfl fun y _ => ?_
  rw [Finset.sum_product]
  have row : ∀ k, k ≠ i → S' k = S k ∧ h' k = h k := fun k hk =>
    ⟨funext fun j' => by simp [hS', hk], funext fun j' => by simp [hh', hk]⟩
  have e1 : chainTo (fun i => box N (v i)) (fun i' z y => rowChain N (h' i') (S' i') (allIdx z) (allIdx y)) i z =
      topSum N h v S i (allIdx z) := by
    rw [topSum, show (fun j : Fin N => allIdx z j) = z from funext fun j => allIdx_val z j]
    refine congrFun (chainTo_congr (fun _ _ => rfl) fun k hk => ?_) z
    rw [(row k (by omega)).1, (row k (by omega)).2]
  have e2 : chainFrom (fun i => box N (v i)) (fun i' z y => rowChain N (h' i') (S' i') (allIdx z) (allIdx y)) m (i + 1) y =
      chainFrom (fun i => box N (v i)) (fun i z y => rowChain N (h i) (S i) (allIdx z) (allIdx y)) m (i + 1) y := by
    refine congrFun (chainFrom_congr (fun _ _ _ => rfl) fun k hk _ => ?_) y
    rw [(row k (by omega)).1, (row k (by omega)).2]
  have c1 : ∀ k, k ≠ j + 1 → h' i k = h i k := fun k hk => by simp [hh', hk]
  have c2 : ∀ k, k ≠ j → k ≠ j + 1 → S' i k = S i k := fun k hk hk' => by simp [hS', hk, hk']
  have c3 : h' i (j + 1) = K := by simp [hh']
  have c4 : S' i j = A := by simp [hS']
  have c5 : S' i (j + 1) = B := by simp [hS']
  have e3 : ∀ a, chainTo (fun j => Finset.range (h' i j)) (fun j' a b => S' i j' a b (allIdx z j') (allIdx y j')) j a =
      chainTo (fun j => Finset.range (h i j)) (fun j a b => S i j a b (allIdx z j) (allIdx y j)) j a := fun a => by
    refine congrFun (chainTo_congr (fun k hk => ?_) fun k hk => ?_) a
    · rw [c1 k (by omega)]
    · rw [c2 k (by omega) (by omega)]
  have e4 : ∀ b, chainFrom (fun j => Finset.range (h' i j)) (fun j' a b => S' i j' a b (allIdx z j') (allIdx y j')) n (j + 2) b =
      chainFrom (fun j => Finset.range (h i j)) (fun j a b => S i j a b (allIdx z j) (allIdx y j)) n (j + 2) b := fun b => by
    refine congrFun (chainFrom_congr (fun k hk _ => ?_) fun k hk _ => ?_) b
    · rw [c1 k (by omega)]
    · rw [c2 k (by omega) (by omega)]
  rw [e1, e2, rowChain, chain_link]
  simp only [chainTo, e3, e4, c3, c4, c5, c1 j (by omega), c1 (j + 1 + 1) (by omega)]
  simp only [Finset.mul_sum, Finset.sum_mul]
  rw [Finset.sum_comm, Finset.sum_congr rfl fun r _ => Finset.sum_comm, Finset.sum_comm]
  refine Finset.sum_congr rfl fun a _ => Finset.sum_congr rfl fun r _ => Finset.sum_congr rfl fun k _ => ?_
  ring

end TAT
