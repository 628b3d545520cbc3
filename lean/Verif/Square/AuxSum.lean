import Mathlib.Algebra.BigOperators.Fin
import Mathlib.Algebra.BigOperators.Ring.Finset
import Mathlib.Data.Fin.Tuple.Finset
import Mathlib.Tactic.Ring

/-!
# The value of a square network

`netVal` is the sum over all indices of the edges of the product of all sites.  It is written as a chain of
rows, and three rows as a chain of columns.
-/

namespace TAT

variable {α : Type} [CommRing α]

/-- The value of a network of `M` rows and `N` columns.  `h i j` is the dimension of the edge on the left of
site `i j`, and `h i N` that on the right of the last; `v i j` is the dimension of the edge above site `i j`,
and `v M j` that below the last.  `S i j l r u d` is the element of site `i j` at the indices of the edges on
its left, on its right, above and below. -/
def netVal (M N : ℕ) (h v : ℕ → ℕ → ℕ) (S : ℕ → ℕ → ℕ → ℕ → ℕ → ℕ → α) : α :=
  ∑ p ∈ Fintype.piFinset fun i : Fin M => Fintype.piFinset fun j : Fin (N + 1) => Finset.range (h i j),
  ∑ q ∈ Fintype.piFinset fun i : Fin (M + 1) => Fintype.piFinset fun j : Fin N => Finset.range (v i j),
    ∏ i : Fin M, ∏ j : Fin N, S i j (p i j.castSucc) (p i j.succ) (q i.castSucc j) (q i.succ j)

/-! ## Chains -/

variable {X : Type}

theorem sum_piFinset_cons {n : ℕ} (A : Fin (n + 1) → Finset X) (F : (Fin (n + 1) → X) → α) :
    ∑ q ∈ Fintype.piFinset A, F q =
      ∑ x ∈ A 0, ∑ q ∈ Fintype.piFinset fun i : Fin n => A i.succ, F (Fin.cons x q) := by
  have := Finset.filter_piFinset_eq_map_consEquiv (α := fun _ => X) A (fun _ => True)
  simp only [Finset.filter_true] at this
  rw [this, Finset.sum_map, Finset.sum_product]
  rfl

/-- The chain: a sum over `x 0`, …, `x n` of the product of `R k (x k) (x (k + 1))`. -/
def chain (A : ℕ → Finset X) (R : ℕ → X → X → α) (n : ℕ) : α :=
  ∑ q ∈ Fintype.piFinset fun i : Fin (n + 1) => A i, ∏ i : Fin n, R i (q i.castSucc) (q i.succ)

/-- The first part of the chain, up to a given `x n`. -/
def chainTo (A : ℕ → Finset X) (R : ℕ → X → X → α) : ℕ → X → α
  | 0, _ => 1
  | n + 1, y => ∑ x ∈ A n, chainTo A R n x * R n x y

/-- The part of the chain of length `m` that begins at a given `x k`. -/
def chainFrom (A : ℕ → Finset X) (R : ℕ → X → X → α) : ℕ → ℕ → X → α
  | 0, _, _ => 1
  | m + 1, k, x => ∑ y ∈ A (k + 1), R k x y * chainFrom A R m (k + 1) y

theorem sum_chainFrom (A : ℕ → Finset X) (R : ℕ → X → X → α) (m k : ℕ) (G : X → α) :
    ∑ q ∈ Fintype.piFinset fun i : Fin (m + 1) => A (k + i),
        G (q 0) * ∏ i : Fin m, R (k + i) (q i.castSucc) (q i.succ) =
      ∑ x ∈ A k, G x * chainFrom A R m k x := by
  induction m generalizing k G with
  | zero =>
    rw [sum_piFinset_cons]
    simp [chainFrom]
  | succ m ih =>
    rw [sum_piFinset_cons]
    refine Finset.sum_congr rfl fun x _ => ?_
    have := ih (k + 1) fun y => G x * R k x y
    rw [chainFrom, Finset.mul_sum]
    refine Eq.trans ?_ (this.trans (Finset.sum_congr rfl fun y _ => by ring))
    have hA : (fun i : Fin (m + 1) => A (k + (i.succ : Fin (m + 2)))) = fun i : Fin (m + 1) => A (k + 1 + i) := by
      funext i
      rw [Fin.val_succ]
      congr 1
      omega
    rw [hA]
    refine Finset.sum_congr rfl fun q _ => ?_
    rw [Fin.prod_univ_succ, mul_assoc]
    simp only [Fin.castSucc_zero, Fin.cons_zero, Fin.cons_succ, Fin.castSucc_succ, Fin.val_succ, Fin.val_zero,
      add_zero]
    congr 2
    refine Finset.prod_congr rfl fun i _ => ?_
    congr 1
    omega

theorem chain_eq_from (A : ℕ → Finset X) (R : ℕ → X → X → α) (n : ℕ) :
    chain A R n = ∑ x ∈ A 0, chainFrom A R n 0 x := by
  have := sum_chainFrom A R n 0 fun _ => 1
  simpa [chain] using this

/-- The chain is the sum of the products of its two parts. -/
theorem chain_split (A : ℕ → Finset X) (R : ℕ → X → X → α) (k m : ℕ) :
    chain A R (k + m) = ∑ x ∈ A k, chainTo A R k x * chainFrom A R m k x := by
  induction k generalizing m with
  | zero => simp [chain_eq_from, chainTo]
  | succ k ih =>
    rw [show k + 1 + m = k + (m + 1) by omega, ih]
    simp only [chainFrom, chainTo, Finset.mul_sum, Finset.sum_mul]
    rw [Finset.sum_comm]
    refine Finset.sum_congr rfl fun y _ => Finset.sum_congr rfl fun x _ => ?_
    ring

/-- The chain with one link in the middle. -/
theorem chain_link (A : ℕ → Finset X) (R : ℕ → X → X → α) (k m : ℕ) :
    chain A R (k + 1 + m) =
      ∑ x ∈ A k, ∑ y ∈ A (k + 1), chainTo A R k x * R k x y * chainFrom A R m (k + 1) y := by
  rw [show k + 1 + m = k + (m + 1) by omega, chain_split]
  simp only [chainFrom, Finset.mul_sum, mul_assoc]

theorem chain_to (A : ℕ → Finset X) (R : ℕ → X → X → α) (n : ℕ) :
    chain A R n = ∑ x ∈ A n, chainTo A R n x := by
  have := chain_split A R n 0
  simpa [chainFrom] using this

theorem chainTo_congr {A A' : ℕ → Finset X} {R R' : ℕ → X → X → α} {n : ℕ} (hA : ∀ k < n, A k = A' k)
    (hR : ∀ k < n, R k = R' k) : chainTo A R n = chainTo A' R' n := by
  induction n with
  | zero => rfl
  | succ n ih =>
    funext y
    simp only [chainTo]
    rw [ih (fun k hk => hA k (by omega)) (fun k hk => hR k (by omega)), hA n (by omega), hR n (by omega)]

theorem chainFrom_congr {A A' : ℕ → Finset X} {R R' : ℕ → X → X → α} {m k : ℕ}
    (hA : ∀ j, k < j → j ≤ k + m → A j = A' j) (hR : ∀ j, k ≤ j → j < k + m → R j = R' j) :
    chainFrom A R m k = chainFrom A' R' m k := by
  induction m generalizing k with
  | zero => rfl
  | succ m ih =>
    funext x
    simp only [chainFrom]
    rw [ih (fun j h1 h2 => hA j (by omega) (by omega)) (fun j h1 h2 => hR j (by omega) (by omega)),
      hA (k + 1) (by omega) (by omega), hR k (by omega) (by omega)]

theorem chain_congr {A A' : ℕ → Finset X} {R R' : ℕ → X → X → α} {n : ℕ}
    (hA : ∀ j, j ≤ n → A j = A' j) (hR : ∀ j, j < n → R j = R' j) : chain A R n = chain A' R' n := by
  rw [chain_eq_from, chain_eq_from, hA 0 (by omega),
    chainFrom_congr (fun j _ h => hA j (by omega)) (fun j _ h => hR j (by omega))]

/-! ## Rows and columns -/

/-- Indices of all columns, zero after the last. -/
def allIdx {N : ℕ} (z : Fin N → ℕ) (j : ℕ) : ℕ := if h : j < N then z ⟨j, h⟩ else 0

@[simp] theorem allIdx_val {N : ℕ} (z : Fin N → ℕ) (j : Fin N) : allIdx z j = z j := by
  rw [allIdx, dif_pos j.2]

/-- The indices below given dimensions. -/
def box (N : ℕ) (d : ℕ → ℕ) : Finset (Fin N → ℕ) := Fintype.piFinset fun j : Fin N => Finset.range (d j)

/-- One row of a network. -/
def rowChain (N : ℕ) (h : ℕ → ℕ) (S : ℕ → ℕ → ℕ → ℕ → ℕ → α) (z y : ℕ → ℕ) : α :=
  chain (fun j => Finset.range (h j)) (fun j a b => S j a b (z j) (y j)) N

/-- A network is a chain of rows. -/
theorem netVal_rows (M N : ℕ) (h v : ℕ → ℕ → ℕ) (S : ℕ → ℕ → ℕ → ℕ → ℕ → ℕ → α) :
    netVal M N h v S = chain (fun i => box N (v i))
      (fun i z y => rowChain N (h i) (S i) (allIdx z) (allIdx y)) M := by
  rw [netVal, Finset.sum_comm, chain]
  refine Finset.sum_congr rfl fun q _ => ?_
  simp only [rowChain, chain, allIdx_val]
  rw [Finset.prod_univ_sum]

theorem sum_piFinset_flip {ι κ : Type} [Fintype ι] [DecidableEq ι] [Fintype κ] [DecidableEq κ]
    (A : ι → κ → Finset X) (F : (ι → κ → X) → α) :
    ∑ p ∈ Fintype.piFinset fun i => Fintype.piFinset fun j => A i j, F p =
      ∑ p ∈ Fintype.piFinset fun j => Fintype.piFinset fun i => A i j, F fun i j => p j i := by
  refine Finset.sum_equiv (Equiv.piComm fun _ _ => X) (fun p => ?_) fun p _ => rfl
  simp only [Fintype.mem_piFinset, Equiv.piComm_apply]
  exact forall_comm

/-- Exchanging rows with columns does not change the value. -/
theorem netVal_transpose (M N : ℕ) (h v : ℕ → ℕ → ℕ) (S : ℕ → ℕ → ℕ → ℕ → ℕ → ℕ → α) :
    netVal M N h v S = netVal N M (fun j i => v i j) (fun j i => h i j) fun j i l r u d => S i j u d l r := by
  rw [netVal, Finset.sum_comm, netVal, sum_piFinset_flip]
  refine Finset.sum_congr rfl fun q _ => ?_
  rw [sum_piFinset_flip]
  refine Finset.sum_congr rfl fun p _ => ?_
  rw [Finset.prod_comm]

theorem sum_piFinset_prod {ι X Y : Type} [Fintype ι] [DecidableEq ι] (A : ι → Finset X) (B : ι → Finset Y)
    (F : (ι → X × Y) → α) :
    ∑ x ∈ Fintype.piFinset fun i => A i ×ˢ B i, F x =
      ∑ a ∈ Fintype.piFinset A, ∑ b ∈ Fintype.piFinset B, F fun i => (a i, b i) := by
  rw [← Finset.sum_product']
  refine Finset.sum_equiv (Equiv.arrowProdEquivProdArrow ι (fun _ => X) fun _ => Y) (fun p => ?_) fun p _ => rfl
  simp only [Fintype.mem_piFinset, Finset.mem_product, Equiv.arrowProdEquivProdArrow_apply]
  exact forall_and

/-- Three rows are a chain of columns. -/
theorem ladder (N : ℕ) (h1 h2 h3 dz dy : ℕ → ℕ) (R1 R3 : ℕ → ℕ → ℕ → ℕ → α) (R2 : ℕ → ℕ → ℕ → ℕ → ℕ → α) :
    ∑ z ∈ box N dz, ∑ y ∈ box N dy,
        chain (fun j => Finset.range (h1 j)) (fun j a b => R1 j a b (allIdx z j)) N *
        rowChain N h2 R2 (allIdx z) (allIdx y) *
        chain (fun j => Finset.range (h3 j)) (fun j a b => R3 j a b (allIdx y j)) N =
      chain (fun j => Finset.range (h1 j) ×ˢ Finset.range (h2 j) ×ˢ Finset.range (h3 j))
        (fun j x x' => ∑ z ∈ Finset.range (dz j), ∑ y ∈ Finset.range (dy j),
          R1 j x.1 x'.1 z * R2 j x.2.1 x'.2.1 z y * R3 j x.2.2 x'.2.2 y) N := by
  simp only [rowChain, chain, Finset.prod_univ_sum]
  symm
  rw [Finset.sum_comm]
  refine Finset.sum_congr rfl fun z _ => ?_
  rw [Finset.sum_comm]
  refine Finset.sum_congr rfl fun y _ => ?_
  simp only [sum_piFinset_prod, Finset.prod_mul_distrib, allIdx_val]
  rw [Finset.sum_mul_sum]
  simp only [Finset.sum_mul]
  simp only [Finset.mul_sum]

end TAT
