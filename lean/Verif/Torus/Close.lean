import Verif.Torus.Chain

/-!
# Helper lemmas: one step of the contraction of lines on a torus
-/

namespace TAT.Torus

open TAT.Grid (IsSite sides GridEnvOk freeNames namesOf Names products canonical truncated)

set_option linter.unusedSectionVars false
set_option linter.unusedSimpArgs false

variable {ν α β : Type} [LinearOrder ν] [Field α] [LinearOrder β] [Zero β] {e : AuxEnv ν α β}

section Paths

variable {κ : Type} {s s' : ℕ → Finset κ} {M M' : ℕ → κ → κ → α}

theorem path_shift (n i : ℕ) (x y : κ) :
    path s M n (i + 1) x y = path (fun j => s (j + 1)) (fun j => M (j + 1)) n i x y := by
  induction n generalizing i x with
  | zero => rfl
  | succ n ih =>
    rw [path, path]
    exact Finset.sum_congr rfl fun w _ => by rw [ih]

theorem path_congr (n i : ℕ) (hs : ∀ j, i < j → j ≤ i + n → s j = s' j)
    (hM : ∀ j, i ≤ j → j ≤ i + n → M j = M' j) (x y : κ) : path s M n i x y = path s' M' n i x y := by
  induction n generalizing i x with
  | zero => simp only [path, hM i le_rfl (by omega)]
  | succ n ih =>
    rw [path, path, hM i le_rfl (by omega), hs (i + 1) (by omega) (by omega)]
    exact Finset.sum_congr rfl fun w _ => by
      rw [ih (i + 1) (fun j h1 h2 => hs j (by omega) (by omega)) (fun j h1 h2 => hM j (by omega) (by omega))]

theorem path_map {κ' : Type} (f : κ' ↪ κ) {s' : ℕ → Finset κ'} {M' : ℕ → κ' → κ' → α} (n i : ℕ)
    (hs : ∀ j, i < j → j ≤ i + n → s j = (s' j).map f)
    (hM : ∀ j, i ≤ j → j ≤ i + n → ∀ x y, M j (f x) (f y) = M' j x y) (x y : κ') :
    path s M n i (f x) (f y) = path s' M' n i x y := by
  induction n generalizing i x with
  | zero => exact hM i le_rfl (by omega) x y
  | succ n ih =>
    rw [path, path, hs (i + 1) (by omega) (by omega), Finset.sum_map]
    exact Finset.sum_congr rfl fun w _ => by
      rw [hM i le_rfl (by omega),
        ih (i + 1) (fun j h1 h2 => hs j (by omega) (by omega)) (fun j h1 h2 => hM j (by omega) (by omega))]

/-- The first and the last matrix of a ring matter by their product only. -/
theorem close_path (n : ℕ) (hs : ∀ j, 0 < j → j < n + 2 → s j = s' j) (hM : ∀ j, 0 < j → j < n + 1 → M j = M' j)
    (h : ∀ k ∈ s (n + 1), ∀ k' ∈ s 1, ∑ x ∈ s 0, M (n + 1) k x * M 0 x k' = ∑ x ∈ s' 0, M' (n + 1) k x * M' 0 x k') :
    ∑ x ∈ s 0, path s M (n + 1) 0 x x = ∑ x ∈ s' 0, path s' M' (n + 1) 0 x x := by
  have key : ∀ (s : ℕ → Finset κ) (M : ℕ → κ → κ → α), ∑ x ∈ s 0, path s M (n + 1) 0 x x =
      match n with
      | 0 => ∑ k ∈ s 1, ∑ x ∈ s 0, M 1 k x * M 0 x k
      | n + 1 => ∑ k ∈ s 1, ∑ k' ∈ s (n + 2), path s M n 1 k k' * ∑ x ∈ s 0, M (n + 2) k' x * M 0 x k := by
    intro s M
    cases n with
    | zero =>
      simp only [path]
      rw [Finset.sum_comm]
      exact Finset.sum_congr rfl fun k _ => Finset.sum_congr rfl fun x _ => mul_comm _ _
    | succ n =>
      have : ∀ x, path s M (n + 1 + 1) 0 x x =
          ∑ k ∈ s 1, M 0 x k * ∑ k' ∈ s (n + 2), path s M n 1 k k' * M (n + 2) k' x := fun x => by
        rw [path]
        refine Finset.sum_congr rfl fun k _ => ?_
        rw [Nat.zero_add, path_last, show 1 + n + 1 = n + 2 by omega]
      simp only [this]
      rw [Finset.sum_comm]
      refine Finset.sum_congr rfl fun k _ => ?_
      simp only [Finset.mul_sum]
      rw [Finset.sum_comm]
      exact Finset.sum_congr rfl fun k' _ => Finset.sum_congr rfl fun x _ => by ring
  rw [key, key]
  cases n with
  | zero =>
    dsimp only
    rw [← hs 1 (by omega) (by omega)]
    exact Finset.sum_congr rfl fun k hk => h k hk k hk
  | succ n =>
    dsimp only
    rw [← hs 1 (by omega) (by omega), ← hs (n + 2) (by omega) (by omega)]
    refine Finset.sum_congr rfl fun k hk => Finset.sum_congr rfl fun k' hk' => ?_
    rw [h k' hk' k hk, path_congr n 1 (fun j h1 h2 => hs j (by omega) (by omega))
      (fun j h1 h2 => hM j (by omega) (by omega))]

end Paths

theorem chain_of_sites {Q : Bd → Prop} {t : ℕ → Tensor ν NoSymmetry α} {b : ℕ → Bd} {u d : ℕ → Option ℕ} (n i : ℕ)
    (ht : ∀ j, i ≤ j → j < i + n + 1 → HasLegs (ringName e) (t j) (fullB (b j) (b (j + 1)) (u j) (d j)))
    (hQ : ∀ j, i < j → j < i + n + 1 → Q (b j)) :
    ∃ V, Chain e Q ((List.range' i (n + 1)).map t) (b i) (b (i + n + 1)) ((List.range' i (n + 1)).map u)
        ((List.range' i (n + 1)).map d) V ∧
      ∀ (x w : Idx) (z y : ℕ → ℕ), V x w (fun j => z (i + j)) (fun j => y (i + j)) =
        path (fun j => rng (b j)) (fun j x w => elemB e (t j) x w (z j) (y j)) n i x w := by
  induction n generalizing i with
  | zero => exact ⟨_, .one (ht i le_rfl (by omega)), fun x w z y => rfl⟩
  | succ n ih =>
    obtain ⟨V, h1, h2⟩ := ih (i + 1) (fun j a c => ht j (by omega) (by omega)) (fun j a c => hQ j (by omega) (by omega))
    rw [show i + 1 + n + 1 = i + (n + 1) + 1 by omega] at h1
    refine ⟨_, .cons (hQ (i + 1) (by omega) (by omega)) (ht i le_rfl (by omega)) h1, fun x w z y => ?_⟩
    rw [path]
    refine Finset.sum_congr rfl fun k _ => ?_
    rw [← h2]
    have q : ∀ z : ℕ → ℕ, tailIdx (fun j => z (i + j)) = fun j => z (i + 1 + j) := fun z => by
      funext j
      rw [tailIdx, show i + (j + 1) = i + 1 + j by omega]
    rw [q, q]
    rfl

theorem sites_of_chain {Q : Bd → Prop} {l : List (Tensor ν NoSymmetry α)} {a c : Bd} {us ds : List (Option ℕ)}
    {V : Idx → Idx → (ℕ → ℕ) → (ℕ → ℕ) → α} (h : Chain e Q l a c us ds V) :
    ∃ (n : ℕ) (b : ℕ → Bd), l.length = n + 1 ∧ us.length = n + 1 ∧ b 0 = a ∧ b (n + 1) = c ∧
      (∀ j, 0 < j → j < n + 1 → Q (b j)) ∧
      (∀ j < n + 1, HasLegs (ringName e) (l.getD j oneTensor)
        (fullB (b j) (b (j + 1)) (us.getD j none) (ds.getD j none))) ∧
      ∀ x w z y, V x w z y =
        path (fun j => rng (b j)) (fun j x w => elemB e (l.getD j oneTensor) x w (z j) (y j)) n 0 x w := by
  induction h with
  | @one t a b u d ht =>
    refine ⟨0, fun j => if j = 0 then a else b, rfl, rfl, rfl, rfl, fun j h1 h2 => by omega, fun j hj => ?_,
      fun x w z y => rfl⟩
    obtain rfl : j = 0 := by omega
    exact ht
  | @cons t a b c u d l us ds V hQ ht hl ih =>
    obtain ⟨n, b', g1, g1', g2, g3, g4, g5, g6⟩ := ih
    refine ⟨n + 1, fun j => match j with | 0 => a | j + 1 => b' j, by simp [g1], by simp [g1'], rfl, g3, fun j h1 h2 => ?_,
      fun j hj => ?_, fun x w z y => ?_⟩
    · cases j with
      | zero => omega
      | succ j =>
        cases j with
        | zero => dsimp only; rwa [g2]
        | succ j => exact g4 (j + 1) (by omega) (by omega)
    · cases j with
      | zero =>
        dsimp only
        rw [g2]
        exact ht
      | succ j => exact g5 j (by omega)
    · rw [path]
      dsimp only
      rw [g2]
      refine Finset.sum_congr rfl fun k _ => ?_
      rw [g6, path_shift]
      rfl

theorem map_getD (l : List (Tensor ν NoSymmetry α)) :
    (List.range l.length).map (fun j => l.getD j oneTensor) = l := by
  refine List.ext_getElem (by simp) fun j h1 h2 => ?_
  simp only [List.getElem_map, List.getElem_range]
  rw [List.getD_eq_getElem _ _ h2]

/-- Indices of one edge. -/
def plainIdx : ℕ ↪ Idx := ⟨fun k => (k, 0, 0), fun _ _ h => (Prod.ext_iff.1 h).1⟩

theorem rng_plain (k : ℕ) : rng (some k, none, none) = (Finset.range k).map plainIdx := by
  ext ⟨x, y, z⟩
  simp only [rng, bondDim, Option.getD_some, Option.getD_none, Finset.mem_product, Finset.mem_range, Nat.lt_one_iff,
    Finset.mem_map, plainIdx, Function.Embedding.coeFn_mk, Prod.mk.injEq]
  constructor
  · rintro ⟨h1, rfl, rfl⟩
    exact ⟨x, h1, rfl⟩
  · rintro ⟨k, h1, h2⟩
    cases h2
    exact ⟨h1, rfl, rfl⟩

theorem path_plain (he : GridEnvOk e sides) {n : ℕ} {t : ℕ → Tensor ν NoSymmetry α} {h u d : ℕ → ℕ}
    (ht : ∀ j < n + 1, IsSite e.nm sides (t j) (some (h j)) (some (h (j + 1))) (some (u j)) (some (d j)))
    (z y : ℕ → ℕ) (x w : ℕ) :
    path (fun j => rng (some (h j), none, none)) (fun j x w => elemB e (t j) x w (z j) (y j)) n 0 (x, 0, 0) (w, 0, 0) =
      path (fun j => Finset.range (h j)) (fun j x w => Grid.elem e.nm sides (t j) x w (z j) (y j)) n 0 x w :=
  path_map plainIdx n 0 (fun j _ _ => rng_plain _)
    (fun j _ hj x w => (IsSite.ring he (ht j (by omega))).2 x w (z j) (y j)) x w

theorem ringValue_path (nm : String → ν) (n : ℕ) (h : ℕ → ℕ) (t : ℕ → Tensor ν NoSymmetry α) (z y : Fin (n + 1) → ℕ) :
    ringValue nm (n + 1) h t z y = ∑ x ∈ Finset.range (h 0), path (fun j => Finset.range (h j))
      (fun j x w => Grid.elem nm sides (t j) x w (allIdx z j) (allIdx y j)) n 0 x x := by
  refine Eq.trans ?_ (ring_sum (s := fun j => Finset.range (h j))
    (M := fun j x w => Grid.elem nm sides (t j) x w (allIdx z j) (allIdx y j)) n)
  refine Finset.sum_congr rfl fun p _ => Finset.prod_congr rfl fun j _ => ?_
  have q : ∀ z : Fin (n + 1) → ℕ, allIdx z j = z j := fun z => allIdx_val z j
  rw [q, q]

end TAT.Torus
