import Verif.Torus.LinesSpec
import Mathlib.Algebra.BigOperators.Ring.Finset
import Mathlib.Data.Fintype.BigOperators

/-!
# Products of matrices along a path, and closed to a ring
-/

namespace TAT.Torus

variable {α β : Type} [CommRing α] {s : ℕ → Finset β} {M : ℕ → β → β → α}

/-- The product of the matrices `M i`, ..., `M (i + n)`. -/
def path (s : ℕ → Finset β) (M : ℕ → β → β → α) : ℕ → ℕ → β → β → α
  | 0, i, x, y => M i x y
  | n + 1, i, x, y => ∑ w ∈ s (i + 1), M i x w * path s M n (i + 1) w y

theorem path_last (n i : ℕ) (x y : β) :
    path s M (n + 1) i x y = ∑ w ∈ s (i + n + 1), path s M n i x w * M (i + n + 1) w y := by
  induction n generalizing i x with
  | zero => rfl
  | succ n ih =>
    have hR : ∀ w, path s M (n + 1) i x w = ∑ w' ∈ s (i + 1), M i x w' * path s M n (i + 1) w' w := fun _ => rfl
    have hL : path s M (n + 1 + 1) i x y = ∑ w ∈ s (i + 1), M i x w * ∑ w' ∈ s (i + (n + 1) + 1),
        path s M n (i + 1) w w' * M (i + (n + 1) + 1) w' y :=
      Finset.sum_congr rfl fun w _ => by rw [ih, show i + 1 + n + 1 = i + (n + 1) + 1 by omega]
    rw [hL]
    simp only [hR, Finset.sum_mul, Finset.mul_sum]
    rw [Finset.sum_comm]
    exact Finset.sum_congr rfl fun w _ => Finset.sum_congr rfl fun w' _ => (mul_assoc _ _ _).symm

theorem sum_cons (n : ℕ) (S : Fin (n + 1) → Finset β) [DecidableEq β] (F : (Fin (n + 1) → β) → α) :
    ∑ p ∈ Fintype.piFinset S, F p =
      ∑ x ∈ S 0, ∑ p ∈ Fintype.piFinset fun j : Fin n => S j.succ, F (Fin.cons x p) := by
  rw [← Finset.sum_product']
  refine Finset.sum_nbij' (fun q => (q 0, fun k => q k.succ)) (fun p => (Fin.cons p.1 p.2 : Fin (n + 1) → β)) ?_ ?_ ?_ ?_ ?_
  · intro q hq
    simp only [Fintype.mem_piFinset, Finset.mem_product] at hq ⊢
    exact ⟨hq 0, fun k => hq k.succ⟩
  · rintro ⟨b, q⟩ hq
    simp only [Fintype.mem_piFinset, Finset.mem_product] at hq ⊢
    intro k
    refine Fin.cases ?_ (fun k => ?_) k
    · simpa using hq.1
    · simpa using hq.2 k
  · intro q _
    funext k
    refine Fin.cases ?_ (fun k => ?_) k <;> simp
  · rintro ⟨b, q⟩ _
    simp
  · intro q _
    congr 1
    funext k
    refine Fin.cases ?_ (fun k => ?_) k <;> simp

theorem path_eq [DecidableEq β] (n i : ℕ) (x y : β) :
    path s M n i x y = ∑ p ∈ Fintype.piFinset fun j : Fin n => s (i + j + 1),
      ∏ j : Fin (n + 1), M (i + j) ((Fin.cons x p : Fin (n + 1) → β) j) ((Fin.snoc p y : Fin (n + 1) → β) j) := by
  induction n generalizing i x with
  | zero => simp [path, Fin.snoc]
  | succ n ih =>
    rw [path, sum_cons]
    refine Finset.sum_congr (by simp) fun w _ => ?_
    rw [ih, Finset.mul_sum]
    refine Finset.sum_congr (by congr 1; funext j; rw [Fin.val_succ]; congr 1; omega) fun p _ => ?_
    rw [Fin.prod_univ_succ (n := n + 1)]
    congr 1
    refine Finset.prod_congr rfl fun j _ => ?_
    rw [Fin.cons_succ, ← Fin.cons_snoc_eq_snoc_cons (β := β) w p y, Fin.cons_succ, Fin.val_succ,
      show i + 1 + (j : ℕ) = i + (j + 1) by omega]

theorem ring_sum [DecidableEq β] (n : ℕ) :
    ∑ p ∈ Fintype.piFinset fun j : Fin (n + 1) => s j, ∏ j : Fin (n + 1), M j (p j) (p (next j)) =
      ∑ x ∈ s 0, path s M n 0 x x := by
  rw [sum_cons]
  refine Finset.sum_congr rfl fun x _ => ?_
  rw [path_eq]
  refine Finset.sum_congr (by congr 1; funext j; rw [Fin.val_succ, Nat.zero_add]) fun p _ => ?_
  refine Finset.prod_congr rfl fun j _ => ?_
  rw [Nat.zero_add]
  congr 1
  refine Fin.lastCases ?_ (fun j => ?_) j
  · have : next (Fin.last n) = 0 := Fin.ext (by simp [next])
    rw [this]
    simp
  · have : next j.castSucc = j.succ := Fin.ext (by
      have := j.isLt
      simp only [next, Fin.val_castSucc, Fin.val_succ]
      exact Nat.mod_eq_of_lt (by omega))
    rw [this]
    simp

end TAT.Torus
