import Verif.Mpi.Model

/-!
# Lemmas on ranks and channels
-/

namespace TAT

variable {V : Type}

theorem fake_real {n root f : ℕ} (hr : root < n) (hf : f < n) : fakeRank n root (realRank n root f) = f := by
  unfold fakeRank realRank
  by_cases h : f + root < n
  · rw [Nat.mod_eq_of_lt h]
    have : n + (f + root) - root = f + n := by omega
    rw [this, Nat.add_mod_right, Nat.mod_eq_of_lt hf]
  · rw [Nat.mod_eq_sub_mod (a := f + root) (by omega),
      Nat.mod_eq_of_lt (a := f + root - n) (by omega)]
    have : n + (f + root - n) - root = f := by omega
    rw [this, Nat.mod_eq_of_lt hf]

theorem real_fake {n root i : ℕ} (hr : root < n) (hi : i < n) : realRank n root (fakeRank n root i) = i := by
  unfold fakeRank realRank
  by_cases h : root ≤ i
  · have : n + i - root = (i - root) + n := by omega
    rw [this, Nat.add_mod_right, Nat.mod_eq_of_lt (a := i - root) (by omega)]
    rw [Nat.sub_add_cancel h, Nat.mod_eq_of_lt hi]
  · rw [Nat.mod_eq_of_lt (a := n + i - root) (by omega)]
    have : n + i - root + root = i + n := by omega
    rw [this, Nat.add_mod_right, Nat.mod_eq_of_lt hi]

theorem real_lt {n root : ℕ} (f : ℕ) (hr : root < n) : realRank n root f < n := Nat.mod_lt _ (by omega)

theorem fake_lt {n root : ℕ} (i : ℕ) (hr : root < n) : fakeRank n root i < n := Nat.mod_lt _ (by omega)

theorem real_zero {n root : ℕ} (hr : root < n) : realRank n root 0 = root := by
  unfold realRank; rw [Nat.zero_add, Nat.mod_eq_of_lt hr]

theorem real_inj {n root f g : ℕ} (hr : root < n) (hf : f < n) (hg : g < n) :
    realRank n root f = realRank n root g ↔ f = g :=
  ⟨fun h => by rw [← fake_real hr hf, h, fake_real hr hg], fun h => by rw [h]⟩

theorem forall_real {n root : ℕ} (hr : root < n) {p : ℕ → Prop} :
    (∀ i < n, p i) ↔ ∀ f < n, p (realRank n root f) :=
  ⟨fun h f _ => h _ (real_lt f hr), fun h i hi => by
    have := h _ (fake_lt i hr)
    rwa [real_fake hr hi] at this⟩

/-- The update of a function of ranks, in terms of positions in the tree. -/
theorem update_real {α : Type} {n root f g : ℕ} (hr : root < n) (hf : f < n) (hg : g < n) (u : ℕ → α)
    (x : α) : Function.update u (realRank n root f) x (realRank n root g) =
      if g = f then x else u (realRank n root g) := by
  by_cases h : g = f
  · rw [if_pos h, h, Function.update_self]
  · rw [if_neg h, Function.update_of_ne]
    exact fun c => h ((real_inj hr hg hf).1 c)

theorem setChan_real {n root f g f' g' : ℕ} (hr : root < n) (hf : f < n) (hg : g < n) (hf' : f' < n)
    (hg' : g' < n) (c : ℕ → ℕ → List V) (l : List V) :
    setChan c (realRank n root f) (realRank n root g) l (realRank n root f') (realRank n root g') =
      if f' = f ∧ g' = g then l else c (realRank n root f') (realRank n root g') := by
  unfold setChan
  simp only [real_inj hr hf' hf, real_inj hr hg' hg]

end TAT
