import Verif.Pmr.Model
import Mathlib.Tactic.Ring
import Mathlib.Data.List.Perm.Basic

/-!
# Lemmas on the memory resource
-/

namespace TAT

theorem increaseNext_ge (n : ℕ) (h : n < sizeMod) : n ≤ increaseNext n := by
  unfold increaseNext
  split <;> omega

theorem increaseNext_lt (n : ℕ) : increaseNext n < sizeMod := by
  unfold increaseNext
  have : sizeMod = 2 ^ 64 := rfl
  split <;> omega

/-- Buffer sizes are multiples of 16 or the largest size. -/
def NextOk (n : ℕ) : Prop := n % 16 = 0 ∨ n = sizeMod - 1

theorem increaseNext_ok (n : ℕ) (h : NextOk n) : NextOk (increaseNext n) := by
  unfold NextOk increaseNext at *
  have : sizeMod = 2 ^ 64 := rfl
  split
  · exact Or.inr rfl
  · rcases h with h | h
    · left; omega
    · omega

theorem increaseNextTo_spec (fuel n m : ℕ) (h : m ≤ n * 2 ^ fuel) (hn : 1 ≤ n) (hn' : n < sizeMod)
    (hm : m < sizeMod) (hok : NextOk n) :
    ∃ r, increaseNextTo fuel n m = some r ∧ m ≤ r ∧ n ≤ r ∧ r < sizeMod ∧ NextOk r := by
  induction fuel generalizing n with
  | zero =>
    refine ⟨n, ?_, by simpa using h, le_refl n, hn', hok⟩
    unfold increaseNextTo
    rw [if_neg (by simp at h; omega)]
  | succ k ih =>
    unfold increaseNextTo
    by_cases hc : n < m
    · rw [if_pos hc]
      have hge := increaseNext_ge n hn'
      obtain ⟨r, h1, h2, h3, h4⟩ := ih (increaseNext n) (by
        unfold increaseNext
        split
        · calc m ≤ (sizeMod - 1) * 1 := by omega
            _ ≤ _ := Nat.mul_le_mul (le_refl _) (Nat.one_le_two_pow)
        · calc m ≤ _ := h
            _ = _ := by ring) (by omega) (increaseNext_lt n) (increaseNext_ok n hok)
      exact ⟨r, h1, h2, by omega, h4⟩
    · rw [if_neg hc]
      exact ⟨n, rfl, by omega, le_refl n, hn', hok⟩

theorem increaseNextTo_default (n m : ℕ) (hn : 1 ≤ n) (hn' : n < sizeMod) (hm : m < sizeMod)
    (hok : NextOk n) :
    ∃ r, increaseNextTo 64 n m = some r ∧ m ≤ r ∧ n ≤ r ∧ r < sizeMod ∧ NextOk r :=
  increaseNextTo_spec 64 n m (by
    have : sizeMod = 2 ^ 64 := rfl
    rw [← this]
    calc m ≤ 1 * sizeMod := by omega
      _ ≤ _ := Nat.mul_le_mul hn (le_refl _)) hn hn' hm hok

theorem and_mask {x k : ℕ} (hk : k ≤ 64) (hx : x < 2 ^ 64) :
    x &&& (2 ^ 64 - 1 - (2 ^ k - 1)) = x / 2 ^ k * 2 ^ k := by
  have e : 2 ^ 64 - 1 - (2 ^ k - 1) = (2 ^ (64 - k) - 1) <<< k := by
    rw [Nat.shiftLeft_eq, Nat.sub_mul, ← pow_add, Nat.sub_add_cancel hk]
    have := Nat.one_le_two_pow (n := k)
    omega
  have e2 : x / 2 ^ k * 2 ^ k = (x >>> k) <<< k := by
    rw [Nat.shiftLeft_eq, Nat.shiftRight_eq_div_pow]
  rw [e, e2]
  apply Nat.eq_of_testBit_eq
  intro i
  rw [Nat.testBit_and, Nat.testBit_shiftLeft, Nat.testBit_shiftLeft, Nat.testBit_shiftRight,
    Nat.testBit_two_pow_sub_one]
  by_cases h : k ≤ i
  · rw [Nat.add_sub_cancel' h]
    simp only [h, decide_true, Bool.true_and, ge_iff_le]
    by_cases h2 : i < 64
    · have : i - k < 64 - k := by omega
      simp [this]
    · have : x.testBit i = false :=
        Nat.testBit_lt_two_pow (lt_of_lt_of_le hx (Nat.pow_le_pow_right (by omega) (by omega)))
      simp [this]
  · simp [h]

/-- The distance to the next aligned address. -/
theorem alignerOf_spec {cur k : ℕ} (hk : k ≤ 4) (hc : cur ≤ 2 ^ 63) :
    (cur + alignerOf cur (2 ^ k)) % 2 ^ k = 0 ∧ alignerOf cur (2 ^ k) < 2 ^ k := by
  have hp : 1 ≤ 2 ^ k := Nat.one_le_two_pow
  have hp2 : 2 ^ k ≤ 16 := (Nat.pow_le_pow_right (by omega) hk : 2 ^ k ≤ 2 ^ 4)
  have hs : sizeMod = 2 ^ 64 := rfl
  unfold alignerOf
  simp only [hs]
  rw [Nat.mod_eq_of_lt (a := cur + (2 ^ k - 1)) (by omega), and_mask (by omega) (by omega)]
  have h1 := Nat.div_add_mod (cur + (2 ^ k - 1)) (2 ^ k)
  have h2 := Nat.mod_lt (cur + (2 ^ k - 1)) (show 2 ^ k > 0 by omega)
  rw [Nat.mul_comm] at h1
  generalize (cur + (2 ^ k - 1)) / 2 ^ k = q at *
  have h3 : cur ≤ q * 2 ^ k := by omega
  have h4 : q * 2 ^ k + 2 ^ 64 - cur = (q * 2 ^ k - cur) + 2 ^ 64 := by omega
  rw [h4, Nat.add_mod_right, Nat.mod_eq_of_lt (a := q * 2 ^ k - cur) (by omega)]
  refine ⟨?_, by omega⟩
  rw [Nat.add_sub_cancel' h3]
  exact Nat.mul_mod_left _ _

end TAT
