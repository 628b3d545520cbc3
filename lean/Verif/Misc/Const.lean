import Mathlib.Data.List.Basic

/-!
# Dispatch to compile-time constants

C47, const_integral.hpp.
-/

namespace TAT

variable {T : Type}

/-- const_integral.hpp 56, 57 `to_const_result`: the alternatives of the variant.  The alternative
with a run-time value is number 0, the one for the `i`-th possible value, which is part of the type,
number `i + 1`. -/
inductive ConstResult (T : Type) where
  | dynamic (value : T)
  | static (alternative : ℕ) (value : T)
deriving DecidableEq, Repr

/-- const_integral.hpp 59-70 `to_const_helper`; `i` counts the template arguments already tried. -/
def toConstHelper [DecidableEq T] (i : ℕ) : List T → T → ConstResult T
  | [], value => .dynamic value
  | first :: rest, value => if first = value then .static (i + 1) first else toConstHelper (i + 1) rest value

/-- const_integral.hpp 72-76 `to_const` -/
def toConst [DecidableEq T] (possible : List T) (value : T) : ConstResult T :=
  toConstHelper 0 possible value

/-- `std::visit([](const auto& v) { return f(v.value()); }, r)` with 28-51 `Integer::value`. -/
def visitConst {R : Type} (f : T → R) : ConstResult T → R
  | .dynamic v => f v
  | .static _ v => f v

theorem toConstHelper_spec [DecidableEq T] (i : ℕ) (l : List T) (v : T) :
    (v ∉ l ∧ toConstHelper i l v = .dynamic v) ∨
      ∃ j < l.length, l[j]? = some v ∧ (∀ k < j, l[k]? ≠ some v) ∧
        toConstHelper i l v = .static (i + j + 1) v := by
  induction l generalizing i with
  | nil => exact Or.inl ⟨by simp, rfl⟩
  | cons a l ih =>
    unfold toConstHelper
    by_cases h : a = v
    · rw [if_pos h]
      exact Or.inr ⟨0, by simp, by simp [h], by simp, by rw [h]⟩
    · rw [if_neg h]
      rcases ih (i + 1) with ⟨h1, h2⟩ | ⟨j, h1, h2, h3, h4⟩
      · exact Or.inl ⟨by simp [h1, Ne.symm h], h2⟩
      · refine Or.inr ⟨j + 1, by simpa using h1, by simpa using h2, fun k hk => ?_, ?_⟩
        · cases k with
          | zero => simpa using h
          | succ k => simpa using h3 k (by omega)
        · rw [h4]; congr 1; omega

/-- **C47**: visiting the result calls the function with exactly the run-time value. -/
theorem C47_visit [DecidableEq T] {R : Type} (f : T → R) (possible : List T) (value : T) :
    visitConst f (toConst possible value) = f value := by
  unfold toConst
  rcases toConstHelper_spec 0 possible value with ⟨_, h⟩ | ⟨j, _, _, _, h⟩ <;> rw [h] <;> rfl

/-- **C47**: a possible value becomes the constant of the first alternative with this value. -/
theorem C47_static [DecidableEq T] (possible : List T) {value : T} (h : value ∈ possible) :
    ∃ j, possible[j]? = some value ∧ (∀ k < j, possible[k]? ≠ some value) ∧
      toConst possible value = .static (j + 1) value := by
  unfold toConst
  rcases toConstHelper_spec 0 possible value with ⟨h', _⟩ | ⟨j, _, h2, h3, h4⟩
  · exact absurd h h'
  · exact ⟨j, h2, h3, by rw [h4]; congr 1; omega⟩

/-- **C47**: any other value stays a run-time value. -/
theorem C47_dynamic [DecidableEq T] (possible : List T) {value : T} (h : value ∉ possible) :
    toConst possible value = .dynamic value := by
  unfold toConst
  rcases toConstHelper_spec 0 possible value with ⟨_, h'⟩ | ⟨j, _, h2, _, _⟩
  · exact h'
  · exact absurd (List.mem_of_getElem? h2) h

/-- The ranks of transpose.hpp and a value outside. -/
example : toConst [0, 1, 2, 3, 4, 8, 16] 4 = .static 5 4 ∧
    toConst [0, 1, 2, 3, 4, 8, 16] 5 = .dynamic 5 := by decide

end TAT
