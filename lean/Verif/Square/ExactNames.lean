import Verif.Square.ExactModel

/-!
# The names of the exact lattice are distinct
-/

namespace TAT

variable {ν : Type}

theorem toDigits_inj {a b : ℕ} (h : Nat.toDigits 10 a = Nat.toDigits 10 b) : a = b := by
  rw [← Nat.ofDigitChars_ten_toDigits (n := a), h, Nat.ofDigitChars_ten_toDigits]

theorem dash_not_digit {a : ℕ} : '-' ∉ Nat.toDigits 10 a := fun h => by
  have := Nat.isDigit_of_mem_toDigits (by decide) (by decide) h
  revert this
  decide

/-- Lists of digits separated by a dash. -/
theorem dash_split : ∀ {a b c d : List Char}, '-' ∉ a → '-' ∉ c → a ++ '-' :: b = c ++ '-' :: d →
    a = c ∧ b = d
  | [], b, [], d, _, _, h => by simpa using h
  | [], b, y :: c, d, _, hc, h => by
    simp only [List.nil_append, List.cons_append, List.cons.injEq] at h
    rw [← h.1] at hc
    simp at hc
  | x :: a, b, [], d, ha, _, h => by
    simp only [List.nil_append, List.cons_append, List.cons.injEq] at h
    rw [h.1] at ha
    simp at ha
  | x :: a, b, y :: c, d, ha, hc, h => by
    simp only [List.cons_append, List.cons.injEq] at h
    have ha' : '-' ∉ a := fun h => ha (by simp [h])
    have hc' : '-' ∉ c := fun h => hc (by simp [h])
    obtain ⟨h1, h2⟩ := dash_split ha' hc' h.2
    exact ⟨by rw [h.1, h1], h2⟩

theorem physString_toList (i j : ℕ) :
    ("P-" ++ toString (i : ℤ) ++ "-" ++ toString (j : ℤ)).toList =
      'P' :: '-' :: (Nat.toDigits 10 i ++ '-' :: Nat.toDigits 10 j) := by
  have h : ∀ n : ℕ, (toString (n : ℤ)).toList = Nat.toDigits 10 n := fun n => by
    rw [show toString (n : ℤ) = n.repr from rfl, Nat.toList_repr]
  rw [String.toList_append, String.toList_append, String.toList_append, h, h]
  simp

theorem numberString_toList (s : String) (k : ℕ) :
    (s ++ toString k).toList = s.toList ++ Nat.toDigits 10 k := by
  rw [String.toList_append, show toString k = k.repr from rfl, Nat.toList_repr]

variable {nm : String → ν} (hnm : Function.Injective nm)

include hnm

theorem physName_inj {i j i' j' : ℕ} (h : physName nm (i, j) = physName nm (i', j')) : i = i' ∧ j = j' := by
  have h := congrArg String.toList (hnm h)
  rw [physString_toList, physString_toList, List.cons.injEq, List.cons.injEq] at h
  obtain ⟨h1, h2⟩ := dash_split dash_not_digit dash_not_digit h.2.2
  exact ⟨toDigits_inj h1, toDigits_inj h2⟩

theorem inName_inj {k k' : ℕ} (h : inName nm k = inName nm k') : k = k' := by
  have h := congrArg String.toList (hnm h)
  rw [numberString_toList, numberString_toList] at h
  exact toDigits_inj (List.append_cancel_left h)

theorem outName_inj {k k' : ℕ} (h : outName nm k = outName nm k') : k = k' := by
  have h := congrArg String.toList (hnm h)
  rw [numberString_toList, numberString_toList] at h
  exact toDigits_inj (List.append_cancel_left h)

theorem inName_ne_outName (k k' : ℕ) : inName nm k ≠ outName nm k' := fun h => by
  have h := congrArg String.toList (hnm h)
  rw [numberString_toList, numberString_toList] at h
  exact absurd (congrArg List.head? h) (by simp)

theorem inName_ne_physName (k : ℕ) (i j : ℕ) : inName nm k ≠ physName nm (i, j) := fun h => by
  have h := congrArg String.toList (hnm h)
  rw [numberString_toList, physString_toList] at h
  exact absurd (congrArg List.head? h) (by simp)

theorem outName_ne_physName (k : ℕ) (i j : ℕ) : outName nm k ≠ physName nm (i, j) := fun h => by
  have h := congrArg String.toList (hnm h)
  rw [numberString_toList, physString_toList] at h
  exact absurd (congrArg List.head? h) (by simp)

end TAT
