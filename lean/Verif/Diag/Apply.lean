import Verif.Diag.Model
import Verif.Diag.Spec
import Verif.Square.DenseArith
import Verif.Square.AuxLegs
import Verif.Square.ExactNames
import Mathlib.Algebra.BigOperators.Fin
import Mathlib.Algebra.BigOperators.Ring.Finset
import Mathlib.Data.Fintype.Pi

/-!
# An operator applied to two sites of the state
-/

namespace TAT.Diag

set_option linter.unusedSectionVars false

open Mps

/-! ## names -/

/-- The names of edges. -/
inductive Lab
  | site (k : ℕ)
  | inp (b : Bool)
  | out (b : Bool)
deriving DecidableEq

/-- The string of a label. -/
def labText : Lab → String
  | .site k => toString k
  | .inp false => "I0"
  | .inp true => "I1"
  | .out false => "O0"
  | .out true => "O1"

theorem toString_toList (k : ℕ) : (toString k).toList = Nat.toDigits 10 k := by
  simp [toString, Nat.repr]

theorem site_ne (k : ℕ) {s : String} (hs : ∃ c ∈ s.toList, c.isDigit = false) : toString k ≠ s := by
  rintro rfl
  obtain ⟨c, hc, h⟩ := hs
  rw [toString_toList] at hc
  rw [Nat.isDigit_of_mem_toDigits (by decide) (by decide) hc] at h
  exact absurd h (by decide)

theorem labText_injective : Function.Injective labText := by
  have hI0 : ∃ c ∈ "I0".toList, c.isDigit = false := ⟨'I', by decide, by decide⟩
  have hI1 : ∃ c ∈ "I1".toList, c.isDigit = false := ⟨'I', by decide, by decide⟩
  have hO0 : ∃ c ∈ "O0".toList, c.isDigit = false := ⟨'O', by decide, by decide⟩
  have hO1 : ∃ c ∈ "O1".toList, c.isDigit = false := ⟨'O', by decide, by decide⟩
  have key : ∀ (k : ℕ) (g : Lab), (∀ k', g ≠ .site k') → toString k ≠ labText g := by
    intro k g hg
    match g with
    | .site k' => exact absurd rfl (hg k')
    | .inp false => exact site_ne k hI0
    | .inp true => exact site_ne k hI1
    | .out false => exact site_ne k hO0
    | .out true => exact site_ne k hO1
  intro g g' h
  match g, g' with
  | .site k, .site k' =>
    have h := congrArg String.toList h
    rw [labText, labText, toString_toList, toString_toList] at h
    rw [toDigits_inj h]
  | .site k, .inp b => exact absurd h (key k _ (by simp))
  | .site k, .out b => exact absurd h (key k _ (by simp))
  | .inp b, .site k => exact absurd h.symm (key k _ (by simp))
  | .out b, .site k => exact absurd h.symm (key k _ (by simp))
  | .inp false, .inp false => rfl
  | .inp false, .inp true => exact absurd h (by decide)
  | .inp true, .inp false => exact absurd h (by decide)
  | .inp true, .inp true => rfl
  | .out false, .out false => rfl
  | .out false, .out true => exact absurd h (by decide)
  | .out true, .out false => exact absurd h (by decide)
  | .out true, .out true => rfl
  | .inp false, .out false => exact absurd h (by decide)
  | .inp false, .out true => exact absurd h (by decide)
  | .inp true, .out false => exact absurd h (by decide)
  | .inp true, .out true => exact absurd h (by decide)
  | .out false, .inp false => exact absurd h (by decide)
  | .out false, .inp true => exact absurd h (by decide)
  | .out true, .inp false => exact absurd h (by decide)
  | .out true, .inp true => exact absurd h (by decide)

variable {ν α β : Type} [LinearOrder ν] [Field α] [LinearOrder β] [Field β] {e : NetEnv ν α β} {n : ℕ}

/-- The name of a label. -/
def labName (nm : String → ν) (g : Lab) : ν := nm (labText g)

/-- The edges of a state. -/
def stateLegs (n : ℕ) : Lab → Option ℕ
  | .site k => if k < n then some 2 else none
  | _ => none

/-- The edges of an operator. -/
def opLegs : Lab → Option ℕ
  | .site _ => none
  | _ => some 2

/-- The indices of a configuration. -/
def spinsOf (s : Spins n) : Lab → ℕ
  | .site k => if h : k < n then (s ⟨k, h⟩).val else 0
  | _ => 0

variable {nm : String → ν}

theorem siteName_inj (hi : Function.Injective nm) {k k' : Fin n} (h : nm (toString k.val) = nm (toString k'.val)) :
    k = k' := by
  have := labText_injective (show labText (.site k.val) = labText (.site k'.val) from hi h)
  exact Fin.ext (by simpa using this)

theorem spinsAt_site (hi : Function.Injective nm) (s : Spins n) (k : Fin n) :
    spinsAt nm s (nm (toString k.val)) = (s k).val := by
  unfold spinsAt
  cases h : (List.finRange n).find? fun k' => decide (nm (toString k'.val) = nm (toString k.val)) with
  | some k' =>
    have e : k' = k := siteName_inj hi (by simpa using List.find?_some h)
    rw [e]
  | none =>
    have := List.find?_eq_none.1 h k (List.mem_finRange k)
    simp at this

theorem state_legs (hi : Function.Injective nm) {t : Tensor ν NoSymmetry α} (ht : IsState nm n t) :
    HasLegs (labName nm) t (stateLegs n) := by
  have hι : Function.Injective (labName nm) := hi.comp labText_injective
  refine ⟨ht.dense, fun m hm => ?_, fun g => ?_⟩
  · obtain ⟨k, rfl⟩ := ht.only m hm
    exact ⟨.site k.val, rfl⟩
  · by_cases h : ∃ k : Fin n, g = .site k.val
    · obtain ⟨k, rfl⟩ := h
      rw [stateLegs, if_pos k.isLt]
      exact ht.site k
    · have h1 : gleg (labName nm) t g = none := by
        by_contra hne
        obtain ⟨k, hk⟩ := ht.only _ hne
        exact h ⟨k, hι hk⟩
      rw [h1]
      cases g with
      | site k =>
        rw [stateLegs, if_neg]
        intro hk
        exact h ⟨⟨k, hk⟩, rfl⟩
      | inp b => rfl
      | out b => rfl

theorem state_of {t : Tensor ν NoSymmetry α}
    (ht : HasLegs (labName nm) t (stateLegs n)) : IsState nm n t := by
  refine ⟨ht.dense, fun k => (ht.legs (.site k.val)).trans (if_pos k.isLt), fun m hm => ?_⟩
  obtain ⟨g, rfl⟩ := ht.only m hm
  have h := ht.legs g
  have hm : gleg (labName nm) t g ≠ none := hm
  rw [h] at hm
  cases g with
  | site k =>
    by_cases hk : k < n
    · exact ⟨⟨k, hk⟩, rfl⟩
    · exact absurd (if_neg hk) hm
  | inp b => exact absurd rfl hm
  | out b => exact absurd rfl hm

theorem ampOf_gval (hi : Function.Injective nm) {t : Tensor ν NoSymmetry α} (ht : IsState nm n t) (s : Spins n) :
    ampOf nm t s = gval (labName nm) t (spinsOf s) := by
  have hι : Function.Injective (labName nm) := hi.comp labText_injective
  rw [ampOf, val_eq_gval hι (state_legs hi ht)]
  refine gval_congr hι (state_legs hi ht) fun g hg => ?_
  cases g with
  | site k =>
    have hk : k < n := by
      by_contra hk
      exact hg (if_neg hk)
    rw [spinsOf, dif_pos hk]
    exact spinsAt_site hi s ⟨k, hk⟩
  | inp b => exact absurd rfl hg
  | out b => exact absurd rfl hg

theorem op_legs (hi : Function.Injective nm) {op : Tensor ν NoSymmetry α} (ho : IsOperator nm 2 op) :
    HasLegs (labName nm) op opLegs ∧ ∀ f, gval (labName nm) op f =
      operatorVal nm op (f (.inp false)) (f (.inp true)) (f (.out false)) (f (.out true)) := by
  have hι : Function.Injective (labName nm) := hi.comp labText_injective
  have h1 : HasLegs (labName nm) op opLegs := by
    refine ⟨ho.dense, fun m hm => ?_, fun g => ?_⟩
    · rw [ho.legs] at hm
      split at hm
      · next h =>
        simp only [List.mem_cons, List.not_mem_nil, or_false] at h
        rcases h with rfl | rfl | rfl | rfl
        · exact ⟨.inp false, rfl⟩
        · exact ⟨.inp true, rfl⟩
        · exact ⟨.out false, rfl⟩
        · exact ⟨.out true, rfl⟩
      · exact absurd rfl hm
    · have h := ho.legs (labName nm g)
      match g with
      | .inp false => exact h.trans (if_pos (by simp [labName, labText]))
      | .inp true => exact h.trans (if_pos (by simp [labName, labText]))
      | .out false => exact h.trans (if_pos (by simp [labName, labText]))
      | .out true => exact h.trans (if_pos (by simp [labName, labText]))
      | .site k =>
        refine h.trans (if_neg fun hm => ?_)
        simp only [List.mem_cons, List.not_mem_nil, or_false] at hm
        rcases hm with hm | hm | hm | hm
        · exact absurd (hι (a₂ := .inp false) hm) (by simp)
        · exact absurd (hι (a₂ := .inp true) hm) (by simp)
        · exact absurd (hι (a₂ := .out false) hm) (by simp)
        · exact absurd (hι (a₂ := .out true) hm) (by simp)
  refine ⟨h1, fun f => ?_⟩
  rw [operatorVal, val_eq_gval hι h1]
  refine gval_congr hι h1 fun g hg => ?_
  have hne : ∀ s t : String, s ≠ t → nm s ≠ nm t := fun s t h h' => h (hi h')
  have e1 := hne "I1" "I0" (by decide)
  have e2 := hne "O0" "I0" (by decide)
  have e3 := hne "O0" "I1" (by decide)
  have e4 := hne "O1" "I0" (by decide)
  have e5 := hne "O1" "I1" (by decide)
  have e6 := hne "O1" "O0" (by decide)
  match g with
  | .inp false => simp [labName, labText]
  | .inp true => simp [labName, labText, e1]
  | .out false => simp [labName, labText, e2, e3]
  | .out true => simp [labName, labText, e4, e5, e6]
  | .site k => exact absurd rfl hg

/-! ## the operator -/

theorem apply_ok (he : DiagEnvOk e) {op t : Tensor ν NoSymmetry α} (ho : IsOperator e.nm 2 op)
    (ht : IsState e.nm n t) {l : Link n} (hl : l.1 ≠ l.2) :
    ∃ t', applyLink e op t (l.1.val, l.2.val) = .ok t' ∧ IsState e.nm n t' ∧
      ∀ s : Spins n, ampOf e.nm t' s = applyTo (operatorVal e.nm op) (ampOf e.nm t) l s := by
  obtain ⟨⟨i, hi⟩, ⟨j, hj⟩⟩ := l
  have hij : i ≠ j := fun h => hl (Fin.ext h)
  have hji : j ≠ i := hij.symm
  have hι : Function.Injective (labName e.nm) := he.inj.comp labText_injective
  have h1 := state_legs he.inj ht
  obtain ⟨o1, o2⟩ := op_legs he.inj ho
  obtain ⟨r, c1, c2, c3⟩ := label_contract hι e.ce he.gemm he.names h1 o1
    [(.site i, .inp false), (.site j, .inp true)] (by simp [hij]) (by simp)
    (by simp [stateLegs, opLegs, hi, hj]) (by
      intro g _ _
      cases g with
      | site k => exact Or.inr rfl
      | inp b => exact Or.inl rfl
      | out b => exact Or.inl rfl)
  obtain ⟨d1, d2⟩ := label_rename hι c2 [(.out false, .site i), (.out true, .site j)] (by simp) (by simp [hij])
    (by simp [contractLegs, stateLegs, opLegs])
  have d1 : HasLegs (labName e.nm) _ (stateLegs n) := ⟨d1.dense, d1.only, fun g => (d1.legs g).trans (by
    match g with
    | .site k =>
      by_cases h1 : i = k
      · subst h1
        simp [renameLegs, contractLegs, stateLegs, opLegs, hi]
      · by_cases h2 : j = k
        · subst h2
          simp [renameLegs, contractLegs, stateLegs, opLegs, hj, h1]
        · have h1' : ¬ k = i := fun h => h1 h.symm
          have h2' : ¬ k = j := fun h => h2 h.symm
          simp [renameLegs, contractLegs, stateLegs, opLegs, h1, h2, h1', h2']
    | .inp false => simp [renameLegs, contractLegs, stateLegs]
    | .inp true => simp [renameLegs, contractLegs, stateLegs]
    | .out false => simp [renameLegs, stateLegs]
    | .out true => simp [renameLegs, stateLegs])⟩
  have hs := state_of d1
  refine ⟨_, ?_, hs, fun s => ?_⟩
  · have c1' : e.join t op [(toString i, "I0"), (toString j, "I1")] = .ok r := c1
    rw [applyLink, c1', Outcome.bind]
    rfl
  · rw [ampOf_gval he.inj hs, d2, c3]
    simp only [sumPairs, stateLegs, hi, hj, if_true, Option.getD_some]
    rw [applyTo, Finset.sum_range]
    refine Finset.sum_congr rfl fun a _ => ?_
    rw [Finset.sum_range]
    refine Finset.sum_congr rfl fun b _ => ?_
    rw [ampOf_gval he.inj ht, o2]
    congr 1
    · refine gval_congr hι h1 fun g hg => ?_
      cases g with
      | inp b => exact absurd rfl hg
      | out b => exact absurd rfl hg
      | site k =>
        have hk : k < n := by
          by_contra hk
          exact hg (if_neg hk)
        rw [spinsOf, dif_pos hk]
        by_cases h2 : k = j
        · subst h2
          simp
        · by_cases h1 : k = i
          · subst h1
            rw [Function.update_of_ne (by simpa using h2), Function.update_self,
              Function.update_of_ne (by simpa [Fin.ext_iff] using h2), Function.update_self]
          · have h1' : ¬ i = k := fun h => h1 h.symm
            have h2' : ¬ j = k := fun h => h2 h.symm
            rw [Function.update_of_ne (by simpa using h2), Function.update_of_ne (by simpa using h1),
              Function.update_of_ne (by simpa [Fin.ext_iff] using h2),
              Function.update_of_ne (by simpa [Fin.ext_iff] using h1)]
            simp [renameTo, spinsOf, hk]
    · simp [renameTo, spinsOf, hi, hj]

end TAT.Diag
