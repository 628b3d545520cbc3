import Verif.Symmetry.Model
import Mathlib.Algebra.Group.Defs
import Mathlib.Order.Defs.LinearOrder
import Mathlib.Data.Prod.Lex

/-!
# The algebra behind the symmetry types

`TatSym` collects what the rest of the development uses about a symmetry type: it is an ordered
abelian group with a fermion number whose parity is additive.  The instances below are *built from*
the C++ operations of `Model.lean`; their laws are proved here.
-/

namespace TAT

/-- Parity of a fermion number (specification): odd as an integer. -/
theorem oddInt_eq (f : Int) : oddInt f = decide (f % 2 = 1) := by
  unfold oddInt
  have h : Int.tmod f 2 ≠ 0 ↔ f % 2 = 1 := by
    rw [ne_eq, ← Int.dvd_iff_tmod_eq_zero, Int.dvd_iff_emod_eq_zero]
    omega
  by_cases hf : f % 2 = 1
  · have := h.2 hf
    simp [this, hf]
  · have : Int.tmod f 2 = 0 := by
      by_contra hc
      exact hf (h.1 hc)
    simp [this, hf]

/-- A symmetry type as the rest of the library uses it. -/
class TatSym (σ : Type) extends AddCommGroup σ, LinearOrder σ where
  /-- `is_fermi_symmetry_v<Symmetry>` (symmetry.hpp 79-80) -/
  isFermi : Bool
  /-- `std::is_same_v<Symmetry, NoSymmetry>` -/
  isNoSym : Bool
  /-- the field `.fermi`, promoted to `int`; 0 for bosonic types, which have no such field -/
  fermi : σ → Int
  /-- parity is additive -/
  odd_add : ∀ a b, oddInt (fermi (a + b)) = (oddInt (fermi a) ^^ oddInt (fermi b))
  fermi_zero : fermi 0 = 0
  /-- bosonic types carry no fermion number -/
  fermi_bose : isFermi = false → ∀ a, fermi a = 0
  /-- `NoSymmetry` has a single value -/
  noSym_eq : isNoSym = true → ∀ a b : σ, a = b
  /-- and is bosonic -/
  noSym_bose : isNoSym = true → isFermi = false

section arith

theorem narrow16_add_toInt (a b : Fermi) : narrow16 (a.toInt + b.toInt) = a + b := by
  simp [narrow16, BitVec.ofInt_add]

theorem narrow32_add_toInt (a b : U1) : narrow32 (a.toInt + b.toInt) = a + b := by
  simp [narrow32, BitVec.ofInt_add]

theorem narrow16_neg_toInt (a : Fermi) : narrow16 (-a.toInt) = -a := by
  apply BitVec.eq_of_toInt_eq
  simp [narrow16, BitVec.toInt_neg]

theorem narrow32_neg_toInt (a : U1) : narrow32 (-a.toInt) = -a := by
  apply BitVec.eq_of_toInt_eq
  simp [narrow32, BitVec.toInt_neg]

theorem oddInt_bmod (i : Int) : oddInt (Int.bmod i (2 ^ 16)) = oddInt i := by
  rw [oddInt_eq, oddInt_eq]
  have h : (Int.bmod i (2 ^ 16)) % 2 = i % 2 := by
    rw [Int.bmod_def]
    split <;> omega
  rw [h]

theorem oddInt_add (a b : Int) : oddInt (a + b) = (oddInt a ^^ oddInt b) := by
  simp only [oddInt_eq]
  rcases Int.emod_two_eq_zero_or_one a with ha | ha <;>
  rcases Int.emod_two_eq_zero_or_one b with hb | hb <;>
  · have : (a + b) % 2 = (a % 2 + b % 2) % 2 := Int.add_emod a b 2
    simp [this, ha, hb]

theorem oddInt_neg (a : Int) : oddInt (-a) = oddInt a := by
  simp only [oddInt_eq]
  have : (-a) % 2 = 1 ↔ a % 2 = 1 := by omega
  simp [this]

theorem odd_toInt_add (a b : Fermi) :
    oddInt (a + b).toInt = (oddInt a.toInt ^^ oddInt b.toInt) := by
  rw [BitVec.toInt_add, oddInt_bmod, oddInt_add]

theorem odd_toInt_neg (a : Fermi) : oddInt (-a).toInt = oddInt a.toInt := by
  rw [BitVec.toInt_neg, oddInt_bmod, oddInt_neg]

theorem b2i_inj {a b : Bool} (h : b2i a = b2i b) : a = b := by
  cases a <;> cases b <;> simp_all [b2i]

/-- A linear order from an injective key into integer pairs, compared like `std::tuple`. -/
@[instance_reducible]
def linearOrderOfKey {σ : Type} [DecidableEq σ] (key : σ → Int × Int)
    (inj : Function.Injective key) : LinearOrder σ where
  le a b := tieLt (key b) (key a) = false
  lt a b := tieLt (key a) (key b) = true
  le_refl a := by simp [tieLt]
  le_trans a b c := by
    simp only [tieLt, Bool.or_eq_false_iff, Bool.and_eq_false_iff, decide_eq_false_iff_not,
      Bool.not_eq_false', decide_eq_true_eq]
    omega
  lt_iff_le_not_ge a b := by
    simp only [tieLt, Bool.or_eq_false_iff, Bool.and_eq_false_iff, decide_eq_false_iff_not,
      Bool.not_eq_false', decide_eq_true_eq, Bool.or_eq_true, Bool.and_eq_true, Bool.not_eq_true']
    omega
  le_antisymm a b := by
    simp only [tieLt, Bool.or_eq_false_iff, Bool.and_eq_false_iff, decide_eq_false_iff_not,
      Bool.not_eq_false', decide_eq_true_eq]
    intro h1 h2
    apply inj
    apply Prod.ext <;> omega
  le_total a b := by
    simp only [tieLt, Bool.or_eq_false_iff, Bool.and_eq_false_iff, decide_eq_false_iff_not,
      Bool.not_eq_false', decide_eq_true_eq]
    omega
  toDecidableLE a b := inferInstanceAs (Decidable (tieLt (key b) (key a) = false))
  toDecidableLT a b := inferInstanceAs (Decidable (tieLt (key a) (key b) = true))
  toDecidableEq := inferInstance

end arith

/-- An abelian group from `SymOps` whose laws are proved. -/
@[instance_reducible]
def groupOfOps {σ : Type} [SymOps σ]
    (assoc : ∀ a b c : σ, SymOps.plus (SymOps.plus a b) c = SymOps.plus a (SymOps.plus b c))
    (zero_add : ∀ a : σ, SymOps.plus SymOps.default a = a)
    (comm : ∀ a b : σ, SymOps.plus a b = SymOps.plus b a)
    (neg_add : ∀ a : σ, SymOps.plus (SymOps.minus a) a = SymOps.default) : AddCommGroup σ where
  add := SymOps.plus
  zero := SymOps.default
  neg := SymOps.minus
  add_assoc := assoc
  zero_add := zero_add
  add_zero a := by
    show SymOps.plus a SymOps.default = a
    rw [comm]; exact zero_add a
  add_comm := comm
  neg_add_cancel := neg_add
  nsmul := @nsmulRec σ ⟨SymOps.default⟩ ⟨SymOps.plus⟩
  zsmul := @zsmulRec σ ⟨SymOps.default⟩ ⟨SymOps.plus⟩ ⟨SymOps.minus⟩ (@nsmulRec σ ⟨SymOps.default⟩ ⟨SymOps.plus⟩)

instance : TatSym NoSymmetry where
  toAddCommGroup := groupOfOps (fun _ _ _ => rfl) (fun _ => rfl) (fun _ _ => rfl) (fun _ => rfl)
  toLinearOrder := linearOrderOfKey NoSymmetry.information (fun _ _ _ => rfl)
  isFermi := false
  isNoSym := true
  fermi _ := 0
  odd_add _ _ := by decide
  fermi_zero := rfl
  fermi_bose _ _ := rfl
  noSym_eq _ _ _ := rfl
  noSym_bose _ := rfl

instance : TatSym Z2Symmetry where
  toAddCommGroup := groupOfOps
    (fun a b c => by simp [SymOps.plus])
    (fun a => by simp [SymOps.plus, SymOps.default])
    (fun a b => by simp [SymOps.plus, Bool.xor_comm])
    (fun a => by simp [SymOps.plus, SymOps.default, SymOps.minus])
  toLinearOrder := linearOrderOfKey Z2Symmetry.information (fun a b h => by
    have := b2i_inj (Prod.mk.inj h).1
    cases a; cases b; simp_all)
  isFermi := false
  isNoSym := false
  fermi _ := 0
  odd_add _ _ := by decide
  fermi_zero := rfl
  fermi_bose _ _ := rfl
  noSym_eq h := by simp at h
  noSym_bose h := by simp at h

instance : TatSym U1Symmetry where
  toAddCommGroup := groupOfOps
    (fun a b c => by
      simp only [SymOps.plus, narrow32_add_toInt]
      simp only [BitVec.add_assoc, Bool.xor_assoc])
    (fun a => by simp [SymOps.plus, SymOps.default, narrow32])
    (fun a b => by simp [SymOps.plus, narrow32_add_toInt, BitVec.add_comm])
    (fun a => by
      simp only [SymOps.plus, SymOps.default, SymOps.minus, narrow32_neg_toInt, narrow32_add_toInt]
      simp)
  toLinearOrder := linearOrderOfKey U1Symmetry.information (fun a b h => by
    have := BitVec.eq_of_toInt_eq (Prod.mk.inj h).1
    cases a; cases b; simp_all)
  isFermi := false
  isNoSym := false
  fermi _ := 0
  odd_add _ _ := by decide
  fermi_zero := rfl
  fermi_bose _ _ := rfl
  noSym_eq h := by simp at h
  noSym_bose h := by simp at h

instance : TatSym FermiSymmetry where
  toAddCommGroup := groupOfOps
    (fun a b c => by
      simp only [SymOps.plus, narrow16_add_toInt]
      simp only [BitVec.add_assoc, Bool.xor_assoc])
    (fun a => by simp [SymOps.plus, SymOps.default, narrow16])
    (fun a b => by simp [SymOps.plus, narrow16_add_toInt, BitVec.add_comm])
    (fun a => by
      simp only [SymOps.plus, SymOps.default, SymOps.minus, narrow16_neg_toInt, narrow16_add_toInt]
      simp)
  toLinearOrder := linearOrderOfKey FermiSymmetry.information (fun a b h => by
    have := BitVec.eq_of_toInt_eq (Prod.mk.inj h).1
    cases a; cases b; simp_all)
  isFermi := true
  isNoSym := false
  fermi s := s.fermi.toInt
  odd_add a b := by
    show oddInt (narrow16 (a.fermi.toInt + b.fermi.toInt)).toInt = _
    rw [narrow16_add_toInt, odd_toInt_add]
  fermi_zero := rfl
  fermi_bose h := by simp at h
  noSym_eq h := by simp at h
  noSym_bose h := by simp at h

instance : TatSym FermiZ2Symmetry where
  toAddCommGroup := groupOfOps
    (fun a b c => by
      simp only [SymOps.plus, narrow16_add_toInt]
      simp only [BitVec.add_assoc, Bool.xor_assoc])
    (fun a => by simp [SymOps.plus, SymOps.default, narrow16])
    (fun a b => by simp [SymOps.plus, narrow16_add_toInt, BitVec.add_comm, Bool.xor_comm])
    (fun a => by
      simp only [SymOps.plus, SymOps.default, SymOps.minus, narrow16_neg_toInt, narrow16_add_toInt]
      simp)
  toLinearOrder := linearOrderOfKey FermiZ2Symmetry.information (fun a b h => by
    have h1 := BitVec.eq_of_toInt_eq (Prod.mk.inj h).1
    have h2 := b2i_inj (Prod.mk.inj h).2
    cases a; cases b; simp_all)
  isFermi := true
  isNoSym := false
  fermi s := s.fermi.toInt
  odd_add a b := by
    show oddInt (narrow16 (a.fermi.toInt + b.fermi.toInt)).toInt = _
    rw [narrow16_add_toInt, odd_toInt_add]
  fermi_zero := rfl
  fermi_bose h := by simp at h
  noSym_eq h := by simp at h
  noSym_bose h := by simp at h

instance : TatSym FermiU1Symmetry where
  toAddCommGroup := groupOfOps
    (fun a b c => by
      simp only [SymOps.plus, narrow16_add_toInt, narrow32_add_toInt]
      simp only [BitVec.add_assoc, Bool.xor_assoc])
    (fun a => by simp [SymOps.plus, SymOps.default, narrow16, narrow32])
    (fun a b => by simp [SymOps.plus, narrow16_add_toInt, narrow32_add_toInt, BitVec.add_comm])
    (fun a => by
      simp only [SymOps.plus, SymOps.default, SymOps.minus, narrow16_neg_toInt, narrow16_add_toInt,
        narrow32_neg_toInt, narrow32_add_toInt]
      simp)
  toLinearOrder := linearOrderOfKey FermiU1Symmetry.information (fun a b h => by
    have h1 := BitVec.eq_of_toInt_eq (Prod.mk.inj h).1
    have h2 := BitVec.eq_of_toInt_eq (Prod.mk.inj h).2
    cases a; cases b; simp_all)
  isFermi := true
  isNoSym := false
  fermi s := s.fermi.toInt
  odd_add a b := by
    show oddInt (narrow16 (a.fermi.toInt + b.fermi.toInt)).toInt = _
    rw [narrow16_add_toInt, odd_toInt_add]
  fermi_zero := rfl
  fermi_bose h := by simp at h
  noSym_eq h := by simp at h
  noSym_bose h := by simp at h

/-- Is the fermion number of a symmetry odd? -/
def TatSym.odd {σ : Type} [TatSym σ] (s : σ) : Bool := oddInt (TatSym.fermi s)

section
variable {σ : Type} [TatSym σ]

theorem TatSym.odd_add' (a b : σ) : TatSym.odd (a + b) = (TatSym.odd a ^^ TatSym.odd b) :=
  TatSym.odd_add a b

@[simp] theorem TatSym.odd_zero : TatSym.odd (0 : σ) = false := by
  simp [TatSym.odd, TatSym.fermi_zero, oddInt]

theorem TatSym.odd_neg (a : σ) : TatSym.odd (-a) = TatSym.odd a := by
  have h := TatSym.odd_add' a (-a)
  rw [add_neg_cancel, TatSym.odd_zero] at h
  cases h1 : TatSym.odd a <;> cases h2 : TatSym.odd (-a) <;> simp_all

end

end TAT
