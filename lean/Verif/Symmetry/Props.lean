import Verif.Symmetry.Lemmas
import Mathlib.Order.Fin.Basic
import Mathlib.Tactic.NormNum
import Mathlib.Algebra.Order.BigOperators.Group.List
import Mathlib.Algebra.Order.Group.Unbundled.Int

/-!
# C01 - C05: symmetry values and fermionic signs
-/

namespace TAT

/-! ## C01 -/

/-- All laws for operators defined through an injective `information()`. -/
theorem isOrderedAbelianGroup_opsOf {σ : Type} (d : σ) (p pa : σ → σ → σ) (m : σ → σ)
    (info : σ → Int × Int) (inj : Function.Injective info)
    (assoc : ∀ a b c, p (p a b) c = p a (p b c)) (comm : ∀ a b, p a b = p b a)
    (ident : ∀ a, p a d = a) (inverse : ∀ a, p a (m a) = d) (assign : ∀ a b, pa a b = p a b) :
    @IsOrderedAbelianGroup σ (opsOf d p pa m info) := by
  have eqiff : ∀ a b, tieEq (info a) (info b) = true ↔ a = b := by
    intro a b
    constructor
    · intro h
      simp only [tieEq, Bool.and_eq_true, decide_eq_true_eq] at h
      exact inj (Prod.ext h.1 h.2)
    · rintro rfl; simp [tieEq]
  refine @IsOrderedAbelianGroup.mk σ (opsOf d p pa m info) assoc comm ident inverse assign eqiff
    ?_ ?_ ?_ (fun _ _ => rfl) (fun _ _ => rfl) ?_ ?_
  · intro a; simp [SymOps.lt, tieLt]
  · intro a b c
    simp only [SymOps.lt, tieLt, Bool.or_eq_true, Bool.and_eq_true, Bool.not_eq_true',
      decide_eq_true_eq, decide_eq_false_iff_not]
    omega
  · intro a b
    by_cases h : info a = info b
    · exact Or.inr (Or.inl (inj h))
    · have h' : ¬ ((info a).1 = (info b).1 ∧ (info a).2 = (info b).2) :=
        fun hc => h (Prod.ext hc.1 hc.2)
      simp only [SymOps.lt, tieLt, Bool.or_eq_true, Bool.and_eq_true, Bool.not_eq_true',
        decide_eq_true_eq, decide_eq_false_iff_not]
      omega
  · intro a b
    apply Bool.eq_iff_iff.2
    simp only [SymOps.le, SymOps.lt, SymOps.eq, tieLt, tieEq, Bool.or_eq_true, Bool.and_eq_true,
      Bool.not_eq_true', decide_eq_true_eq, decide_eq_false_iff_not, Bool.or_eq_false_iff,
      Bool.and_eq_false_iff, Bool.not_eq_false']
    omega
  · intro a b
    apply Bool.eq_iff_iff.2
    simp only [SymOps.ge, SymOps.lt, SymOps.eq, tieLt, tieEq, Bool.or_eq_true, Bool.and_eq_true,
      Bool.not_eq_true', decide_eq_true_eq, decide_eq_false_iff_not, Bool.or_eq_false_iff,
      Bool.and_eq_false_iff, Bool.not_eq_false']
    omega

theorem C01_noSymmetry : IsOrderedAbelianGroup NoSymmetry :=
  isOrderedAbelianGroup_opsOf _ _ _ _ _ (fun _ _ _ => rfl) (fun _ _ _ => rfl) (fun _ _ => rfl)
    (fun _ => rfl) (fun _ => rfl) (fun _ _ => rfl)

theorem C01_z2Symmetry : IsOrderedAbelianGroup Z2Symmetry :=
  isOrderedAbelianGroup_opsOf _ _ _ _ _
    (fun a b h => by
      have := b2i_inj (Prod.mk.inj h).1
      cases a; cases b; simp_all)
    (fun a b c => by simp) (fun a b => by simp [Bool.xor_comm]) (fun a => by simp)
    (fun a => by simp) (fun _ _ => rfl)

theorem C01_u1Symmetry : IsOrderedAbelianGroup U1Symmetry :=
  isOrderedAbelianGroup_opsOf _ _ _ _ _
    (fun a b h => by
      have := BitVec.eq_of_toInt_eq (Prod.mk.inj h).1
      cases a; cases b; simp_all)
    (fun a b c => by simp only [narrow32_add_toInt]; rw [BitVec.add_assoc])
    (fun a b => by simp only [narrow32_add_toInt]; rw [BitVec.add_comm])
    (fun a => by simp [narrow32_add_toInt, narrow32])
    (fun a => by simp only [narrow32_neg_toInt, narrow32_add_toInt]; rw [add_neg_cancel])
    (fun _ _ => rfl)

theorem C01_fermiSymmetry : IsOrderedAbelianGroup FermiSymmetry :=
  isOrderedAbelianGroup_opsOf _ _ _ _ _
    (fun a b h => by
      have := BitVec.eq_of_toInt_eq (Prod.mk.inj h).1
      cases a; cases b; simp_all)
    (fun a b c => by simp only [narrow16_add_toInt]; rw [BitVec.add_assoc])
    (fun a b => by simp only [narrow16_add_toInt]; rw [BitVec.add_comm])
    (fun a => by simp [narrow16_add_toInt, narrow16])
    (fun a => by simp only [narrow16_neg_toInt, narrow16_add_toInt]; rw [add_neg_cancel])
    (fun _ _ => rfl)

theorem C01_fermiZ2Symmetry : IsOrderedAbelianGroup FermiZ2Symmetry :=
  isOrderedAbelianGroup_opsOf _ _ _ _ _
    (fun a b h => by
      have h1 := BitVec.eq_of_toInt_eq (Prod.mk.inj h).1
      have h2 := b2i_inj (Prod.mk.inj h).2
      cases a; cases b; simp_all)
    (fun a b c => by simp only [narrow16_add_toInt]; rw [BitVec.add_assoc, Bool.xor_assoc])
    (fun a b => by simp only [narrow16_add_toInt]; rw [BitVec.add_comm, Bool.xor_comm])
    (fun a => by simp [narrow16_add_toInt, narrow16])
    (fun a => by
      simp only [narrow16_neg_toInt, narrow16_add_toInt]
      rw [add_neg_cancel, Bool.xor_self])
    (fun _ _ => rfl)

theorem C01_fermiU1Symmetry : IsOrderedAbelianGroup FermiU1Symmetry :=
  isOrderedAbelianGroup_opsOf _ _ _ _ _
    (fun a b h => by
      have h1 := BitVec.eq_of_toInt_eq (Prod.mk.inj h).1
      have h2 := BitVec.eq_of_toInt_eq (Prod.mk.inj h).2
      cases a; cases b; simp_all)
    (fun a b c => by
      simp only [narrow16_add_toInt, narrow32_add_toInt]; rw [BitVec.add_assoc, BitVec.add_assoc])
    (fun a b => by
      simp only [narrow16_add_toInt, narrow32_add_toInt]
      rw [BitVec.add_comm, BitVec.add_comm a.u1])
    (fun a => by simp [narrow16_add_toInt, narrow32_add_toInt, narrow16, narrow32])
    (fun a => by
      simp only [narrow16_neg_toInt, narrow16_add_toInt, narrow32_neg_toInt, narrow32_add_toInt]
      rw [add_neg_cancel, add_neg_cancel])
    (fun _ _ => rfl)

/-- A concrete case: three different values, the sum is not trivial, and the order is by fermion
number first, then by U1 charge. -/
example : SymOps.plus (⟨3, -2⟩ : FermiU1Symmetry) ⟨-1, 5⟩ = ⟨2, 3⟩ ∧
    SymOps.lt (⟨-1, 5⟩ : FermiU1Symmetry) ⟨3, -2⟩ = true ∧
    SymOps.lt (⟨3, -2⟩ : FermiU1Symmetry) ⟨3, 1⟩ = true := by decide

/-! ## C02 -/

/-- A fermion number is reported odd exactly when it is an odd integer (negative numbers
included). -/
theorem C02_odd_iff (f : Int) : oddInt f = true ↔ ∃ k, f = 2 * k + 1 := by
  rw [oddInt_eq, decide_eq_true_eq]
  constructor
  · intro h; exact ⟨f / 2, by omega⟩
  · rintro ⟨k, rfl⟩; omega

/-- Parity of a sum is the xor of the parities, for the three fermionic types and all values,
including those whose 16-bit sum wraps around. -/
theorem C02_parity_add :
    (∀ a b : FermiSymmetry, oddInt (SymOps.plus a b).fermi.toInt =
      (oddInt a.fermi.toInt ^^ oddInt b.fermi.toInt)) ∧
    (∀ a b : FermiZ2Symmetry, oddInt (SymOps.plus a b).fermi.toInt =
      (oddInt a.fermi.toInt ^^ oddInt b.fermi.toInt)) ∧
    (∀ a b : FermiU1Symmetry, oddInt (SymOps.plus a b).fermi.toInt =
      (oddInt a.fermi.toInt ^^ oddInt b.fermi.toInt)) :=
  ⟨fun a b => TatSym.odd_add a b, fun a b => TatSym.odd_add a b, fun a b => TatSym.odd_add a b⟩

/-- Negation keeps the parity. -/
theorem C02_parity_neg :
    (∀ a : FermiSymmetry, oddInt (SymOps.minus a).fermi.toInt = oddInt a.fermi.toInt) ∧
    (∀ a : FermiZ2Symmetry, oddInt (SymOps.minus a).fermi.toInt = oddInt a.fermi.toInt) ∧
    (∀ a : FermiU1Symmetry, oddInt (SymOps.minus a).fermi.toInt = oddInt a.fermi.toInt) :=
  ⟨fun a => TatSym.odd_neg a, fun a => TatSym.odd_neg a, fun a => TatSym.odd_neg a⟩

/-- wrap-around: 32767 + 2 = -32767 in `int16_t`, still odd -/
example : (SymOps.plus (⟨32767⟩ : FermiSymmetry) ⟨2⟩).fermi.toInt = -32767 ∧
    oddInt (-32767) = true := by decide

/-! ## C03 -/

/-- The sign of reversing edges: `-1` once for every position that is flagged, marked and odd. -/
theorem C03_reverse_sign (f : List Int) (flag mark : List Bool) :
    sgn (getReverseParity f flag mark) =
      ∏ i ∈ Finset.range f.length,
        if flag.getD i false = true ∧ mark.getD i false = true ∧ f.getD i 0 % 2 = 1
        then -1 else 1 := by
  rw [sgn_getReverseParity]
  apply Finset.prod_congr rfl
  intro i _
  rw [oddInt_eq]
  by_cases hp : f.getD i 0 % 2 = 1 <;> cases flag.getD i false <;> cases mark.getD i false <;> simp [hp, -List.getD_eq_getElem?_getD]

/-- Reversing disjoint sets of edges one after the other composes multiplicatively. -/
theorem C03_reverse_disjoint (f : List Int) (flag₁ flag₂ flag mark : List Bool)
    (hdis : ∀ i, ¬ (flag₁.getD i false = true ∧ flag₂.getD i false = true))
    (hun : ∀ i, flag.getD i false = (flag₁.getD i false || flag₂.getD i false)) :
    getReverseParity f flag mark =
      (getReverseParity f flag₁ mark ^^ getReverseParity f flag₂ mark) := by
  apply sgn_inj
  rw [sgn_xor, sgn_getReverseParity, sgn_getReverseParity, sgn_getReverseParity,
    ← Finset.prod_mul_distrib]
  apply Finset.prod_congr rfl
  intro i _
  have h := hdis i
  rw [hun]
  revert h
  cases flag₁.getD i false <;> cases flag₂.getD i false <;> simp

example : getReverseParity [1, 2, -3, 5] [true, true, true, false] [true, true, true, true] = false ∧
    getReverseParity [1, 2, -3, 5] [true, true, true, false] [true, true, false, true] = true := by
  decide

/-! ## C04 -/

/-- The list form of a symmetry tuple and a transpose plan of rank `n`. -/
def transposeParityOf {n : ℕ} (f : Fin n → ℤ) (p : Equiv.Perm (Fin n)) : Bool :=
  getTransposeParity (List.ofFn f) (List.ofFn fun i => (p i : ℕ))

/-- The transpose sign is `-1` to the number of pairs of odd legs whose order is exchanged. -/
theorem C04_transpose_sign {n : ℕ} (f : Fin n → ℤ) (p : Equiv.Perm (Fin n)) :
    sgn (transposeParityOf f p) = exchangeSign (fun i => oddInt (f i)) p :=
  sgn_getTransposeParity_fin f p

/-- Transposing by `p` and then by `q` gives the sign of transposing by "`p` then `q`". -/
theorem C04_compose {n : ℕ} (f : Fin n → ℤ) (p q : Equiv.Perm (Fin n)) :
    (transposeParityOf f p ^^ transposeParityOf (fun a => f (p.symm a)) q) =
      transposeParityOf f (p.trans q) := by
  apply sgn_inj
  rw [sgn_xor, C04_transpose_sign, C04_transpose_sign, C04_transpose_sign]
  exact exchangeSign_mul _ p q

/-- The identity gives no sign. -/
theorem C04_identity {n : ℕ} (f : Fin n → ℤ) : transposeParityOf f (Equiv.refl _) = false := by
  apply sgn_inj
  rw [C04_transpose_sign, exchangeSign_refl]
  rfl

/-- A transpose followed by its inverse gives no sign. -/
theorem C04_inverse {n : ℕ} (f : Fin n → ℤ) (p : Equiv.Perm (Fin n)) :
    (transposeParityOf f p ^^ transposeParityOf (fun a => f (p.symm a)) p.symm) = false := by
  rw [C04_compose, Equiv.self_trans_symm, C04_identity]

/-- Exchanging two neighbouring legs gives `-1` exactly when both are odd.  Together with
`C04_compose` this determines the sign of every transpose. -/
theorem C04_adjacent {n : ℕ} (f : Fin (n + 1) → ℤ) (k : Fin n) :
    transposeParityOf f (Equiv.swap k.castSucc k.succ) =
      (oddInt (f k.castSucc) && oddInt (f k.succ)) := by
  apply sgn_inj
  rw [C04_transpose_sign]
  unfold exchangeSign
  have hlt : k.castSucc < k.succ := Fin.castSucc_lt_succ
  rw [Finset.prod_eq_single k.castSucc, Finset.prod_eq_single k.succ]
  · simp only [hlt, Equiv.swap_apply_left, Equiv.swap_apply_right, true_and]
    cases oddInt (f k.castSucc) <;> cases oddInt (f k.succ) <;> simp
  · intro j _ hj
    rw [if_neg]
    rintro ⟨h1, h2, -⟩
    rw [Equiv.swap_apply_left, Equiv.swap_apply_of_ne_of_ne (ne_of_gt h1) hj] at h2
    rw [Fin.lt_def] at h1 h2
    simp at h1 h2
    omega
  · simp
  · intro i _ hi
    apply Finset.prod_eq_one
    intro j _
    rw [if_neg]
    rintro ⟨h1, h2, -⟩
    rw [Fin.lt_def] at h1 h2
    by_cases hj : j = k.castSucc
    · subst hj
      rw [Equiv.swap_apply_left, Equiv.swap_apply_of_ne_of_ne hi (by
        intro hc; rw [hc] at h1; simp at h1)] at h2
      simp at h1 h2
      omega
    · by_cases hi' : i = k.succ
      · subst hi'
        rw [Equiv.swap_apply_right] at h2
        by_cases hj' : j = k.succ
        · subst hj'; simp at h1
        · rw [Equiv.swap_apply_of_ne_of_ne hj hj'] at h2
          simp at h1 h2
          omega
      · rw [Equiv.swap_apply_of_ne_of_ne hi hi'] at h2
        by_cases hj' : j = k.succ
        · subst hj'
          rw [Equiv.swap_apply_right] at h2
          have : (i : ℕ) ≠ (k : ℕ) := fun hc => hi (Fin.ext (by simpa using hc))
          simp at h1 h2
          omega
        · rw [Equiv.swap_apply_of_ne_of_ne hj hj'] at h2
          omega
  · simp

/-- a three-cycle of legs with fermion numbers 1, 2, 3 (leg 0 goes to position 2) -/
example : getTransposeParity [1, 2, 3] [2, 0, 1] = true := by decide
example : getTransposeParity [1, 3, 3] [2, 0, 1] = false := by decide

/-! ## C05 -/

theorem reversalSign_eq (l : List Bool) :
    reversalSign l = exchangeSign (fun i : Fin l.length => l.get i) Fin.revPerm := by
  induction l with
  | nil => simp [reversalSign, exchangeSign]
  | cons b l ih =>
    have hrev : ∀ (n : ℕ) (odd : Fin n → Bool), exchangeSign odd Fin.revPerm =
        ∏ i : Fin n, ∏ j : Fin n, if i < j ∧ odd i = true ∧ odd j = true then (-1 : ℤ) else 1 := by
      intro n odd
      unfold exchangeSign
      apply Finset.prod_congr rfl
      intro i _
      apply Finset.prod_congr rfl
      intro j _
      simp [Fin.rev_lt_rev]
    rw [reversalSign, ih, hrev, hrev]
    show _ = ∏ i : Fin (l.length + 1), ∏ j : Fin (l.length + 1), _
    rw [Fin.prod_univ_succ, Fin.prod_univ_succ]
    congr 1
    · simp only [lt_self_iff_false, false_and, if_false, one_mul, List.get_eq_getElem,
        Fin.val_zero, List.getElem_cons_zero, Fin.succ_pos, true_and, Fin.val_succ,
        List.getElem_cons_succ]
      cases b
      · simp
      · simp only [if_true, true_and]
        clear ih
        induction l with
        | nil => simp
        | cons c l ih2 =>
          rw [List.count_cons]
          show _ = ∏ j : Fin (l.length + 1), _
          rw [Fin.prod_univ_succ]
          simp only [Fin.val_zero, List.getElem_cons_zero, Fin.val_succ, List.getElem_cons_succ]
          rw [← ih2]
          cases c <;> simp [pow_succ]
    · apply Finset.prod_congr rfl
      intro i _
      rw [Fin.prod_univ_succ]
      simp

theorem markedSign_eq (groups : List (List ℤ)) (mark : List Bool)
    (h : mark.length = groups.length) :
    markedSign groups mark = ∏ k : Fin groups.length,
      if mark.getD k false = true
      then exchangeSign (fun i : Fin (groups.get k).length => oddInt ((groups.get k).get i))
        Fin.revPerm
      else 1 := by
  induction groups generalizing mark with
  | nil => cases mark <;> simp [markedSign]
  | cons g gs ih =>
    cases mark with
    | nil => simp at h
    | cons m ms =>
      rw [markedSign, ih ms (by simpa using h)]
      show _ = ∏ k : Fin (gs.length + 1), _
      rw [Fin.prod_univ_succ]
      have key : reversalSign (g.map oddInt) =
          exchangeSign (fun i : Fin g.length => oddInt (g.get i)) Fin.revPerm := by
        rw [reversalSign_eq]
        have aux : ∀ (n m : ℕ) (hnm : n = m) (f1 : Fin n → Bool) (f2 : Fin m → Bool)
            (_ : ∀ i (h1 : i < n) (h2 : i < m), f1 ⟨i, h1⟩ = f2 ⟨i, h2⟩),
            exchangeSign f1 Fin.revPerm = exchangeSign f2 Fin.revPerm := by
          intro n m hnm f1 f2 hf
          subst hnm
          congr 1
          funext i
          exact hf i i.2 i.2
        exact aux _ _ (by simp) _ _ (by intro i h1 h2; simp)
      rw [key]
      rfl

/-- The merge/split sign is, for each marked group, the sign of completely reversing the order of
the legs of the group. -/
theorem C05_merge_split_sign (groups : List (List ℤ)) (mark : List Bool)
    (h : mark.length = groups.length) :
    sgn (getSplitMergeParity groups.flatten (flagsOf groups) mark) =
      ∏ k : Fin groups.length,
        if mark.getD k false = true
        then exchangeSign (fun i : Fin (groups.get k).length => oddInt ((groups.get k).get i))
          Fin.revPerm
        else 1 := by
  rw [sgn_getSplitMergeParity groups mark h, markedSign_eq groups mark h]

/-- Groups of at most one leg contribute no sign. -/
theorem C05_trivial_groups (groups : List (List ℤ)) (mark : List Bool)
    (h : mark.length = groups.length) (h1 : ∀ g ∈ groups, g.length ≤ 1) :
    getSplitMergeParity groups.flatten (flagsOf groups) mark = false := by
  apply sgn_inj
  rw [sgn_getSplitMergeParity groups mark h]
  clear h
  induction groups generalizing mark with
  | nil => simp [markedSign]
  | cons g gs ih =>
    cases mark with
    | nil => simp [markedSign]
    | cons m ms =>
      rw [markedSign, ih ms (fun g' hg' => h1 g' (List.mem_cons_of_mem _ hg'))]
      have hg : g.length ≤ 1 := h1 g List.mem_cons_self
      have : reversalSign (g.map oddInt) = 1 := by
        match g, hg with
        | [], _ => simp [reversalSign]
        | [x], _ => simp [reversalSign]
      simp [this]

/-- Within `int` range: if the absolute fermion numbers of a group add up to at most 46340, no
intermediate value of the closed formula leaves the range of a 32-bit `int` (so the unbounded
integers of the model agree with the code). -/
theorem C05_no_overflow (l : List ℤ) (h : (l.map fun x => |x|).sum ≤ 46340) :
    ∀ k, |(l.take k).sum| ≤ 2147483647 ∧
      ((l.take k).map fun x => x * x).sum ≤ 2147483647 ∧
      (l.take k).sum * (l.take k).sum ≤ 2147483647 := by
  intro k
  have hpos : ∀ l' : List ℤ, 0 ≤ (l'.map fun x => |x|).sum := by
    intro l'
    apply List.sum_nonneg
    simp only [List.mem_map]
    rintro _ ⟨x, _, rfl⟩
    exact abs_nonneg x
  have htake : ((l.take k).map fun x => |x|).sum ≤ 46340 := by
    have h2 : ((l.take k).map fun x => |x|).sum + ((l.drop k).map fun x => |x|).sum =
        (l.map fun x => |x|).sum := by
      rw [← List.sum_append, ← List.map_append, List.take_append_drop]
    have := hpos (l.drop k)
    omega
  have habs : ∀ l' : List ℤ, |l'.sum| ≤ (l'.map fun x => |x|).sum := by
    intro l'
    induction l' with
    | nil => simp
    | cons x l' ih =>
      rw [List.sum_cons, List.map_cons, List.sum_cons]
      have := abs_add_le x l'.sum
      omega
  have hsq : ∀ l' : List ℤ, (l'.map fun x => x * x).sum ≤
      (l'.map fun x => |x|).sum * (l'.map fun x => |x|).sum := by
    intro l'
    induction l' with
    | nil => simp
    | cons x l' ih =>
      simp only [List.map_cons, List.sum_cons]
      have h3 := hpos l'
      have h4 := abs_nonneg x
      have h5 : x * x = |x| * |x| := (abs_mul_abs_self x).symm
      nlinarith
  have hA := habs (l.take k)
  have hB := hsq (l.take k)
  have hC := hpos (l.take k)
  have h6 : (l.take k).sum * (l.take k).sum = |(l.take k).sum| * |(l.take k).sum| :=
    (abs_mul_abs_self _).symm
  have h7 := abs_nonneg (l.take k).sum
  refine ⟨by omega, by nlinarith, by nlinarith⟩

/-- merging legs (1,3) and (1,1,1): the first group contributes -1, the second (-1)^3 -/
example : getSplitMergeParity [1, 3, 1, 1, 1] (flagsOf [[(1 : ℤ), 3], [1, 1, 1]]) [true, true] = false ∧
    getSplitMergeParity [1, 3, 1, 1, 1] (flagsOf [[(1 : ℤ), 3], [1, 1, 1]]) [true, false] = true := by
  decide

end TAT
