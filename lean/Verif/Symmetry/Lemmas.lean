import Verif.Symmetry.Spec
import Mathlib.Algebra.BigOperators.Intervals
import Mathlib.Tactic.Ring
import Mathlib.Data.List.GetD
import Mathlib.Tactic.Linarith
import Mathlib.Tactic.LinearCombination

namespace TAT

theorem sgn_xor (a b : Bool) : sgn (a ^^ b) = sgn a * sgn b := by
  cases a <;> cases b <;> simp [sgn]

theorem sgn_inj {a b : Bool} (h : sgn a = sgn b) : a = b := by
  cases a <;> cases b <;> simp_all [sgn]

@[simp] theorem sgn_false : sgn false = 1 := rfl
@[simp] theorem sgn_true : sgn true = -1 := rfl

theorem sgn_mul_self (a : Bool) : sgn a * sgn a = 1 := by cases a <;> simp

theorem sgn_foldl {α : Type} (l : List α) (g : α → Bool) (b : Bool) :
    sgn (l.foldl (fun r x => r ^^ g x) b) = sgn b * (l.map fun x => sgn (g x)).prod := by
  induction l generalizing b with
  | nil => simp
  | cons x l ih => simp [ih, sgn_xor, mul_assoc]

theorem prod_map_range' (f : ℕ → ℤ) (s k : ℕ) :
    ((List.range' s k).map f).prod = ∏ j ∈ Finset.Ico s (s + k), f j := by
  induction k generalizing s with
  | zero => simp
  | succ k ih =>
    rw [List.range'_succ, List.map_cons, List.prod_cons, ih]
    rw [Finset.prod_eq_prod_Ico_succ_bot (a := s) (b := s + (k + 1)) (by omega)]
    rw [show s + 1 + k = s + (k + 1) by omega]

theorem prod_map_range (f : ℕ → ℤ) (k : ℕ) :
    ((List.range k).map f).prod = ∏ j ∈ Finset.range k, f j := by
  rw [List.range_eq_range', prod_map_range']
  simp

theorem if_xor (c r x : Bool) : (if c = true then r ^^ x else r) = (r ^^ (c && x)) := by
  cases c <;> simp

theorem if_xor' (c : Prop) [Decidable c] (r x : Bool) :
    (if c then r ^^ x else r) = (r ^^ (decide c && x)) := by
  by_cases h : c <;> simp [h]

/-- `get_reverse_parity` as a product of signs. -/
theorem sgn_getReverseParity (f : List Int) (flag mark : List Bool) :
    sgn (getReverseParity f flag mark) =
      ∏ i ∈ Finset.range f.length,
        sgn (flag.getD i false && mark.getD i false && oddInt (f.getD i 0)) := by
  unfold getReverseParity
  simp only [if_xor]
  rw [sgn_foldl]
  simp [prod_map_range]

/-- `get_transpose_parity` as a product of signs over position pairs. -/
theorem sgn_getTransposeParity (f : List Int) (plan : List Nat) :
    sgn (getTransposeParity f plan) =
      ∏ i ∈ Finset.range f.length, ∏ j ∈ Finset.Ico (i + 1) f.length,
        sgn (decide (plan.getD i 0 > plan.getD j 0) &&
          (oddInt (f.getD i 0) && oddInt (f.getD j 0))) := by
  unfold getTransposeParity
  have key : ∀ (l : List Nat) (b : Bool),
      sgn (l.foldl (fun result i =>
        (List.range' (i + 1) (f.length - (i + 1))).foldl (fun result j =>
          if plan.getD i 0 > plan.getD j 0 then
            result ^^ (oddInt (f.getD i 0) && oddInt (f.getD j 0))
          else result) result) b) =
      sgn b * (l.map fun i => ∏ j ∈ Finset.Ico (i + 1) (i + 1 + (f.length - (i + 1))),
        sgn (decide (plan.getD i 0 > plan.getD j 0) &&
          (oddInt (f.getD i 0) && oddInt (f.getD j 0)))).prod := by
    intro l
    induction l with
    | nil => simp
    | cons i l ih =>
      intro b
      rw [List.foldl_cons, ih, List.map_cons, List.prod_cons]
      simp only [if_xor']
      rw [sgn_foldl, prod_map_range']
      ring
  rw [key, sgn_false, one_mul, prod_map_range]
  apply Finset.prod_congr rfl
  intro i hi
  have : i + 1 + (f.length - (i + 1)) = f.length := by
    have := Finset.mem_range.1 hi
    omega
  rw [this]

/-- Conversion of a triangular product over naturals to one over `Fin n`. -/
theorem prod_triangle {n : ℕ} (t : ℕ → ℕ → ℤ) :
    (∏ i ∈ Finset.range n, ∏ j ∈ Finset.Ico (i + 1) n, t i j) =
      ∏ i : Fin n, ∏ j : Fin n, if i < j then t i j else 1 := by
  rw [Finset.prod_range]
  apply Finset.prod_congr rfl
  intro i _
  have h2 : (∏ j : Fin n, if i < j then t i j else 1) =
      ∏ j ∈ Finset.range n, if (i : ℕ) < j then t i j else 1 := by
    rw [Finset.prod_range]
    rfl
  rw [h2, ← Finset.prod_filter]
  apply Finset.prod_congr _ (fun _ _ => rfl)
  ext j
  simp only [Finset.mem_Ico, Finset.mem_filter, Finset.mem_range]
  omega

theorem prod_pairs {n : ℕ} (G : Fin n → Fin n → ℤ) (hd : ∀ i, G i i = 1) :
    (∏ i, ∏ j, G i j) = ∏ i : Fin n, ∏ j : Fin n, if i < j then G i j * G j i else 1 := by
  have h1 : (∏ i, ∏ j, G i j) =
      (∏ i : Fin n, ∏ j : Fin n, if i < j then G i j else 1) *
      (∏ i : Fin n, ∏ j : Fin n, if j < i then G i j else 1) := by
    rw [← Finset.prod_mul_distrib]
    apply Finset.prod_congr rfl
    intro i _
    rw [← Finset.prod_mul_distrib]
    apply Finset.prod_congr rfl
    intro j _
    rcases lt_trichotomy i j with h | h | h
    · simp [h, not_lt_of_gt h]
    · subst h; simp [hd]
    · simp [h, not_lt_of_gt h]
  rw [h1, Finset.prod_comm (f := fun i j => if j < i then G i j else 1), ← Finset.prod_mul_distrib]
  apply Finset.prod_congr rfl
  intro i _
  rw [← Finset.prod_mul_distrib]
  apply Finset.prod_congr rfl
  intro j _
  by_cases h : i < j <;> simp [h]

theorem exchangeSign_mul {n : ℕ} (odd : Fin n → Bool) (p q : Equiv.Perm (Fin n)) :
    exchangeSign odd p * exchangeSign (fun a => odd (p.symm a)) q = exchangeSign odd (p.trans q) := by
  unfold exchangeSign
  have hB : (∏ a : Fin n, ∏ b : Fin n,
      if a < b ∧ q b < q a ∧ odd (p.symm a) = true ∧ odd (p.symm b) = true then (-1 : ℤ) else 1) =
      ∏ i : Fin n, ∏ j : Fin n,
        if p i < p j ∧ q (p j) < q (p i) ∧ odd i = true ∧ odd j = true then (-1 : ℤ) else 1 := by
    rw [← Equiv.prod_comp p]
    apply Finset.prod_congr rfl
    intro i _
    rw [← Equiv.prod_comp p]
    apply Finset.prod_congr rfl
    intro j _
    simp
  rw [hB, prod_pairs (fun i j => if p i < p j ∧ q (p j) < q (p i) ∧ odd i = true ∧ odd j = true
      then (-1 : ℤ) else 1) (by intro i; simp)]
  rw [← Finset.prod_mul_distrib]
  apply Finset.prod_congr rfl
  intro i _
  rw [← Finset.prod_mul_distrib]
  apply Finset.prod_congr rfl
  intro j _
  by_cases hij : i < j
  · have hne : p i ≠ p j := fun h => (ne_of_lt hij) (p.injective h)
    have hne2 : q (p i) ≠ q (p j) := fun h => hne (q.injective h)
    by_cases ho : odd i = true ∧ odd j = true
    · obtain ⟨ho1, ho2⟩ := ho
      rcases lt_or_gt_of_ne hne with h1 | h1 <;> rcases lt_or_gt_of_ne hne2 with h2 | h2 <;>
        simp [hij, h1, h2, ho1, ho2, not_lt_of_gt h1, not_lt_of_gt h2]
    · have hA : ∀ c : Prop, ¬ (c ∧ odd i = true ∧ odd j = true) := fun c hc => ho hc.2
      have hA' : ∀ c : Prop, ¬ (c ∧ odd j = true ∧ odd i = true) := fun c hc => ho hc.2.symm
      rcases Bool.eq_false_or_eq_true (odd i) with h | h <;>
        rcases Bool.eq_false_or_eq_true (odd j) with h' | h' <;> simp_all
  · simp [hij]

theorem exchangeSign_refl {n : ℕ} (odd : Fin n → Bool) :
    exchangeSign odd (Equiv.refl _) = 1 := by
  unfold exchangeSign
  apply Finset.prod_eq_one
  intro i _
  apply Finset.prod_eq_one
  intro j _
  rw [if_neg]
  rintro ⟨h1, h2, _⟩
  exact absurd h1 (not_lt_of_gt h2)

/-- The loop computes the exchange sign. -/
theorem sgn_getTransposeParity_fin {n : ℕ} (f : Fin n → ℤ) (p : Equiv.Perm (Fin n)) :
    sgn (getTransposeParity (List.ofFn f) (List.ofFn fun i => (p i : ℕ))) =
      exchangeSign (fun i => oddInt (f i)) p := by
  rw [sgn_getTransposeParity, List.length_ofFn, prod_triangle]
  unfold exchangeSign
  apply Finset.prod_congr rfl
  intro i _
  apply Finset.prod_congr rfl
  intro j _
  by_cases hij : i < j
  · simp only [hij, if_true, true_and]
    have e1 : (List.ofFn fun i => ((p i : Fin n) : ℕ)).getD (i : ℕ) 0 = p i := by simp
    have e2 : (List.ofFn fun i => ((p i : Fin n) : ℕ)).getD (j : ℕ) 0 = p j := by simp
    have e3 : (List.ofFn f).getD (i : ℕ) 0 = f i := by simp
    have e4 : (List.ofFn f).getD (j : ℕ) 0 = f j := by simp
    rw [e1, e2, e3, e4]
    by_cases hp : p j < p i
    · have : (p i : ℕ) > (p j : ℕ) := hp
      cases h1 : oddInt (f i) <;> cases h2 : oddInt (f j) <;> simp [hp, this]
    · have : ¬ (p i : ℕ) > (p j : ℕ) := hp
      simp [hp, this]
  · simp [hij]

/-! ### Merge / split parity -/

theorem tdiv_two_of_even (x : ℤ) (h : x % 2 = 0) : Int.tdiv x 2 = x / 2 := by
  rcases le_total 0 x with hx | hx
  · rw [Int.tdiv_eq_ediv_of_nonneg hx]
  · have : Int.tdiv x 2 = -(Int.tdiv (-x) 2) := by rw [Int.neg_tdiv]; simp
    rw [this, Int.tdiv_eq_ediv_of_nonneg (by omega)]
    omega

/-- Sum of `x_i` and sum of `x_i²`. -/
def sums (l : List ℤ) : ℤ × ℤ := (l.sum, (l.map fun x => x * x).sum)

/-- pair sum Σ_{i<j} x_i x_j -/
def pairSum : List ℤ → ℤ
  | [] => 0
  | x :: l => x * l.sum + pairSum l

theorem square_sub_sums (l : List ℤ) :
    l.sum * l.sum - (l.map fun x => x * x).sum = 2 * pairSum l := by
  induction l with
  | nil => simp [pairSum]
  | cons x l ih =>
    simp only [List.sum_cons, List.map_cons, pairSum]
    linear_combination ih

theorem sgn_odd_sum (l : List ℤ) : sgn (oddInt l.sum) = (-1) ^ ((l.map oddInt).count true) := by
  induction l with
  | nil => simp [oddInt]
  | cons x l ih =>
    rw [List.sum_cons, oddInt_add, sgn_xor, ih, List.map_cons, List.count_cons]
    cases oddInt x <;> simp [pow_succ]

theorem oddInt_mul (a b : ℤ) : oddInt (a * b) = (oddInt a && oddInt b) := by
  simp only [oddInt_eq]
  rcases Int.emod_two_eq_zero_or_one a with ha | ha <;>
  rcases Int.emod_two_eq_zero_or_one b with hb | hb <;>
  · have : (a * b) % 2 = ((a % 2) * (b % 2)) % 2 := Int.mul_emod a b 2
    simp [this, ha, hb]

theorem sgn_pairSum (l : List ℤ) : sgn (oddInt (pairSum l)) = reversalSign (l.map oddInt) := by
  induction l with
  | nil => simp [pairSum, reversalSign, oddInt]
  | cons x l ih =>
    simp only [pairSum, List.map_cons, reversalSign]
    rw [oddInt_add, sgn_xor, ih, oddInt_mul]
    cases h : oddInt x
    · simp
    · simp [sgn_odd_sum]

theorem foldl_sums (l : List ℤ) (a : ℤ × ℤ) :
    l.foldl (fun (acc : ℤ × ℤ) p => (acc.1 + p, acc.2 + p * p)) a =
      (a.1 + l.sum, a.2 + (l.map fun x => x * x).sum) := by
  induction l generalizing a with
  | nil => simp
  | cons x l ih => rw [List.foldl_cons, ih]; simp [add_assoc]

theorem foldl_range'_getD {β : Type} (f : List ℤ) (g : β → ℤ → β) (pre l post : List ℤ)
    (hf : f = pre ++ l ++ post) (b : β) :
    (List.range' pre.length l.length).foldl (fun acc i => g acc (f.getD i 0)) b = l.foldl g b := by
  induction l generalizing pre b with
  | nil => simp
  | cons x l ih =>
    rw [List.length_cons, List.range'_succ, List.foldl_cons, List.foldl_cons]
    have hx : f.getD pre.length 0 = x := by
      subst hf; simp
    rw [hx]
    have := ih (pre ++ [x]) (by simp [hf]) (g b x)
    simpa using this

/-- The closed formula gives the sign of a full reversal of the group. -/
theorem sgn_groupParity (pre l post : List ℤ) :
    sgn (groupParity (pre ++ l ++ post) pre.length (pre.length + l.length)) =
      reversalSign (l.map oddInt) := by
  unfold groupParity
  have h := foldl_range'_getD (pre ++ l ++ post)
    (fun (acc : ℤ × ℤ) p => (acc.1 + p, acc.2 + p * p)) pre l post rfl (0, 0)
  simp only [Nat.add_sub_cancel_left]
  rw [h, foldl_sums]
  simp only [zero_add]
  rw [square_sub_sums, tdiv_two_of_even _ (by omega)]
  have : 2 * pairSum l / 2 = pairSum l := by omega
  rw [this]
  exact sgn_pairSum l

/-- Scanning a flag vector advances exactly over the group. -/
theorem scanGroup_spec (flag : List ℕ) (n g : ℕ) (k e : ℕ)
    (hn : e + k ≤ n)
    (hin : ∀ i, i < k → flag.getD (e + i) 0 = g)
    (hout : e + k < n → flag.getD (e + k) 0 ≠ g) (fuel : ℕ) (hf : n - e ≤ fuel) :
    scanGroup flag n g fuel e = e + k := by
  induction k generalizing e fuel with
  | zero =>
    cases fuel with
    | zero => simp [scanGroup]
    | succ fuel =>
      unfold scanGroup
      by_cases h : e < n
      · have := hout (by simpa using h)
        simp only [Nat.add_zero] at this
        simp only [beq_eq_false_iff_ne.2 this, Bool.and_false, Bool.false_eq_true, if_false,
          Nat.add_zero]
      · simp [h]
  | succ k ih =>
    cases fuel with
    | zero => omega
    | succ fuel =>
      unfold scanGroup
      have h0 := hin 0 (by omega)
      simp only [Nat.add_zero] at h0
      have hlt : e < n := by omega
      have hc : (decide (e < n) && flag.getD e 0 == g) = true := by
        rw [h0]; simp [hlt]
      rw [if_pos hc, ih (e + 1) (by omega) (fun i hi => by
        have := hin (i + 1) (by omega)
        rwa [show e + (i + 1) = e + 1 + i by omega] at this) (by
          intro h
          have := hout (by omega)
          rwa [show e + (k + 1) = e + 1 + k by omega] at this) fuel (by omega)]
      omega

theorem flagsFrom_length {α : Type} (k : ℕ) (gs : List (List α)) :
    (flagsFrom k gs).length = gs.flatten.length := by
  induction gs generalizing k with
  | nil => simp [flagsFrom]
  | cons g gs ih => simp [flagsFrom, ih]

theorem flagsFrom_append {α : Type} (k : ℕ) (a b : List (List α)) :
    flagsFrom k (a ++ b) = flagsFrom k a ++ flagsFrom (k + a.length) b := by
  induction a generalizing k with
  | nil => simp [flagsFrom]
  | cons g a ih => simp [flagsFrom, ih, Nat.add_assoc, Nat.add_comm 1]

theorem flagsFrom_ge {α : Type} (k : ℕ) (gs : List (List α)) : ∀ x ∈ flagsFrom k gs, k ≤ x := by
  induction gs generalizing k with
  | nil => simp [flagsFrom]
  | cons g gs ih =>
    intro x hx
    simp only [flagsFrom, List.mem_append, List.mem_replicate] at hx
    rcases hx with ⟨_, h⟩ | h
    · omega
    · have := ih (k + 1) x h
      omega

/-- Scanning the flags of `A ++ g :: B` from the start of `g` stops at the end of `g`. -/
theorem scanGroup_flagsOf {α : Type} (A : List (List α)) (g : List α) (B : List (List α))
    (fuel : ℕ)
    (hf : (A ++ g :: B).flatten.length - A.flatten.length ≤ fuel) :
    scanGroup (flagsOf (A ++ g :: B)) (A ++ g :: B).flatten.length A.length fuel
      A.flatten.length = A.flatten.length + g.length := by
  apply scanGroup_spec _ _ _ _ _ _ _ _ _ hf
  · simp only [List.flatten_append, List.flatten_cons, List.length_append]
    omega
  · intro i hi
    rw [flagsOf, flagsFrom_append, List.getD_append_right _ _ _ _ (by
      rw [flagsFrom_length]; omega), flagsFrom_length, Nat.add_sub_cancel_left]
    simp only [flagsFrom, Nat.zero_add]
    rw [List.getD_append _ _ _ _ (by simpa using hi)]
    simp [hi]
  · intro hlt
    have hlen : (flagsOf (A ++ g :: B)).length = (A ++ g :: B).flatten.length :=
      flagsFrom_length _ _
    rw [flagsOf, flagsFrom_append, List.getD_append_right _ _ _ _ (by
      rw [flagsFrom_length]; omega), flagsFrom_length, Nat.add_sub_cancel_left]
    simp only [flagsFrom, Nat.zero_add]
    rw [List.getD_append_right _ _ _ _ (by simp)]
    simp only [List.length_replicate, Nat.sub_self]
    have hpos : 0 < (flagsFrom (A.length + 1) B).length := by
      rw [flagsFrom_length]
      simp only [List.flatten_append, List.flatten_cons, List.length_append] at hlt
      omega
    rw [List.getD_eq_getElem _ _ hpos]
    have := flagsFrom_ge (A.length + 1) B _ (List.getElem_mem hpos)
    omega

/-- Sign contributed by the groups that are marked. -/
def markedSign : List (List ℤ) → List Bool → ℤ
  | g :: gs, m :: ms => (if m then reversalSign (g.map oddInt) else 1) * markedSign gs ms
  | _, _ => 1

theorem sgn_splitMerge_aux (groups : List (List ℤ)) (mark : List Bool)
    (B : List (List ℤ)) (MB : List Bool) (A : List (List ℤ)) (MA : List Bool) (r : Bool)
    (hg : groups = A ++ B) (hm : mark = MA ++ MB) (hA : MA.length = A.length)
    (hB : MB.length = B.length) :
    sgn ((List.range' A.length B.length).foldl (fun (st : Bool × Nat × Nat) group =>
      let (result, b, e) := st
      let e' := scanGroup (flagsOf groups) groups.flatten.length group
        (groups.flatten.length - e) e
      let result' := if mark.getD group false then result ^^ groupParity groups.flatten b e'
        else result
      (result', e', e')) (r, A.flatten.length, A.flatten.length)).1 =
    sgn r * markedSign B MB := by
  induction B generalizing A MA MB r with
  | nil => cases MB <;> simp [markedSign]
  | cons g B ih =>
    cases MB with
    | nil => simp at hB
    | cons m MB =>
      rw [List.length_cons, List.range'_succ, List.foldl_cons]
      have hs := scanGroup_flagsOf A g B (groups.flatten.length - A.flatten.length) (by rw [hg])
      rw [← hg] at hs
      simp only [hs]
      have hmark : mark.getD A.length false = m := by
        rw [hm, List.getD_append_right _ _ _ _ (by omega)]
        simp [hA]
      rw [hmark]
      have hnext := ih MB (A ++ [g]) (MA ++ [m])
        (if m = true then r ^^ groupParity groups.flatten A.flatten.length
          (A.flatten.length + g.length) else r) (by simp [hg]) (by simp [hm]) (by simp [hA])
        (by simpa using hB)
      simp only [List.length_append, List.length_cons, List.length_nil, List.flatten_append,
        List.flatten_cons, List.flatten_nil, List.append_nil, Nat.zero_add] at hnext
      rw [hnext]
      simp only [markedSign]
      have hgp := sgn_groupParity A.flatten g B.flatten
      have hfl : groups.flatten = A.flatten ++ g ++ B.flatten := by simp [hg]
      rw [← hfl] at hgp
      cases m
      · simp
      · simp only [if_true, sgn_xor, hgp]
        ring

theorem sgn_getSplitMergeParity (groups : List (List ℤ)) (mark : List Bool)
    (h : mark.length = groups.length) :
    sgn (getSplitMergeParity groups.flatten (flagsOf groups) mark) = markedSign groups mark := by
  have := sgn_splitMerge_aux groups mark groups mark [] [] false (by simp) (by simp) rfl h
  unfold getSplitMergeParity
  rw [h, List.range_eq_range']
  simpa using this

end TAT
