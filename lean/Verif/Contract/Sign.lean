import Verif.Contract.Spec
import Verif.EdgeMisc.MergeProps

/-!
# Signs of reordering
-/

set_option linter.unusedSectionVars false

namespace TAT

variable {ν σ α : Type} [LinearOrder ν]

/-- Number of odd edges. -/
def oddCount (odd : ν → Bool) (A : List ν) : ℕ := (A.map odd).count true

theorem exchangeOf_congr {odd odd' : ν → Bool} {A : List ν} (h : ∀ n ∈ A, odd n = odd' n)
    (B : List ν) : exchangeOf odd A B = exchangeOf odd' A B := by
  unfold exchangeOf
  refine Finset.prod_congr rfl fun x hx => Finset.prod_congr rfl fun y hy => ?_
  rw [List.mem_toFinset] at hx hy
  rw [h x hx, h y hy]

theorem idx_left {A B : List ν} {x : ν} (hx : x ∈ A) : (A ++ B).idxOf x = A.idxOf x :=
  List.idxOf_append_of_mem hx

theorem idx_right {A B : List ν} {x : ν} (hx : x ∉ A) :
    (A ++ B).idxOf x = A.length + B.idxOf x := by
  rw [List.idxOf_append_of_notMem hx]

theorem idx_lt {A : List ν} {x : ν} (hx : x ∈ A) : A.idxOf x < A.length :=
  List.idxOf_lt_length_iff.2 hx

/-- The product splits over two parts. -/
theorem exchange_split (f : ν → ν → ℤ) {A B : List ν} (hd : ∀ x ∈ A, x ∉ B) :
    ∏ x ∈ (A ++ B).toFinset, ∏ y ∈ (A ++ B).toFinset, f x y =
      (∏ x ∈ A.toFinset, ∏ y ∈ A.toFinset, f x y) * (∏ x ∈ A.toFinset, ∏ y ∈ B.toFinset, f x y) *
      ((∏ x ∈ B.toFinset, ∏ y ∈ A.toFinset, f x y) *
        (∏ x ∈ B.toFinset, ∏ y ∈ B.toFinset, f x y)) := by
  have hdis : Disjoint A.toFinset B.toFinset := by
    rw [Finset.disjoint_left]
    intro x hx hx'
    rw [List.mem_toFinset] at hx hx'
    exact hd x hx hx'
  rw [List.toFinset_append, Finset.prod_union hdis]
  simp only [Finset.prod_union hdis, Finset.prod_mul_distrib]

theorem exchangeOf_append (odd : ν → Bool) {A A' B B' : List ν} (hA : A.Perm A') (hB : B.Perm B')
    (hd : ∀ x ∈ A, x ∉ B) :
    exchangeOf odd (A ++ B) (A' ++ B') = exchangeOf odd A A' * exchangeOf odd B B' := by
  have hd' : ∀ x ∈ B, x ∉ A := fun x hx hx' => hd x hx' hx
  have e1 : ∀ x ∈ A, (A ++ B).idxOf x = A.idxOf x ∧ (A' ++ B').idxOf x = A'.idxOf x :=
    fun x hx => ⟨idx_left hx, idx_left (hA.mem_iff.1 hx)⟩
  have e2 : ∀ x ∈ B, (A ++ B).idxOf x = A.length + B.idxOf x ∧
      (A' ++ B').idxOf x = A'.length + B'.idxOf x :=
    fun x hx => ⟨idx_right (hd' x hx), idx_right fun h => hd' x hx (hA.mem_iff.2 h)⟩
  unfold exchangeOf
  rw [exchange_split _ hd]
  have p1 : (∏ x ∈ A.toFinset, ∏ y ∈ B.toFinset,
      if (A ++ B).idxOf x < (A ++ B).idxOf y ∧ (A' ++ B').idxOf y < (A' ++ B').idxOf x ∧
        odd x = true ∧ odd y = true then (-1 : ℤ) else 1) = 1 := by
    refine Finset.prod_eq_one fun x hx => Finset.prod_eq_one fun y hy => if_neg ?_
    rw [List.mem_toFinset] at hx hy
    rintro ⟨-, h, -⟩
    rw [(e1 x hx).2, (e2 y hy).2] at h
    have := idx_lt (hA.mem_iff.1 hx)
    omega
  have p2 : (∏ x ∈ B.toFinset, ∏ y ∈ A.toFinset,
      if (A ++ B).idxOf x < (A ++ B).idxOf y ∧ (A' ++ B').idxOf y < (A' ++ B').idxOf x ∧
        odd x = true ∧ odd y = true then (-1 : ℤ) else 1) = 1 := by
    refine Finset.prod_eq_one fun x hx => Finset.prod_eq_one fun y hy => if_neg ?_
    rw [List.mem_toFinset] at hx hy
    rintro ⟨h, -⟩
    rw [(e2 x hx).1, (e1 y hy).1] at h
    have := idx_lt hy
    omega
  rw [p1, p2, mul_one, one_mul]
  congr 1
  · refine Finset.prod_congr rfl fun x hx => Finset.prod_congr rfl fun y hy => ?_
    rw [List.mem_toFinset] at hx hy
    rw [(e1 x hx).1, (e1 x hx).2, (e1 y hy).1, (e1 y hy).2]
  · refine Finset.prod_congr rfl fun x hx => Finset.prod_congr rfl fun y hy => ?_
    rw [List.mem_toFinset] at hx hy
    rw [(e2 x hx).1, (e2 x hx).2, (e2 y hy).1, (e2 y hy).2]
    simp only [Nat.add_lt_add_iff_left]

theorem prod_odd {odd : ν → Bool} {A : List ν} (hA : A.Nodup) (c : ℤ) :
    (∏ x ∈ A.toFinset, if odd x = true then c else 1) = c ^ oddCount odd A := by
  rw [List.prod_toFinset _ hA]
  unfold oddCount
  clear hA
  induction A with
  | nil => simp
  | cons a A ih =>
    rw [List.map_cons, List.prod_cons, ih, List.map_cons]
    cases odd a
    · simp
    · simp [pow_succ, mul_comm]

theorem exchangeOf_swap (odd : ν → Bool) {A B : List ν} (hA : A.Nodup) (hB : B.Nodup)
    (hd : ∀ x ∈ A, x ∉ B) :
    exchangeOf odd (A ++ B) (B ++ A) = (-1) ^ (oddCount odd A * oddCount odd B) := by
  have hd' : ∀ x ∈ B, x ∉ A := fun x hx hx' => hd x hx' hx
  have e1 : ∀ x ∈ A, (A ++ B).idxOf x = A.idxOf x ∧ (B ++ A).idxOf x = B.length + A.idxOf x :=
    fun x hx => ⟨idx_left hx, idx_right (hd x hx)⟩
  have e2 : ∀ x ∈ B, (A ++ B).idxOf x = A.length + B.idxOf x ∧ (B ++ A).idxOf x = B.idxOf x :=
    fun x hx => ⟨idx_right (hd' x hx), idx_left hx⟩
  unfold exchangeOf
  rw [exchange_split _ hd]
  have p0 : (∏ x ∈ A.toFinset, ∏ y ∈ A.toFinset,
      if (A ++ B).idxOf x < (A ++ B).idxOf y ∧ (B ++ A).idxOf y < (B ++ A).idxOf x ∧
        odd x = true ∧ odd y = true then (-1 : ℤ) else 1) = 1 := by
    refine Finset.prod_eq_one fun x hx => Finset.prod_eq_one fun y hy => if_neg ?_
    rw [List.mem_toFinset] at hx hy
    rintro ⟨h, h', -⟩
    rw [(e1 x hx).1, (e1 y hy).1] at h
    rw [(e1 x hx).2, (e1 y hy).2] at h'
    omega
  have p2 : (∏ x ∈ B.toFinset, ∏ y ∈ A.toFinset,
      if (A ++ B).idxOf x < (A ++ B).idxOf y ∧ (B ++ A).idxOf y < (B ++ A).idxOf x ∧
        odd x = true ∧ odd y = true then (-1 : ℤ) else 1) = 1 := by
    refine Finset.prod_eq_one fun x hx => Finset.prod_eq_one fun y hy => if_neg ?_
    rw [List.mem_toFinset] at hx hy
    rintro ⟨h, -⟩
    rw [(e2 x hx).1, (e1 y hy).1] at h
    have := idx_lt hy
    omega
  have p3 : (∏ x ∈ B.toFinset, ∏ y ∈ B.toFinset,
      if (A ++ B).idxOf x < (A ++ B).idxOf y ∧ (B ++ A).idxOf y < (B ++ A).idxOf x ∧
        odd x = true ∧ odd y = true then (-1 : ℤ) else 1) = 1 := by
    refine Finset.prod_eq_one fun x hx => Finset.prod_eq_one fun y hy => if_neg ?_
    rw [List.mem_toFinset] at hx hy
    rintro ⟨h, h', -⟩
    rw [(e2 x hx).1, (e2 y hy).1] at h
    rw [(e2 x hx).2, (e2 y hy).2] at h'
    omega
  rw [p0, p2, p3, one_mul, mul_one, mul_one]
  have p1 : ∀ x ∈ A.toFinset, (∏ y ∈ B.toFinset,
      if (A ++ B).idxOf x < (A ++ B).idxOf y ∧ (B ++ A).idxOf y < (B ++ A).idxOf x ∧
        odd x = true ∧ odd y = true then (-1 : ℤ) else 1) =
      if odd x = true then (-1) ^ oddCount odd B else 1 := by
    intro x hx
    rw [List.mem_toFinset] at hx
    rw [← prod_odd hB]
    split
    · rename_i ho
      refine Finset.prod_congr rfl fun y hy => ?_
      rw [List.mem_toFinset] at hy
      rw [(e1 x hx).1, (e1 x hx).2, (e2 y hy).1, (e2 y hy).2]
      have a1 := idx_lt hx
      have a2 := idx_lt hy
      have b1 : A.idxOf x < A.length + B.idxOf y := by omega
      have b2 : B.idxOf y < B.length + A.idxOf x := by omega
      simp only [b1, b2, ho, true_and]
    · rename_i ho
      refine Finset.prod_eq_one fun y _ => if_neg ?_
      rintro ⟨-, -, h, -⟩
      exact ho h
  rw [Finset.prod_congr rfl p1, prod_odd hA, ← pow_mul, Nat.mul_comm]

theorem exchangeOf_reverse (odd : ν → Bool) {B : List ν} (hB : B.Nodup) :
    exchangeOf odd B B.reverse = reversalSign (B.map odd) := by
  induction B with
  | nil => simp [exchangeOf, reversalSign]
  | cons b B ih =>
    rw [List.nodup_cons] at hB
    have ih := ih hB.2
    have h1 := exchangeOf_swap odd (A := [b]) (B := B) (by simp) hB.2 (by simpa using hB.1)
    have h2 := exchangeOf_append odd (A := B) (A' := B.reverse) (B := [b]) (B' := [b])
      (List.reverse_perm B).symm (List.Perm.refl _) (fun x hx => by
        rw [List.mem_singleton]; rintro rfl; exact hB.1 hx)
    rw [exchangeOf_refl, mul_one, ih] at h2
    have h3 := exchangeOf_mul odd (A := [b] ++ B) (B := B ++ [b]) (C := B.reverse ++ [b])
      List.perm_append_comm ((List.reverse_perm B).symm.append_right _)
    rw [List.reverse_cons, List.map_cons, reversalSign]
    rw [show b :: B = [b] ++ B from rfl, ← h3, h1, h2]
    congr 1
    unfold oddCount
    cases h : odd b <;> simp [h]

theorem idxOf_map_on {β : Type} [DecidableEq β] {f : β → ν} {l : List β} (hl : (l.map f).Nodup)
    {x : β} (hx : x ∈ l) : (l.map f).idxOf (f x) = l.idxOf x := by
  obtain ⟨i, hi, rfl⟩ := List.mem_iff_getElem.1 hx
  rw [(List.Nodup.of_map _ hl).idxOf_getElem i hi]
  have : f l[i] = (l.map f)[i]'(by simpa using hi) := by simp
  rw [this, hl.idxOf_getElem]

/-- Partners are reordered alike. -/
theorem exchangeOf_pairs {odd odd' : ν → Bool} {cs cs' : List (ν × ν)}
    (h1 : (cs.map Prod.fst).Nodup) (h2 : (cs.map Prod.snd).Nodup) (hp : cs.Perm cs')
    (ho : ∀ c ∈ cs, odd c.1 = odd' c.2) :
    exchangeOf odd (cs.map Prod.fst) (cs'.map Prod.fst) =
      exchangeOf odd' (cs.map Prod.snd) (cs'.map Prod.snd) := by
  have h1' := (hp.map Prod.fst).nodup_iff.1 h1
  have h2' := (hp.map Prod.snd).nodup_iff.1 h2
  unfold exchangeOf
  rw [List.prod_toFinset _ h1, List.prod_toFinset _ h2, List.map_map, List.map_map]
  congr 1
  refine List.map_congr_left fun c hc => ?_
  simp only [Function.comp]
  rw [List.prod_toFinset _ h1, List.prod_toFinset _ h2, List.map_map, List.map_map]
  congr 1
  refine List.map_congr_left fun d hd => ?_
  simp only [Function.comp]
  rw [idxOf_map_on h1 hc, idxOf_map_on h1 hd, idxOf_map_on h2 hc, idxOf_map_on h2 hd,
    idxOf_map_on h1' (hp.mem_iff.1 hc), idxOf_map_on h1' (hp.mem_iff.1 hd),
    idxOf_map_on h2' (hp.mem_iff.1 hc), idxOf_map_on h2' (hp.mem_iff.1 hd), ho c hc, ho d hd]

/-! ## parities -/

theorem odd_sum [TatSym σ] (p : ν → σ × ℕ) (A : List ν) :
    oddInt (TatSym.fermi (keyOf A p).sum) = decide (oddCount (oddAt p) A % 2 = 1) := by
  induction A with
  | nil => simp [keyOf, oddCount, TatSym.fermi_zero, oddInt]
  | cons a A ih =>
    have : keyOf (a :: A) p = (p a).1 :: keyOf A p := rfl
    rw [this, List.sum_cons, TatSym.odd_add, ih]
    unfold oddCount
    rw [List.map_cons]
    change (oddAt p a ^^ _) = _
    cases oddAt p a
    · simp
    · simp only [List.count_cons_self, Bool.true_xor]
      rw [← decide_not]
      congr 1
      apply propext
      omega

theorem odd_neg [TatSym σ] (s : σ) : oddInt (TatSym.fermi (-s)) = oddInt (TatSym.fermi s) := by
  have h := TatSym.odd_add s (-s)
  rw [add_neg_cancel, TatSym.fermi_zero] at h
  have h0 : oddInt 0 = false := by decide
  rw [h0] at h
  cases h1 : oddInt (TatSym.fermi s) <;> cases h2 : oddInt (TatSym.fermi (-s)) <;> simp_all

theorem neg_one_pow_sq {a b : ℕ} (h : a % 2 = b % 2) :
    (-1 : ℤ) ^ (a * b) = if a % 2 = 1 then -1 else 1 := by
  split
  · rename_i h1
    rw [Odd.neg_one_pow]
    exact (Nat.odd_iff.2 h1).mul (Nat.odd_iff.2 (h ▸ h1))
  · rename_i h1
    rw [Even.neg_one_pow]
    exact (Nat.even_iff.2 (by omega)).mul_right _

end TAT
