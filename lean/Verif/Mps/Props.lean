import Verif.Mps.Chain
import Verif.Square.DenseNew
import Mathlib.Tactic.FieldSimp

/-!
# C84: the energy of a chain

`psi`, `overlap` and `bondSum` in `Spec.lean` say what a chain of tensors stands for.
-/

namespace TAT

open Mps Finset

variable {ν α β : Type} [LinearOrder ν] [Field α] [DecidableEq α] [LinearOrder β] [Zero β]
  {e : AuxEnv ν α β}

/-- **C84**: for a chain of any length `energy` is the sum over the bonds of the expectation values of
the Hamiltonian, divided by the square of the norm and by the number of sites. -/
theorem C84_energy (he : MpsEnvOk e) {d : ℕ} {chain : List (Tensor ν NoSymmetry α)}
    (hc : IsChain e.nm d none chain) (hn : chain ≠ []) {op : Tensor ν NoSymmetry α}
    (ho : IsOperator e.nm d op) :
    mpsEnergy e chain op =
      if overlap d (mpsSites e.nm chain) 0 0 = 0 then .error "the norm is zero"
      else .ok ((∑ i ∈ range (chain.length - 1),
        bondSum d (operatorVal e.nm op) i (mpsSites e.nm chain) 0 0) /
          overlap d (mpsSites e.nm chain) 0 0 / chain.length) := by
  obtain ⟨r, r1, r2⟩ := right_shows he hc
  have r3 := (r2.cast (fun g => (pairLegs_none _ _ g).symm) fun _ => rfl).only fun _ => 0
  rw [mpsEnergy, if_neg (by simpa using hn), sum_ok he hc ho _ _ (fun i hi => by
    rw [List.mem_range] at hi; omega), Outcome.bind, r1, Outcome.bind, r3, Outcome.bind, zero_add]
  have : ((List.range (chain.length - 1)).map fun i =>
      bondSum d (operatorVal e.nm op) i (mpsSites e.nm chain) 0 0).sum =
      ∑ i ∈ range (chain.length - 1), bondSum d (operatorVal e.nm op) i (mpsSites e.nm chain) 0 0 := by
    rw [← List.sum_toFinset _ List.nodup_range, List.toFinset_range]
  rw [this]

omit [DecidableEq α] in
/-- **C84**: the two sides of the calculation.  What `get_right` gives for the whole chain is the square
of the norm. -/
theorem C84_norm (he : MpsEnvOk e) {d : ℕ} {chain : List (Tensor ν NoSymmetry α)}
    (hc : IsChain e.nm d none chain) : ∃ r, mpsRight e chain = .ok r ∧
      onlyElement r = .ok (sumSites d chain.length fun s =>
        psi (mpsSites e.nm chain) 0 s * psi (mpsSites e.nm chain) 0 s) := by
  obtain ⟨r, r1, r2⟩ := right_shows he hc
  refine ⟨r, r1, ?_⟩
  rw [(r2.cast (fun g => (pairLegs_none _ _ g).symm) fun _ => rfl).only fun _ => 0, overlap, mpsSites,
    List.length_map]

omit [DecidableEq α] [LinearOrder β] [Zero β] in
theorem mem_set_lt {d i a : ℕ} {s : List ℕ} (hs : ∀ x ∈ s, x < d) (ha : a < d) : ∀ x ∈ s.set i a, x < d :=
  fun x hx => by
    rcases List.mem_or_eq_of_mem_set hx with h | rfl
    · exact hs x h
    · exact ha

/-- **C84**: the energy depends on the state alone.  Two chains with the same amplitudes up to a factor
have the same energy, whatever their bonds are. -/
theorem C84_same_state (he : MpsEnvOk e) {d : ℕ} {chain chain' : List (Tensor ν NoSymmetry α)}
    (hc : IsChain e.nm d none chain) (hc' : IsChain e.nm d none chain')
    (hl : chain.length = chain'.length) {op : Tensor ν NoSymmetry α} (ho : IsOperator e.nm d op)
    {c : α} (h0 : c ≠ 0) (hs : ∀ s : List ℕ, s.length = chain.length → (∀ x ∈ s, x < d) →
      psi (mpsSites e.nm chain') 0 s = c * psi (mpsSites e.nm chain) 0 s) :
    mpsEnergy e chain' op = mpsEnergy e chain op := by
  by_cases hn : chain = []
  · subst hn
    rw [List.length_nil, eq_comm, List.length_eq_zero_iff] at hl
    subst hl
    rfl
  have hn' : chain' ≠ [] := fun h => hn (by rw [h] at hl; exact List.length_eq_zero_iff.1 hl)
  have len : (mpsSites e.nm chain).length = chain.length := by rw [mpsSites, List.length_map]
  have len' : (mpsSites e.nm chain').length = chain.length := by rw [mpsSites, List.length_map, hl]
  have e1 : overlap d (mpsSites e.nm chain') 0 0 = c ^ 2 * overlap d (mpsSites e.nm chain) 0 0 := by
    rw [overlap, overlap, len, len', ← sumSites_mul]
    refine sumSites_congr' fun s h1 h2 => ?_
    rw [hs s h1 h2]
    ring
  have e2 : ∀ i, bondSum d (operatorVal e.nm op) i (mpsSites e.nm chain') 0 0 =
      c ^ 2 * bondSum d (operatorVal e.nm op) i (mpsSites e.nm chain) 0 0 := fun i => by
    rw [bondSum, bondSum, len, len', ← sumSites_mul]
    refine sumSites_congr' fun s h1 h2 => ?_
    rw [mul_sum]
    refine sum_congr rfl fun a ha => ?_
    rw [mul_sum]
    refine sum_congr rfl fun b hb => ?_
    rw [hs s h1 h2, hs _ (by simpa using h1)
      (mem_set_lt (mem_set_lt h2 (mem_range.1 ha)) (mem_range.1 hb))]
    ring
  rw [C84_energy he hc hn ho, C84_energy he hc' hn' ho, e1, ← hl]
  have h2 : c ^ 2 ≠ 0 := pow_ne_zero 2 h0
  simp only [e2, ← mul_sum, mul_eq_zero, h2, false_or]
  split
  · rfl
  · rw [mul_div_mul_left _ _ h2]

/-- **C84**: the values of the calculation are those of the operator.  If the operator multiplies by a
number then every bond contributes that number. -/
theorem C84_multiple (he : MpsEnvOk e) {d : ℕ} {chain : List (Tensor ν NoSymmetry α)}
    (hc : IsChain e.nm d none chain) (hn : chain ≠ []) {op : Tensor ν NoSymmetry α}
    (ho : IsOperator e.nm d op) {k : α} (hk : ∀ x < d, ∀ y < d, ∀ a < d, ∀ b < d,
      operatorVal e.nm op x y a b = if x = a ∧ y = b then k else 0)
    (h0 : overlap d (mpsSites e.nm chain) 0 0 ≠ 0) :
    mpsEnergy e chain op = .ok ((chain.length - 1 : ℕ) * k / chain.length) := by
  have len : (mpsSites e.nm chain).length = chain.length := by rw [mpsSites, List.length_map]
  have e2 : ∀ i ∈ range (chain.length - 1), bondSum d (operatorVal e.nm op) i (mpsSites e.nm chain) 0 0 =
      k * overlap d (mpsSites e.nm chain) 0 0 := fun i hi => by
    rw [mem_range] at hi
    rw [bondSum, overlap, len, ← sumSites_mul]
    refine sumSites_congr' fun s h1 h2 => ?_
    have m1 : s[i]'(by omega) < d := h2 _ (List.getElem_mem _)
    have m2 : s[i + 1]'(by omega) < d := h2 _ (List.getElem_mem _)
    rw [List.getD_eq_getElem _ _ (by omega : i < s.length),
      List.getD_eq_getElem _ _ (by omega : i + 1 < s.length)]
    rw [sum_eq_single_of_mem (s[i]'(by omega)) (mem_range.2 m1), sum_eq_single_of_mem
      (s[i + 1]'(by omega)) (mem_range.2 m2), hk _ m1 _ m2 _ m1 _ m2, if_pos ⟨rfl, rfl⟩, List.set_getElem_self,
      List.set_getElem_self]
    · ring
    · intro b hb hne
      rw [hk _ m1 _ m2 _ m1 _ (mem_range.1 hb), if_neg (fun h => hne h.2.symm)]
      ring
    · intro a ha hne
      refine sum_eq_zero fun b hb => ?_
      rw [hk _ m1 _ m2 _ (mem_range.1 ha) _ (mem_range.1 hb), if_neg (fun h => hne h.1.symm)]
      ring
  rw [C84_energy he hc hn ho, if_neg h0, sum_congr rfl e2, sum_const, card_range, nsmul_eq_mul]
  congr 2
  rw [← mul_assoc, mul_div_assoc, div_self h0, mul_one]

theorem mpsLegs_nodup (n dim i : ℕ) : ((mpsLegs n dim i).map Prod.fst).Nodup := by
  unfold mpsLegs
  split
  · simp
  · split <;> simp

omit [DecidableEq α] in
theorem mpsNewFrom_ok {S : Type} (he : MpsEnvOk e) (gen : S → α × S) {n dim : ℕ} (hd : 0 < dim)
    (hn : 2 ≤ n) : ∀ (k i : ℕ) (s : S), i + k = n →
      ∃ l, mpsNewFrom e gen n dim k i s = .ok l ∧ l.length = k ∧
        IsChain e.nm 2 (if i = 0 ∨ i = n then none else some dim) l
  | 0, i, s, h => ⟨[], rfl, rfl, by simp [TAT.Mps.IsChain]; omega⟩
  | k + 1, i, s, h => by
    obtain ⟨t, t1, t2, t3, t4, -⟩ := dense_set e.junk gen s
      (names := (mpsLegs n dim i).map fun p => e.nm p.1) (dims := (mpsLegs n dim i).map Prod.snd)
      (by
        have := (mpsLegs_nodup n dim i).map he.inj
        rwa [List.map_map] at this) (by simp) (by
        intro m hm
        unfold mpsLegs at hm
        split at hm
        · simp at hm; omega
        · split at hm <;> simp at hm <;> omega)
    obtain ⟨l, l1, l2, l3⟩ := mpsNewFrom_ok he gen hd hn k (i + 1) (genBlocks gen t.core.blocks s).2 (by omega)
    refine ⟨setWith gen s t :: l, ?_, by rw [List.length_cons, l2],
      (if i + 1 = 0 ∨ i + 1 = n then none else some dim), ⟨t2, fun m => ?_⟩, l3⟩
    · rw [mpsNewFrom, show ((mpsLegs n dim i).map fun p => (⟨false, [(0, p.2)]⟩ : Edge NoSymmetry)) =
        ((mpsLegs n dim i).map Prod.snd).map plainEdge by rw [List.map_map]; rfl, t1, Outcome.bind, l1]
      rfl
    · have hin : ∀ p ∈ mpsLegs n dim i, leg (setWith gen s t) (e.nm p.1) = some p.2 := fun p hp => by
        obtain ⟨j, hj, rfl⟩ := List.getElem_of_mem hp
        have := t4 j (by simpa using hj)
        rwa [List.getElem_map, List.getElem_map] at this
      have hout : m ∉ (mpsLegs n dim i).map (fun p => e.nm p.1) → leg (setWith gen s t) m = none :=
        fun hm => leg_eq_none.2 (by rwa [t3])
      by_cases h1 : m = e.nm "Phy"
      · rw [if_pos h1, h1]
        refine hin ("Phy", 2) ?_
        unfold mpsLegs
        split
        · simp
        · split <;> simp
      rw [if_neg h1]
      by_cases h2 : m = e.nm "Left"
      · rw [if_pos h2]
        by_cases hi : i = 0
        · rw [if_pos (Or.inl hi)]
          refine hout ?_
          rw [mpsLegs, if_pos hi, h2]
          simp [nm_eq he]
        · rw [if_neg (by omega), h2]
          refine hin ("Left", dim) ?_
          rw [mpsLegs, if_neg hi]
          split <;> simp
      rw [if_neg h2]
      by_cases h3 : m = e.nm "Right"
      · rw [if_pos h3]
        by_cases hi : i + 1 = n
        · rw [if_pos (Or.inr hi)]
          refine hout ?_
          rw [mpsLegs, if_neg (by omega), if_pos hi, h3]
          simp [nm_eq he]
        · rw [if_neg (by omega), h3]
          refine hin ("Right", dim) ?_
          rw [mpsLegs, if_neg hi]
          split <;> simp
      rw [if_neg h3]
      refine hout ?_
      unfold mpsLegs
      split
      · simp [h1, h3]
      · split <;> simp [h1, h2, h3]

omit [DecidableEq α] in
/-- **C84**: the constructor gives such a chain, for two sites or more. -/
theorem C84_constructed {S : Type} (he : MpsEnvOk e) (gen : S → α × S) (s : S) {n dim : ℕ} (hd : 0 < dim)
    (hn : 2 ≤ n) : ∃ chain, mpsNew e gen s n dim = .ok chain ∧ chain.length = n ∧
      IsChain e.nm 2 none chain := by
  obtain ⟨l, l1, l2, l3⟩ := mpsNewFrom_ok he gen hd hn n 0 s (by omega)
  exact ⟨l, l1, l2, by simpa using l3⟩

end TAT
