import Verif.Transpose.Inturn
import Mathlib.Algebra.BigOperators.Ring.List
import Mathlib.Data.List.GetD

/-!
# C14, C15: the data transpose
-/

namespace TAT

variable {α : Type}

theorem leadSByDst_length (a : TransposeArgs) : a.leadSByDst.length = a.rank := by
  simp [TransposeArgs.leadSByDst]

/-- `simple_transpose` moves the box. -/
theorem simpleTranspose_moved [Neg α] (parity : Bool) {src : List α} {sOff : ℕ} {dst : List α}
    {dOff : ℕ} {a : TransposeArgs} (ha : a.Ok) (hr : 0 < a.rank) (hp : 0 < a.dimsD.prod)
    (hf : Fits a.dimsD a.leadSByDst a.leadD src sOff dst dOff) (oobS oobD : ℕ) :
    ∃ dst', simpleTranspose parity src sOff dst dOff a oobS oobD = .ok dst' ∧
      Moved parity a.dimsD a.leadSByDst a.leadD src sOff dst dOff dst' := by
  obtain ⟨pairs, h1, h2⟩ := runKernel_pairs parity src sOff dst dOff hf.lenS hf.lenD
    (by rw [ha.dimsDLen]; exact hr) hp oobS oobD
  obtain ⟨dst', h3, h4⟩ := moved_of_pairs parity hf pairs h2
  refine ⟨dst', ?_, h4⟩
  rw [← h3, ← h1, ha.dimsDLen]
  rfl

/-- `inturn_transpose` moves the box. -/
theorem inturnTranspose_moved [Neg α] (parity : Bool) {src : List α} {sOff : ℕ} {dst : List α}
    {dOff : ℕ} {a : TransposeArgs} (ha : a.Ok) (hr : 0 < a.rank) (hp : 0 < a.dimsD.prod)
    (hf : Fits a.dimsD a.leadSByDst a.leadD src sOff dst dOff) (oobS oobD : ℕ) :
    ∃ dst', inturnTranspose parity src sOff dst dOff a oobS oobD = .ok dst' ∧
      Moved parity a.dimsD a.leadSByDst a.leadD src sOff dst dOff dst' := by
  have hperm := inturnAxes_perm ha
  have hlen : (inturnAxes a).length = a.rank := by
    rw [hperm.length_eq]
    simp [axesOf, ha.dimsDLen, leadSByDst_length, ha.leadDLen]
  have hdims : ((inturnAxes a).map fun x => x.1).Perm a.dimsD := by
    have := hperm.map (fun x => x.1)
    rwa [axesOf_dims hf.lenS hf.lenD] at this
  obtain ⟨pairs, h1, h2⟩ := runKernel_pairs parity src sOff dst dOff
    (dims := (inturnAxes a).map fun x => x.1) (ls := (inturnAxes a).map fun x => x.2.1)
    (ld := (inturnAxes a).map fun x => x.2.2) (by simp) (by simp)
    (by rw [List.length_map, hlen]; exact hr) (by rw [hdims.prod_eq]; exact hp) oobS oobD
  rw [axesOf_map] at h2
  simp only [Reach.perm hperm] at h2
  obtain ⟨dst', h3, h4⟩ := moved_of_pairs parity hf pairs h2
  refine ⟨dst', ?_, h4⟩
  rw [← h3, ← h1, List.length_map, hlen]
  rfl

theorem inBox_empty {dims idx : List ℕ} (h : dims.prod = 0) : ¬ InBox dims idx := fun hb => by
  have := rowMajor_lt hb
  omega

theorem moved_one [Neg α] (parity : Bool) {dims ls ld : List ℕ} {src : List α} {sOff : ℕ}
    {dst : List α} {dOff : ℕ} (hf : Fits dims ls ld src sOff dst dOff) (h1 : dims.prod = 1) :
    ∃ dst', copyOne parity src sOff dOff dst = .ok dst' ∧
      Moved parity dims ls ld src sOff dst dOff dst' := by
  have hz : ∀ idx, InBox dims idx → idx = List.replicate dims.length 0 := by
    intro idx hb
    have hb0 : InBox dims (unravel dims 0) := inBox_unravel (by omega)
    have e : ∀ x, InBox dims x → x = unravel dims 0 := by
      intro x hx
      have := rowMajor_lt hx
      rw [← unravel_rowMajor hx]
      congr 1; omega
    have hb1 : InBox dims (List.replicate dims.length 0) := by
      rw [inBox_iff]
      refine ⟨by simp, fun i hi => ?_⟩
      have hpos : ∀ d ∈ dims, 0 < d := by
        intro d hd
        rcases Nat.eq_zero_or_pos d with h | h
        · rw [h] at hd
          have := List.prod_eq_zero_iff.2 hd
          omega
        · exact h
      rw [List.getD_replicate _ hi, List.getD_eq_getElem _ _ hi]
      exact hpos _ (List.getElem_mem hi)
    rw [e idx hb, ← e _ hb1]
  obtain ⟨dst', h2, h3⟩ := moved_of_pairs parity hf [(sOff, dOff)] (by
    intro x y
    simp only [reach_axesOf hf.lenS hf.lenD, List.mem_singleton, Prod.mk.injEq]
    constructor
    · rintro ⟨rfl, rfl⟩
      have hb0 : InBox dims (unravel dims 0) := inBox_unravel (by omega)
      refine ⟨0, 0, ⟨_, hb0, ?_, ?_⟩, rfl, rfl⟩
      all_goals rw [hz _ hb0, dot_zeros]
    · rintro ⟨x', y', ⟨idx, hb, rfl, rfl⟩, rfl, rfl⟩
      rw [hz _ hb, dot_zeros, dot_zeros]; exact ⟨rfl, rfl⟩)
  refine ⟨dst', ?_, h3⟩
  rw [← h2]
  simp only [copyPairs, List.foldlM_cons, List.foldlM_nil]
  cases copyOne parity src sOff dOff dst <;> rfl

/-- **C14.** `do_transpose` never leaves the two arrays, moves every element of the box to its
place with the sign, and touches nothing else; for every rank, permutation, dimensions (also 0 and
1) and strides. -/
theorem C14_transpose_moves [Neg α] (pf : Platform) (parity : Bool) {src : List α} {sOff : ℕ}
    {dst : List α} {dOff : ℕ} {a : TransposeArgs} (ha : a.Ok)
    (hf : Fits a.dimsD a.leadSByDst a.leadD src sOff dst dOff) :
    ∃ dst', doTranspose pf src sOff dst dOff a a.dimsD.prod parity = .ok dst' ∧
      Moved parity a.dimsD a.leadSByDst a.leadD src sOff dst dOff dst' := by
  unfold doTranspose
  split
  · rename_i h0
    exact ⟨dst, rfl, rfl, fun idx hb => absurd hb (inBox_empty h0), fun _ _ => rfl⟩
  · split
    · exact moved_one parity hf (by assumption)
    · have hr : 0 < a.rank := by
        rcases Nat.eq_zero_or_pos a.rank with h | h
        · rename_i _ h1
          have := ha.dimsDLen
          rw [h] at this
          exact absurd (by rw [List.length_eq_zero_iff.1 this]; rfl) h1
        · exact h
      split
      · exact simpleTranspose_moved parity ha hr (by omega) hf _ _
      · exact inturnTranspose_moved parity ha hr (by omega) hf _ _

/-- The index tuple of the source belonging to an index tuple of the destination. -/
def srcIndex (a : TransposeArgs) (idx : List ℕ) : List ℕ :=
  (List.range a.rank).map fun i => idx.getD (a.s2d.getD i 0) 0

theorem dot_eq_sum_range {idx l : List ℕ} {n : ℕ} (h1 : idx.length = n) (h2 : l.length = n) :
    dot idx l = ((List.range n).map fun i => idx.getD i 0 * l.getD i 0).sum := by
  unfold dot
  congr 1
  apply List.ext_getElem?
  intro i
  rw [List.getElem?_map]
  by_cases hi : i < n
  · rw [List.getElem?_range hi, Option.map_some, List.getElem?_eq_getElem (by simp; omega),
      List.getElem_zipWith, List.getD_eq_getElem _ _ (by omega), List.getD_eq_getElem _ _ (by omega)]
  · rw [List.getElem?_eq_none (by simp; omega), List.getElem?_eq_none (by simp; omega)]; rfl

/-- Using the source strides in destination order is the same as permuting the index tuple. -/
theorem dot_srcIndex {a : TransposeArgs} (ha : a.Ok) {idx : List ℕ} (hl : idx.length = a.rank) :
    dot idx a.leadSByDst = dot (srcIndex a idx) a.leadS := by
  rw [dot_eq_sum_range hl (leadSByDst_length a),
    dot_eq_sum_range (n := a.rank) (by simp [srcIndex]) ha.leadSLen]
  have hperm : ((List.range a.rank).map fun i => a.s2d.getD i 0).Perm (List.range a.rank) := by
    have hnd : ((List.range a.rank).map fun i => a.s2d.getD i 0).Nodup := by
      refine List.Nodup.map_on ?_ List.nodup_range
      intro x hx y hy h
      rw [← ha.leftInv x (List.mem_range.1 hx), h, ha.leftInv y (List.mem_range.1 hy)]
    refine (List.subperm_of_subset hnd ?_).perm_of_length_le (by simp)
    intro x hx
    obtain ⟨i, hi, rfl⟩ := List.mem_map.1 hx
    exact List.mem_range.2 (ha.s2dLt i (List.mem_range.1 hi))
  rw [← (hperm.map (fun i => idx.getD i 0 * a.leadSByDst.getD i 0)).sum_eq, List.map_map]
  congr 1
  apply List.map_congr_left
  intro i hi
  have hi' := List.mem_range.1 hi
  have g : ∀ (f : ℕ → ℕ) (j : ℕ), j < a.rank → ((List.range a.rank).map f).getD j 0 = f j := by
    intro f j hj
    rw [List.getD_eq_getElem _ _ (by simpa using hj)]
    simp
  simp only [Function.comp_apply, srcIndex, TransposeArgs.leadSByDst]
  rw [g _ _ hi', g _ _ (ha.s2dLt i hi'), ha.leftInv i hi']

/-- **C14.** The same in terms of index tuples of source and destination. -/
theorem C14_transpose_tuples [Neg α] (pf : Platform) (parity : Bool) {src : List α} {sOff : ℕ}
    {dst : List α} {dOff : ℕ} {a : TransposeArgs} (ha : a.Ok)
    (hf : Fits a.dimsD a.leadSByDst a.leadD src sOff dst dOff) :
    ∃ dst', doTranspose pf src sOff dst dOff a a.dimsD.prod parity = .ok dst' ∧
      dst'.length = dst.length ∧
      ∀ idx, InBox a.dimsD idx → InBox a.dimsS (srcIndex a idx) ∧
        dst'[dOff + dot idx a.leadD]? =
          (src[sOff + dot (srcIndex a idx) a.leadS]?).map (signed parity) := by
  obtain ⟨dst', h1, h2⟩ := C14_transpose_moves pf parity ha hf
  refine ⟨dst', h1, h2.length, fun idx hb => ?_⟩
  have hl : idx.length = a.rank := by rw [← hb.length, ha.dimsDLen]
  refine ⟨?_, by rw [← dot_srcIndex ha hl]; exact h2.moved idx hb⟩
  rw [inBox_iff] at hb ⊢
  refine ⟨by simp [srcIndex, ha.dimsSLen], fun i hi => ?_⟩
  rw [ha.dimsSLen] at hi
  have := hb.2 (a.s2d.getD i 0) (by rw [ha.dimsDLen]; exact ha.s2dLt i hi)
  rw [ha.dims _ (ha.s2dLt i hi), ha.leftInv i hi] at this
  simp only [srcIndex]
  rw [List.getD_eq_getElem _ _ (by simpa using hi)]
  simpa using this

/-- **C14.** `matrix_transpose` of a non-empty matrix. -/
theorem C14_matrix_transpose [Neg α] {m n : ℕ} (hm : 0 < m) (hn : 0 < n) {src dst : List α}
    (hs : src.length = m * n) (hd : dst.length = m * n) :
    ∃ dst', matrixTranspose m n src dst = .ok dst' ∧ dst'.length = m * n ∧
      ∀ i < m, ∀ j < n, dst'[i + j * m]? = src[i * n + j]? := by
  have hbox : ∀ idx, InBox [m, n] idx ↔ ∃ i j, idx = [i, j] ∧ i < m ∧ j < n := by
    intro idx
    constructor
    · intro h
      cases h with
      | @cons _ i _ is h1 h2 =>
        cases h2 with
        | @cons _ j _ js h3 h4 => cases h4; exact ⟨i, j, rfl, h1, h3⟩
    · rintro ⟨i, j, rfl, h1, h2⟩
      exact List.Forall₂.cons h1 (List.Forall₂.cons h2 List.Forall₂.nil)
  have d1 : ∀ i j, dot [i, j] [n, 1] = i * n + j := by intro i j; simp [dot]
  have d2 : ∀ i j, dot [i, j] [1, m] = i + j * m := by intro i j; simp [dot]
  have hf : Fits [m, n] [n, 1] [1, m] src 0 dst 0 := by
    refine ⟨rfl, rfl, ?_, ?_, ?_⟩
    · intro idx hb
      obtain ⟨i, j, rfl, hi, hj⟩ := (hbox idx).1 hb
      rw [d1, hs]
      calc 0 + (i * n + j) < (i + 1) * n := by rw [Nat.add_mul]; omega
        _ ≤ m * n := Nat.mul_le_mul_right _ hi
    · intro idx hb
      obtain ⟨i, j, rfl, hi, hj⟩ := (hbox idx).1 hb
      rw [d2, hd]
      calc 0 + (i + j * m) < (j + 1) * m := by rw [Nat.add_mul]; omega
        _ ≤ n * m := Nat.mul_le_mul_right _ hj
        _ = m * n := Nat.mul_comm _ _
    · intro x y hx hy h
      obtain ⟨i, j, rfl, hi, hj⟩ := (hbox x).1 hx
      obtain ⟨i', j', rfl, hi', hj'⟩ := (hbox y).1 hy
      rw [d2, d2] at h
      have e1 : (i + j * m) % m = (i' + j' * m) % m := by rw [h]
      rw [Nat.add_mul_mod_self_right, Nat.add_mul_mod_self_right, Nat.mod_eq_of_lt hi,
        Nat.mod_eq_of_lt hi'] at e1
      subst e1
      have e2 : j * m = j' * m := by omega
      have e3 := Nat.eq_of_mul_eq_mul_right hm e2
      rw [e3]
  obtain ⟨dst', h1, h2⟩ := moved_of_pairs false hf (pairsOf [m, n] [n, 1] [1, m] 0 0) (by
    intro x y
    simp only [pairsOf, List.mem_map, mem_tuples, Prod.mk.injEq, reach_axesOf hf.lenS hf.lenD]
    constructor
    · rintro ⟨idx, hb, rfl, rfl⟩
      exact ⟨_, _, ⟨idx, hb, rfl, rfl⟩, rfl, rfl⟩
    · rintro ⟨_, _, ⟨idx, hb, rfl, rfl⟩, rfl, rfl⟩
      exact ⟨idx, hb, rfl, rfl⟩)
  refine ⟨dst', ?_, by rw [h2.length, hd], ?_⟩
  · rw [← h1]
    have := kernelPoint_eq false src 0 dst 0 hf.lenS hf.lenD (by simp)
      (by simp only [List.prod_cons, List.prod_nil]; positivity)
    unfold matrixTranspose copyPairs pairsOf
    rw [List.foldlM_map]
    exact this
  · intro i hi j hj
    have := h2.moved [i, j] ((hbox _).2 ⟨i, j, rfl, hi, hj⟩)
    rw [d1, d2, Nat.zero_add, Nat.zero_add] at this
    rw [this]
    cases src[i * n + j]? <;> rfl

/-- **C14, counterexample.** `matrix_transpose` has no guard for empty matrices: it reads (and
writes) an element of an empty array. -/
theorem C14_matrix_transpose_empty_counterexample :
    matrixTranspose 0 5 ([] : List ℤ) [] = .ub ∧ matrixTranspose 5 0 ([] : List ℤ) [] = .ub := by
  decide

/-- **C15.** The simple and the cache-blocked transpose give the same result, whatever memory holds
one position before the stride arrays. -/
theorem C15_simple_eq_inturn [Neg α] (parity : Bool) {src : List α} {sOff : ℕ} {dst : List α}
    {dOff : ℕ} {a : TransposeArgs} (ha : a.Ok) (hr : 0 < a.rank) (hp : 0 < a.dimsD.prod)
    (hf : Fits a.dimsD a.leadSByDst a.leadD src sOff dst dOff) (x y x' y' : ℕ) :
    simpleTranspose parity src sOff dst dOff a x y =
      inturnTranspose parity src sOff dst dOff a x' y' := by
  obtain ⟨d1, h1, h2⟩ := simpleTranspose_moved parity ha hr hp hf x y
  obtain ⟨d2, h3, h4⟩ := inturnTranspose_moved parity ha hr hp hf x' y'
  rw [h1, h3, h2.unique h4]

/-- **C15.** Copying in lines equals copying element by element. -/
theorem C15_line_eq_point [Neg α] (parity : Bool) {dims ls ld : List ℕ} {src : List α} {sOff : ℕ}
    {dst : List α} {dOff : ℕ} (hr : 0 < dims.length) (hp : 0 < dims.prod)
    (hf : Fits dims ls ld src sOff dst dOff) (oobS oobD : ℕ) :
    runKernel parity src sOff dst dOff dims ls ld dims.length oobS oobD =
      kernelPoint parity src sOff dst dOff dims ls ld dims.length := by
  obtain ⟨pairs, h1, h2⟩ := runKernel_pairs parity src sOff dst dOff hf.lenS hf.lenD hr hp oobS oobD
  obtain ⟨d1, h3, h4⟩ := moved_of_pairs parity hf pairs h2
  obtain ⟨d2, h5, h6⟩ := moved_of_pairs parity hf (pairsOf dims ls ld sOff dOff) (by
    intro x y
    simp only [pairsOf, List.mem_map, mem_tuples, Prod.mk.injEq, reach_axesOf hf.lenS hf.lenD]
    constructor
    · rintro ⟨idx, hb, rfl, rfl⟩
      exact ⟨_, _, ⟨idx, hb, rfl, rfl⟩, rfl, rfl⟩
    · rintro ⟨_, _, ⟨idx, hb, rfl, rfl⟩, rfl, rfl⟩
      exact ⟨idx, hb, rfl, rfl⟩)
  rw [h1, h3, kernelPoint_eq parity src sOff dst dOff hf.lenS hf.lenD hr hp]
  unfold copyPairs pairsOf at h5
  rw [List.foldlM_map] at h5
  rw [h5, h4.unique h6]

/-- **C15.** The result does not depend on element size, cache size or the stray stride. -/
theorem C15_platform_independent [Neg α] (pf pf' : Platform) (parity : Bool) {src : List α}
    {sOff : ℕ} {dst : List α} {dOff : ℕ} {a : TransposeArgs} (ha : a.Ok)
    (hf : Fits a.dimsD a.leadSByDst a.leadD src sOff dst dOff) :
    doTranspose pf src sOff dst dOff a a.dimsD.prod parity =
      doTranspose pf' src sOff dst dOff a a.dimsD.prod parity := by
  obtain ⟨d1, h1, h2⟩ := C14_transpose_moves pf parity ha hf
  obtain ⟨d2, h3, h4⟩ := C14_transpose_moves pf' parity ha hf
  rw [h1, h3, h2.unique h4]

/-! ## A concrete case -/

/-- A 2×3×2 array moved to the order (2,0,1), into the middle of a larger array. -/
def sampleArgs : TransposeArgs :=
  ⟨[1, 2, 0], [2, 0, 1], [2, 3, 2], [2, 2, 3], [6, 2, 1], [8, 3, 1], 3⟩

def sampleSrc : List ℤ := [1, 2, 3, 4, 5, 6, 7, 8, 9, 10, 11, 12]

theorem sampleArgs_ok : sampleArgs.Ok := by
  constructor <;> decide

theorem inBox_dec (dims idx : List ℕ) : InBox dims idx ↔ idx ∈ tuples dims := mem_tuples.symm

theorem sampleFits : Fits sampleArgs.dimsD sampleArgs.leadSByDst sampleArgs.leadD sampleSrc 0
    (List.replicate 16 0) 1 := by
  constructor
  · decide
  · decide
  · intro idx hb
    rw [inBox_dec] at hb; revert idx hb; decide
  · intro idx hb
    rw [inBox_dec] at hb; revert idx hb; decide
  · intro idx idx' hb hb'
    rw [inBox_dec] at hb hb'
    have : ∀ idx ∈ tuples sampleArgs.dimsD, ∀ idx' ∈ tuples sampleArgs.dimsD,
      dot idx sampleArgs.leadD = dot idx' sampleArgs.leadD →
      dot idx sampleArgs.leadSByDst = dot idx' sampleArgs.leadSByDst := by decide
    exact this idx hb idx' hb'

example : doTranspose ⟨8, 32768, 0, 0⟩ sampleSrc 0 (List.replicate 16 0) 1 sampleArgs 12 true =
    .ok [0, -1, -3, -5, -7, -9, -11, 0, 0, -2, -4, -6, -8, -10, -12, 0] := by decide
example : doTranspose ⟨8, 0, 1, 1⟩ sampleSrc 0 (List.replicate 16 0) 1 sampleArgs 12 true =
    .ok [0, -1, -3, -5, -7, -9, -11, 0, 0, -2, -4, -6, -8, -10, -12, 0] := by decide
example : ∃ d, doTranspose ⟨8, 0, 1, 1⟩ sampleSrc 0 (List.replicate 16 0) 1 sampleArgs 12 true =
    .ok d ∧ Moved true [2, 2, 3] sampleArgs.leadSByDst [8, 3, 1] sampleSrc 0
      (List.replicate 16 0) 1 d :=
  C14_transpose_moves ⟨8, 0, 1, 1⟩ true sampleArgs_ok sampleFits

end TAT
