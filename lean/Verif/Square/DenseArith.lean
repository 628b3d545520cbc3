import Verif.Square.Dense
import Verif.Square.ExactModel
import Verif.Scalar.Props
import Verif.Tensor.Props
import Mathlib.Algebra.BigOperators.Group.Finset.Basic

/-!
# Arithmetic and contraction of all edges for tensors without symmetry
-/

namespace TAT

set_option linter.unusedSectionVars false

variable {ν α β : Type} [LinearOrder ν]

/-! ## Element by element -/

theorem leg_eq_of {t : Tensor ν NoSymmetry α} {r : Tensor ν NoSymmetry β} (hn : r.names = t.names)
    (he : r.core.edges = t.core.edges) (n : ν) : leg r n = leg t n := by
  unfold leg
  rw [hn, mapOf, mapOf, edgeOf, edgeOf, hn, he]

theorem Dense.of_eq {t : Tensor ν NoSymmetry α} {r : Tensor ν NoSymmetry β} (h : Dense t) (hr : WF r)
    (hl : ∀ n, leg r n = leg t n) : Dense r :=
  ⟨hr, fun n => by rw [legDim, hl]; exact h.pos n⟩

/-- The elements are given by a function of those of another tensor. -/
theorem val_map [Zero α] [Zero β] {t : Tensor ν NoSymmetry α} (h : WF t) {r : Tensor ν NoSymmetry β}
    (hr : WF r) (hl : ∀ n, leg r n = leg t n) {f : α → β} (hf : f 0 = 0)
    (he : ∀ p, elem r p = (elem t p).map f) (x : ν → ℕ) : val r x = f (val t x) := by
  have hd : ∀ n, legDim r n = legDim t n := fun n => by rw [legDim, legDim, hl]
  by_cases hv : ∀ n, leg t n ≠ none → x n < legDim t n
  · have h1 := elem_val h hv
    have h2 := elem_val hr (x := x) fun n hn => by rw [hd]; exact hv n (by rwa [hl] at hn)
    rw [he, h1] at h2
    exact (Option.some.inj h2).symm
  · push Not at hv
    obtain ⟨n, hn, hx⟩ := hv
    rw [val_outside h hn hx, val_outside hr (by rw [hl]; exact hn) (by rw [hd]; exact hx), hf]

theorem dense_number [Zero α] {t : Tensor ν NoSymmetry α} (h : Dense t) {f : α → α} (hf : f 0 = 0) :
    Dense (scalarInplaceNumber f t) ∧ (∀ n, leg (scalarInplaceNumber f t) n = leg t n) ∧
      ∀ x, val (scalarInplaceNumber f t) x = f (val t x) := by
  have hw : WF (scalarInplaceNumber f t) := mapTensor_wf f h.wf
  have hl : ∀ n, leg (scalarInplaceNumber f t) n = leg t n := leg_eq_of rfl rfl
  exact ⟨h.of_eq hw hl, hl, val_map h.wf hw hl hf (C25_number (fun _ _ => 0) f h.wf).2⟩

/-- `same_shape().zero()` -/
theorem dense_zero [Zero α] (junk : List NoSymmetry → ℕ → α) {t : Tensor ν NoSymmetry α} (h : Dense t) :
    ∃ r, sameShape junk t = .ok r ∧ Dense (zero r) ∧ (∀ n, leg (zero r) n = leg t n) ∧
      ∀ x, val (zero r) x = 0 := by
  refine ⟨_, sameShape_eq junk h.wf, ?_⟩
  set r : Tensor ν NoSymmetry α := ⟨t.names, t.core.edges, freshBlocks junk (t.core.edges.map Edge.map)⟩
  have hr : WF r := (C09_names_checked junk t.names t.core.edges false h.wf.sorted).2.2 r
    (by exact sameShape_eq junk h.wf) |>.2
  have hl : ∀ n, leg r n = leg t n := leg_eq_of rfl rfl
  rw [zero_eq]
  have hw : WF (mapTensor (fun _ => (0 : α)) r) := mapTensor_wf _ hr
  have hl' : ∀ n, leg (mapTensor (fun _ => (0 : α)) r) n = leg r n := leg_eq_of rfl rfl
  refine ⟨h.of_eq hw fun n => by rw [hl', hl], fun n => by rw [hl', hl], fun x => ?_⟩
  exact val_map (f := fun _ => (0 : α)) hr hw hl' rfl (elem_mapTensor _ r) x

/-- `a += b` and the like, for tensors with the same edges in any order. -/
theorem dense_inplace [CommRing α] (env : Env NoSymmetry α) {op : α → α → α} (hop : op 0 0 = 0)
    {t1 t2 : Tensor ν NoSymmetry α} (h1 : Dense t1) (h2 : Dense t2) (hl : ∀ n, leg t2 n = leg t1 n) :
    ∃ r, scalarInplace env op t1 t2 = .ok r ∧ Dense r ∧ (∀ n, leg r n = leg t1 n) ∧
      ∀ x, val r x = op (val t1 x) (val t2 x) := by
  have hmem : ∀ n, n ∈ t2.names ↔ n ∈ t1.names := fun n => by
    rw [← leg_ne_none, ← leg_ne_none, hl]
  have hd : ∀ n, legDim t2 n = legDim t1 n := fun n => by rw [legDim, legDim, hl]
  have hp : t2.names.Perm t1.names := (List.perm_ext_iff_of_nodup h2.wf.nodup h1.wf.nodup).2 hmem
  obtain ⟨r, e1, -, e2, e3, e4, e5⟩ := C25_inplace env (fun _ _ => 0) op h1.wf h2.wf hp (fun n hn => by
    refine ⟨?_, fun h => absurd h (by decide)⟩
    rw [h1.map hn, h2.map ((hmem n).2 hn), hd])
  have hr := leg_eq_of e3 e4
  have hdr : ∀ n, legDim r n = legDim t1 n := fun n => by rw [legDim, legDim, hr]
  refine ⟨r, e1, h1.of_eq e2 hr, hr, fun x => ?_⟩
  by_cases hv : ∀ n, leg t1 n ≠ none → x n < legDim t1 n
  · obtain ⟨a, b, f1, f2, f3⟩ := e5 (fun n => (0, x n)) ((dense_valid h1.wf).2 fun n hn =>
      hv n (leg_ne_none.2 hn))
    rw [elem_val h1.wf hv, Option.some.injEq] at f1
    rw [elem_val h2.wf (fun n hn => by rw [hd]; exact hv n (by rwa [hl] at hn)), Option.some.injEq] at f2
    rw [elem_val e2 (fun n hn => by rw [hdr]; exact hv n (by rwa [hr] at hn)), Option.some.injEq,
      transposeSign, if_neg (by decide), applySign_one] at f3
    rw [f3, f1, f2]
    rfl
  · push Not at hv
    obtain ⟨n, hn, hx⟩ := hv
    rw [val_outside h1.wf hn hx, val_outside h2.wf (by rw [hl]; exact hn) (by rw [hd]; exact hx),
      val_outside e2 (by rw [hr]; exact hn) (by rw [hdr]; exact hx), hop]

/-! ## All elements -/

theorem exists_idx {names : List ν} (hn : names.Nodup) {idx : List ℕ} (hl : idx.length = names.length) :
    ∃ x : ν → ℕ, names.map x = idx := by
  refine ⟨fun n => idx.getD (names.idxOf n) 0, ?_⟩
  apply List.ext_getElem
  · simp [hl]
  · intro i h1 h2
    simp only [List.getElem_map]
    rw [hn.idxOf_getElem i (by omega), List.getD_eq_getElem _ _ h2]

/-- The stored elements are those at the indices within the dimensions. -/
theorem dense_elems [Zero α] {t : Tensor ν NoSymmetry α} (h : Dense t) {a : α} :
    a ∈ allElems t ↔ ∃ x : ν → ℕ, (∀ n, leg t n ≠ none → x n < legDim t n) ∧ val t x = a := by
  constructor
  · intro ha
    obtain ⟨⟨k, data⟩, hb, ha⟩ := List.mem_flatMap.1 ha
    obtain ⟨o, ho, rfl⟩ := List.mem_iff_getElem.1 ha
    have hk : k ∈ OMap.keys t.core.blocks := List.mem_map_of_mem hb
    have hkl := (h.wf.mem_keys.1 hk).1.length_eq
    have hlen := h.wf.length hb
    have ho' : o < (dimsOf t.core.edges k).prod := hlen ▸ ho
    obtain ⟨x, hx⟩ := exists_idx h.wf.nodup (idx := unravel (dimsOf t.core.edges k) o) (by
      rw [unravel_length, dimsOf, List.length_zipWith, ← hkl, min_self, h.wf.rank])
    have hkey : keyOf t.names (fun n => ((0 : NoSymmetry), x n)) = k := by
      refine List.ext_getElem ?_ fun i _ _ => noSym_eq _ _
      rw [keyOf, List.length_map, h.wf.rank, hkl]
    have hidx : idxOf t.names (fun n => ((0 : NoSymmetry), x n)) = unravel (dimsOf t.core.edges k) o := hx
    have hel : elem t (fun n => (0, x n)) = some data[o] := by
      rw [elem, elemAt, hkey, hidx, OMap.find?_of_mem h.wf.blocksSorted.nodup hb, Option.bind_some, rowMajor_unravel ho']
      exact List.getElem?_eq_getElem _
    have hv : ValidPos t (fun n => (0, x n)) := by
      refine ⟨?_, noSym_eq _ _⟩
      have := inBox_unravel ho'
      rw [← hidx, ← hkey] at this
      rw [InBox, dimsOf, keyOf, idxOf] at this
      rw [List.forall₂_iff_get] at this ⊢
      obtain ⟨l1, l2⟩ := this
      refine ⟨by rw [List.length_map, h.wf.rank], fun i a b => ?_⟩
      have := l2 i (by simp at b ⊢; exact ⟨a, b⟩) (by simpa using b)
      simpa using this
    have hb := (dense_valid h.wf).1 hv
    have hb : ∀ n, leg t n ≠ none → x n < legDim t n := fun n hn => hb n (leg_ne_none.1 hn)
    refine ⟨x, hb, ?_⟩
    rw [elem_val h.wf hb] at hel
    exact Option.some.inj hel
  · rintro ⟨x, hx, rfl⟩
    have h1 := elem_val h.wf hx
    rw [elem, elemAt] at h1
    obtain ⟨data, h2, h3⟩ := Option.bind_eq_some_iff.1 h1
    exact List.mem_flatMap.2 ⟨_, OMap.mem_of_find? h2, List.mem_of_getElem? h3⟩

/-- The conversion of a tensor without edges to a number. -/
theorem dense_only [Zero α] [Zero β] {t : Tensor ν NoSymmetry α} (h : Dense t) (hl : ∀ n, leg t n = none)
    (f : α → β) (x : ν → ℕ) : onlyElement (convertTo f t) = .ok (f (val t x)) := by
  have hn : t.names = [] := by
    rw [List.eq_nil_iff_forall_not_mem]
    intro n hn
    exact leg_eq_none.1 (hl n) hn
  have he : t.core.edges = [] := by
    have := h.wf.rank
    rw [hn] at this
    exact List.eq_nil_of_length_eq_zero this.symm
  have hb := h.wf.blocks
  rw [he] at hb
  have hs : blockShapes (([] : List (Edge NoSymmetry)).map Edge.map) = [([], 1)] := rfl
  rw [hs] at hb
  obtain ⟨names, edges, blocks⟩ := t
  simp only at hn he hb
  subst hn he
  match blocks, hb with
  | [(k, [a])], hb =>
    have hk : k = [] := by simpa using hb
    subst hk
    have : val (⟨[], [], [([], [a])]⟩ : Tensor ν NoSymmetry α) x = a := by
      have := elem_val h.wf (x := x) fun n hn => absurd (hl n) hn
      exact (Option.some.inj this).symm
    rw [this]
    rfl
  | [(k, [])], hb => simp at hb
  | [(k, a :: b :: l)], hb => simp at hb

/-! ## Contraction of all common edges -/

/-- The sum over the indices with the given names. -/
def sumNames [AddCommMonoid α] (dims : ν → ℕ) (F : (ν → ℕ) → α) : List ν → (ν → ℕ) → α
  | [], x => F x
  | n :: ns, x => ∑ k ∈ Finset.range (dims n), sumNames dims F ns (Function.update x n k)

theorem sumLegs_diag [AddCommMonoid α] (dims : ν → ℕ) (F : (ν → ℕ) → (ν → ℕ) → α) (ns : List ν) (x : ν → ℕ) :
    sumLegs dims F (ns.map fun n => (n, n)) x x = sumNames dims (fun x => F x x) ns x := by
  induction ns generalizing x with
  | nil => rfl
  | cons n ns ih =>
    rw [List.map_cons, sumLegs, sumNames]
    exact Finset.sum_congr rfl fun k _ => ih _

theorem sumNames_perm [AddCommMonoid α] (dims : ν → ℕ) (F : (ν → ℕ) → α) {ns ns' : List ν} (hp : ns.Perm ns')
    (hn : ns.Nodup) (x : ν → ℕ) : sumNames dims F ns x = sumNames dims F ns' x := by
  induction hp generalizing x with
  | nil => rfl
  | cons n _ ih =>
    rw [sumNames, sumNames]
    exact Finset.sum_congr rfl fun k _ => ih (List.nodup_cons.1 hn).2 _
  | swap a b l =>
    have hab : a ≠ b := fun h => by
      rw [h] at hn
      simp at hn
    simp only [sumNames]
    rw [Finset.sum_comm]
    refine Finset.sum_congr rfl fun k _ => Finset.sum_congr rfl fun j _ => ?_
    rw [Function.update_comm hab]
  | trans h1 _ ih1 ih2 => rw [ih1 hn, ih2 (h1.nodup_iff.1 hn)]

/-- `contract_all_edge` sums over the common edges. -/
theorem dense_all [CommRing α] (ce : ContractEnv NoSymmetry α) (hg : GemmOk ce.gemm)
    {cn : ContractNames ν} (hcn : [cn.c0, cn.c1, cn.c2].Nodup) {t1 t2 : Tensor ν NoSymmetry α}
    (h1 : Dense t1) (h2 : Dense t2) {ns : List ν} (hn : ns.Nodup)
    (hns : ∀ n, n ∈ ns ↔ leg t1 n ≠ none ∧ leg t2 n ≠ none) (hm : ∀ n ∈ ns, leg t1 n = leg t2 n) :
    ∃ r, contractAllEdge ce cn t1 t2 = .ok r ∧ Dense r ∧
      (∀ n, leg r n = if n ∈ ns then none else (leg t1 n).or (leg t2 n)) ∧
      ∀ x, val r x = sumNames (legDim t1) (fun x => val t1 x * val t2 x) ns x := by
  have hknown : ∃ ms : List ν, knownPairs t1 t2
      ((OMap.keys (OMap.ofList (t1.names.map fun n => (n, ())))).map fun n => (n, n)) =
      ms.map (fun n => (n, n)) ∧ ms.Perm ns := by
    refine ⟨(OMap.keys (OMap.ofList (t1.names.map fun n => (n, ())))).filter
      fun n => decide (n ∈ t1.names) && decide (n ∈ t2.names), ?_, ?_⟩
    · rw [knownPairs, List.filter_map]
      congr 1
      refine List.filter_congr fun n _ => ?_
      simp
    · refine (List.perm_ext_iff_of_nodup ?_ hn).2 fun n => ?_
      · exact (sorted_unitMap _).nodup.filter _
      · rw [List.mem_filter, hns, leg_ne_none, leg_ne_none]
        constructor
        · intro h
          simpa using h.2
        · intro h
          refine ⟨?_, by simpa using h⟩
          rw [keys_unitMap]
          exact h.1
  obtain ⟨ms, hk, hp⟩ := hknown
  have hms : ms.Nodup := hp.nodup_iff.2 hn
  have f1 : (ms.map fun n => (n, n)).map Prod.fst = ms := by simp [List.map_map, Function.comp_def]
  have f2 : (ms.map fun n => (n, n)).map Prod.snd = ms := by simp [List.map_map, Function.comp_def]
  have hmem : ∀ n, n ∈ ms ↔ n ∈ ns := fun n => hp.mem_iff
  obtain ⟨r, e1, e2, e3, e4⟩ := dense_contract ce hg hcn h1 h2 (pairs := ms.map fun n => (n, n))
    (by rw [f1]; exact hms) (by rw [f2]; exact hms) (by
      intro c hc
      obtain ⟨n, hn, rfl⟩ := List.mem_map.1 hc
      exact hm n ((hmem n).1 hn)) (by
      intro n a _
      rw [f1, hmem, hns] at a
      tauto)
  refine ⟨r, ?_, e2, fun n => ?_, fun x => ?_⟩
  · rw [contractAllEdge, C29_missing_ignored, hk, e1]
  · rw [e3, f1, f2]
    simp only [hmem]
    split <;> rfl
  · rw [e4, sumLegs_diag, sumNames_perm _ _ hp hms]

end TAT
