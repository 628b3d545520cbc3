import Verif.Grid.Transfer
import Verif.Square.AuxCalls

/-!
# Helper lemmas: the lines of `contract_with_two_line_to_one_line`
-/

namespace TAT.Grid

set_option linter.unusedSectionVars false
set_option linter.unusedSimpArgs false

variable {ν α β : Type} [LinearOrder ν] [Field α] [LinearOrder β] [Zero β] {e : AuxEnv ν α β} {s : Side → String}

/-- Two rows given by functions. -/
theorem twoLines_ok (he : GridEnvOk e s) {N : ℕ} {t1 t2 : ℕ → Tensor ν NoSymmetry α} {h1 h2 v d : ℕ → Option ℕ}
    (r1 : RowOn (aliased e s) sideString N t1 h1 (fun _ => none) v)
    (r2 : RowOn (aliased e s) sideString N t2 h2 v d) :
    ∃ B t h, (∀ cut, Keeps B cut → twoLineToOneLine e (s .up) (s .down) (s .left) (s .right)
        ((List.range N).map t1) ((List.range N).map t2) cut = .ok ((List.range N).map t)) ∧
      RowOn (aliased e s) sideString N t h (fun _ => none) d ∧
      ∀ y : ℕ → ℕ, lineVal (aliased e s) sideString N t h (fun _ => 0) y =
        ∑ z ∈ box N fun j => bondDim (v j),
          lineVal (aliased e s) sideString N t1 h1 (fun _ => 0) (allIdx z) *
          lineVal (aliased e s) sideString N t2 h2 (allIdx z) y := by
  obtain ⟨l1, l2⟩ := r1.isRow
  obtain ⟨k1, k2⟩ := r2.isRow
  have l1 : IsLine (aliased e s) sideString ((List.range N).map t1) none ((List.range N).map v) := by
    rw [IsLine, List.map_map]
    exact l1
  obtain ⟨B, r, f1, f2, f3⟩ := oneLine_ok (aliased_ok he) sideString_dirs l1 k1
  obtain ⟨t, h, q1, q2, q3⟩ := f2.index
  refine ⟨B, t, h, fun cut hc => ?_, q2, fun y => ?_⟩
  · rw [oneLine_aliased, f1 cut hc, q1]
  · rw [← q3, f3, List.map_map, sum_indices_box]
    refine Finset.sum_congr rfl fun z _ => ?_
    rw [l2, k2]

/-- The sites of a line one after another. -/
theorem joinLine_ok (he : GridEnvOk e sides) {N : ℕ} {t : ℕ → Tensor ν NoSymmetry α} {h : ℕ → Option ℕ}
    (hr : RowOn (aliased e sides) sideString N t h (fun _ => none) fun _ => none) (m k : ℕ) (hk : k + m = N)
    {r : Tensor ν NoSymmetry α} (h0 : SiteOn (aliased e sides) sideString r none (h k) none none) :
    ∃ r', joinLine e ((List.range' k m).map t) r = .ok r' ∧
      HasLegs (legName (aliased e sides).nm sideString) r' (fun _ => none) ∧
      ∀ f, gval (legName (aliased e sides).nm sideString) r' f = ∑ x ∈ Finset.range (bondDim (h k)),
        siteVal (aliased e sides) sideString r 0 x 0 0 *
          chainFrom (fun j => Finset.range (bondDim (h j)))
            (fun j a b => siteVal (aliased e sides) sideString (t j) a b 0 0) m k x := by
  have hι : Function.Injective (legName (aliased e sides).nm sideString) :=
    (aliased_ok he).inj.comp sideString_dirs.inj
  induction m generalizing k r with
  | zero =>
    obtain rfl : k = N := by omega
    rw [hr.right] at h0
    have h1 : HasLegs (legName (aliased e sides).nm sideString) r fun _ => none := h0.cast (by
      rintro ⟨x, y⟩
      cases x <;> cases y <;> rfl)
    refine ⟨r, rfl, h1, fun f => ?_⟩
    simp only [hr.right, bondDim, Option.getD_none, Finset.sum_range_one, chainFrom, mul_one]
    exact gval_congr hι h1 (by simp)
  | succ m ih =>
    have hs := hr.site k (by omega)
    obtain ⟨x, c1, c2, c3⟩ := join_ok (aliased_ok he) sideString_dirs h0 hs [((.right, .plain), (.left, .plain))]
      (by decide) (by decide) (by simp [siteLegs]) (by
        rintro ⟨x, y⟩
        cases x <;> cases y <;> simp [siteLegs])
    have c2 : SiteOn (aliased e sides) sideString x none (h (k + 1)) none none := c2.cast (by
      rintro ⟨x, y⟩
      cases x <;> cases y <;> simp [contractLegs, siteLegs])
    have c1 : e.join r (t k) [("right", "left")] = .ok x := by
      have e1 : (aliased e sides).nm "R" = e.nm "right" := aliased_side e sides .right
      have e2 : (aliased e sides).nm "L" = e.nm "left" := aliased_side e sides .left
      have : (aliased e sides).join r (t k) [("R", "L")] = e.join r (t k) [("right", "left")] := by
        simp only [AuxEnv.join, List.map_cons, List.map_nil, e1, e2]
        rfl
      rw [← this]
      exact c1
    obtain ⟨r', d1, d2, d3⟩ := ih (k + 1) (by omega) c2
    refine ⟨r', ?_, d2, fun f => ?_⟩
    · rw [List.range'_succ, List.map_cons, joinLine, c1, Outcome.bind, d1]
    · rw [d3]
      simp only [chainFrom, Finset.mul_sum]
      rw [Finset.sum_comm]
      refine Finset.sum_congr rfl fun y _ => ?_
      rw [siteVal, c3]
      simp only [sumPairs, Finset.sum_mul]
      refine Finset.sum_congr (by simp [siteLegs, bondDim]) fun z _ => ?_
      rw [← mul_assoc]
      congr 2
      · refine gval_congr hι h0 ?_
        rintro ⟨x, y⟩
        cases x <;> cases y <;> simp [siteLegs, siteIdx, Function.update_apply]
      · refine gval_congr hι hs ?_
        rintro ⟨x, y⟩
        cases x <;> cases y <;> simp [siteLegs, siteIdx, Function.update_apply]

theorem lines_ok (he : GridEnvOk e sides) {L : ℕ} {site : ℕ → ℕ → Tensor ν NoSymmetry α} {h v : ℕ → ℕ → Option ℕ}
    (hg : IsGrid e.nm L site h v) (k : ℕ) (hk : k < L) :
    ∃ B t g, (∀ cut, Keeps B cut → lines e L site cut k = .ok ((List.range L).map t)) ∧
      RowOn (aliased e sides) sideString L t g (fun _ => none) (v (k + 1)) ∧
      ∀ y : Fin L → ℕ, lineVal (aliased e sides) sideString L t g (fun _ => 0) (allIdx y) =
        chainTo (fun i => box L fun j => bondDim (v i j))
          (fun i z y => lineVal (aliased e sides) sideString L (site i) (h i) (allIdx z) (allIdx y)) (k + 1) y := by
  induction k with
  | zero =>
    have hv : v 0 = fun _ => none := funext hg.top
    have h0 := (hg.row 0 hk).on he
    rw [hv] at h0
    refine ⟨0, site 0, h 0, fun cut _ => rfl, h0, fun y => ?_⟩
    rw [chainTo, hv]
    have hb : (box L fun j => bondDim ((fun _ => none : ℕ → Option ℕ) j)) = {fun _ => 0} := by
      ext z
      simp only [box, bondDim, Option.getD_none, Fintype.mem_piFinset, Finset.mem_range, Nat.lt_one_iff,
        Finset.mem_singleton, funext_iff]
    rw [hb, Finset.sum_singleton, chainTo, one_mul]
    congr 1
    funext j
    simp [allIdx]
  | succ k ih =>
    obtain ⟨B, t, g, e1, e2, e3⟩ := ih (by omega)
    obtain ⟨B', t', g', f1, f2, f3⟩ := twoLines_ok he e2 ((hg.row (k + 1) hk).on he)
    refine ⟨max B B', t', g', fun cut hc => ?_, f2, fun y => ?_⟩
    · rw [lines, e1 cut (hc.le (le_max_left _ _)), Outcome.bind]
      exact f1 cut (hc.le (le_max_right _ _))
    · rw [f3, chainTo]
      refine Finset.sum_congr rfl fun z _ => ?_
      rw [e3]

theorem gridValue_chain (he : GridEnvOk e sides) {L : ℕ} {site : ℕ → ℕ → Tensor ν NoSymmetry α}
    {h v : ℕ → ℕ → Option ℕ} (hg : IsGrid e.nm L site h v) :
    gridValue e.nm L h v site = chainTo (fun i => box L fun j => bondDim (v i j))
      (fun i z y => lineVal (aliased e sides) sideString L (site i) (h i) (allIdx z) (allIdx y)) L fun _ => 0 := by
  have hb : (box L fun j => (v L j).getD 1) = {fun _ => 0} := by
    ext z
    simp only [box, hg.bottom, Option.getD_none, Fintype.mem_piFinset, Finset.mem_range, Nat.lt_one_iff,
      Finset.mem_singleton, funext_iff]
  rw [gridValue, netVal_rows, chain_to, hb, Finset.sum_singleton]
  refine congrFun (chainTo_congr (fun _ _ => rfl) fun i hi => ?_) _
  funext z y
  rw [lineVal_rowValue he ((hg.row i hi).on he)]
  rfl

theorem contractLines_ok (he : GridEnvOk e sides) {L : ℕ} {site : ℕ → ℕ → Tensor ν NoSymmetry α}
    {h v : ℕ → ℕ → Option ℕ} (hg : IsGrid e.nm L site h v) :
    ∃ B, ∀ cut, Keeps B cut → contractLines e L site cut = .ok (gridValue e.nm L h v site) := by
  rw [gridValue_chain he hg]
  have h1 : SiteOn (aliased e sides) sideString (oneTensor : Tensor ν NoSymmetry α) none none none none := one_site _
  cases L with
  | zero =>
    refine ⟨0, fun cut _ => ?_⟩
    rfl
  | succ L =>
    obtain ⟨B, t, g, e1, e2, e3⟩ := lines_ok he hg L (by omega)
    have hv : v (L + 1) = fun _ => none := funext hg.bottom
    rw [hv] at e2
    obtain ⟨r, f1, f2, f3⟩ := joinLine_ok he e2 (L + 1) 0 (by omega) (r := oneTensor) (by rw [e2.left]; exact h1)
    refine ⟨B, fun cut hc => ?_⟩
    rw [contractLines, Nat.add_sub_cancel, e1 cut hc, Outcome.bind, List.range_eq_range', f1, Outcome.bind,
      only_ok f2 (fun _ => 0), f3, ← e3, lineVal, rowChain, chain_eq_from]
    congr 1
    refine Finset.sum_congr rfl fun x _ => ?_
    have hz : ∀ j, allIdx (fun _ : Fin (L + 1) => 0) j = 0 := fun j => by simp [allIdx]
    simp only [hz]
    rw [siteVal, gval, oneTensor_val, one_mul]

end TAT.Grid
