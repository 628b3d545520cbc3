import Verif.Square.AuxLine
import Verif.Square.AuxSum

/-!
# The lines of the auxiliaries system are the first rows of the network
-/

namespace TAT

set_option linter.unusedSectionVars false

variable {ν α β : Type} [LinearOrder ν] [CommRing α] [LinearOrder β] [Zero β]
variable {e : AuxEnv ν α β} {s : Side → String}

/-- A row with `N` sites, given by functions. -/
structure RowOn (e : AuxEnv ν α β) (s : Side → String) (N : ℕ) (t : ℕ → Tensor ν NoSymmetry α)
    (h u d : ℕ → Option ℕ) : Prop where
  left : h 0 = none
  right : h N = none
  site : ∀ j < N, SiteOn e s (t j) (h j) (h (j + 1)) (u j) (d j)

/-- The value of the row. -/
noncomputable def lineVal (e : AuxEnv ν α β) (s : Side → String) (N : ℕ) (t : ℕ → Tensor ν NoSymmetry α)
    (h : ℕ → Option ℕ) (z y : ℕ → ℕ) : α :=
  rowChain N (fun j => bondDim (h j)) (fun j => siteVal e s (t j)) z y

theorem isRow_range' {N : ℕ} {t : ℕ → Tensor ν NoSymmetry α} {h u d : ℕ → Option ℕ}
    (hr : RowOn e s N t h u d) (m k : ℕ) (hk : k + m = N) :
    IsRow e s ((List.range' k m).map t) (h k) ((List.range' k m).map u) ((List.range' k m).map d) ∧
    ∀ (a : ℕ) (z y : ℕ → ℕ), rowVal e s ((List.range' k m).map t) a (fun j => z (k + j)) (fun j => y (k + j)) =
      chainFrom (fun j => Finset.range (bondDim (h j))) (fun j a b => siteVal e s (t j) a b (z j) (y j)) m k a := by
  induction m generalizing k with
  | zero =>
    rw [show k = N by omega, hr.right]
    exact ⟨.nil, fun _ _ _ => rfl⟩
  | succ m ih =>
    obtain ⟨i1, i2⟩ := ih (k + 1) (by omega)
    have hs := hr.site k (by omega)
    rw [List.range'_succ]
    refine ⟨.cons hs i1, fun a z y => ?_⟩
    rw [List.map_cons, rowVal, chainFrom, hs.right]
    refine Finset.sum_congr rfl fun b _ => ?_
    rw [← i2 b z y]
    have sh : ∀ z : ℕ → ℕ, tailIdx (fun j => z (k + j)) = fun j => z (k + 1 + j) := fun z => by
      funext j
      rw [tailIdx]
      congr 1
      omega
    rw [sh, sh]
    rfl

theorem RowOn.isRow {N : ℕ} {t : ℕ → Tensor ν NoSymmetry α} {h u d : ℕ → Option ℕ}
    (hr : RowOn e s N t h u d) :
    IsRow e s ((List.range N).map t) none ((List.range N).map u) ((List.range N).map d) ∧
    ∀ z y, rowVal e s ((List.range N).map t) 0 z y = lineVal e s N t h z y := by
  obtain ⟨h1, h2⟩ := isRow_range' hr N 0 (by omega)
  rw [hr.left] at h1
  rw [List.range_eq_range']
  refine ⟨h1, fun z y => ?_⟩
  have := h2 0 z y
  simp only [zero_add] at this
  rw [this, lineVal, rowChain, chain_eq_from, hr.left]
  exact (Finset.sum_range_one _).symm

theorem isRow_index {l : List (Tensor ν NoSymmetry α)} {a : Option ℕ} {us ds : List (Option ℕ)}
    (h : IsRow e s l a us ds) :
    ∃ (t : ℕ → Tensor ν NoSymmetry α) (h : ℕ → Option ℕ), l = (List.range l.length).map t ∧ h 0 = a ∧ h l.length = none ∧
      ∀ j < l.length, SiteOn e s (t j) (h j) (h (j + 1)) (us.getD j none) (ds.getD j none) := by
  induction h with
  | nil => exact ⟨fun _ => oneTensor, fun _ => none, rfl, rfl, rfl, fun j hj => absurd hj (by simp)⟩
  | @cons t a b u d l us ds hs hl ih =>
    obtain ⟨t', h', e1, e2, e3, e4⟩ := ih
    refine ⟨fun j => match j with | 0 => t | j + 1 => t' j, fun j => match j with | 0 => a | j + 1 => h' j,
      ?_, rfl, e3, fun j hj => ?_⟩
    · rw [List.length_cons, List.range_succ_eq_map, List.map_cons, List.map_map]
      exact congrArg _ e1
    · cases j with
      | zero => simpa [e2] using hs
      | succ j => simpa using e4 j (by simpa using hj)

theorem IsLine.index {l : List (Tensor ν NoSymmetry α)} {N : ℕ} {d : ℕ → Option ℕ}
    (h : IsLine e s l none ((List.range N).map d)) :
    ∃ t g, l = (List.range N).map t ∧ RowOn e s N t g (fun _ => none) d ∧
      ∀ z y, rowVal e s l 0 z y = lineVal e s N t g z y := by
  have hN : N = l.length := by simpa using h.length.2
  obtain ⟨t, g, e1, e2, e3, e4⟩ := isRow_index h
  have hr : RowOn e s N t g (fun _ => none) d := ⟨e2, hN ▸ e3, fun j hj => by
    have := e4 j (hN ▸ hj)
    simpa [List.getD, hj] using this⟩
  rw [← hN] at e1
  refine ⟨t, g, e1, hr, fun z y => ?_⟩
  rw [e1]
  exact hr.isRow.2 z y

theorem allIdx_cons {N : ℕ} (k : ℕ) (q : Fin N → ℕ) :
    allIdx (Fin.cons k q : Fin (N + 1) → ℕ) = consIdx k (allIdx q) := by
  funext j
  cases j with
  | zero => rfl
  | succ j =>
    simp only [allIdx, consIdx, Nat.add_lt_add_iff_right]
    split
    · rfl
    · rfl

theorem sum_indices_range' (d : ℕ → ℕ) (N k : ℕ) (F : (ℕ → ℕ) → α) :
    ∑ z ∈ indices ((List.range' k N).map d), F z =
      ∑ z ∈ Fintype.piFinset (fun j : Fin N => Finset.range (d (k + j))), F (allIdx z) := by
  induction N generalizing k F with
  | zero =>
    rw [List.range'_zero, List.map_nil, sum_indices_nil]
    rw [Fintype.piFinset_of_isEmpty, Finset.univ_unique, Finset.sum_singleton]
    rfl
  | succ N ih =>
    rw [List.range'_succ, List.map_cons, sum_indices_cons, sum_piFinset_cons]
    refine Finset.sum_congr rfl fun x _ => ?_
    rw [ih]
    refine Finset.sum_congr ?_ fun q _ => by rw [allIdx_cons]
    congr 1
    funext j
    rw [Fin.val_succ, show k + (↑j + 1) = k + 1 + ↑j by omega]

theorem sum_indices_box (d : ℕ → ℕ) (N : ℕ) (F : (ℕ → ℕ) → α) :
    ∑ z ∈ indices ((List.range N).map d), F z = ∑ z ∈ box N d, F (allIdx z) := by
  rw [List.range_eq_range', sum_indices_range']
  simp [box]

/-! ## The tensor of one element -/

theorem oneTensor_legs (s : Side → String) :
    HasLegs (legName e.nm s) (oneTensor : Tensor ν NoSymmetry α) fun _ => none := by
  have hl : ∀ n, leg (oneTensor : Tensor ν NoSymmetry α) n = none := fun n => leg_eq_none.2 (by simp [oneTensor])
  refine ⟨⟨⟨rfl, by simp [oneTensor], by simp [oneTensor], rfl, rfl⟩, fun n => ?_⟩, fun n hn => absurd (hl n) hn,
    fun g => hl _⟩
  rw [legDim, hl]
  exact Nat.one_pos

theorem oneTensor_val (x : ν → ℕ) : val (oneTensor : Tensor ν NoSymmetry α) x = 1 := rfl

theorem one_site (s : Side → String) : SiteOn e s oneTensor none none none none :=
  (oneTensor_legs s).cast (by
    rintro ⟨x, y⟩
    cases x <;> cases y <;> rfl)

theorem ones_isLine (e : AuxEnv ν α β) (s : Side → String) (N : ℕ) :
    IsLine e s (List.replicate N oneTensor) none ((List.range N).map fun _ => none) ∧
    ∀ x z y, rowVal e s (List.replicate N oneTensor) x z y = 1 := by
  have hm : ∀ N, ((List.range N).map fun _ => (none : Option ℕ)) = List.replicate N none := fun N => by simp
  rw [hm]
  unfold IsLine
  induction N with
  | zero => exact ⟨.nil, fun _ _ _ => rfl⟩
  | succ N ih =>
    refine ⟨.cons (one_site s) ih.1, fun x z y => ?_⟩
    rw [List.replicate_succ, rowVal, (one_site s).right]
    simp only [bondDim, Option.getD_none, Finset.sum_range_one, ih.2, mul_one]
    rw [siteVal, gval, oneTensor_val]

/-! ## Stacks of rows -/

/-- The rows contracted one after another. -/
def stack (e : AuxEnv ν α β) (up down left right : String) (rows : ℕ → List (Tensor ν NoSymmetry α))
    (N cut : ℕ) : ℕ → Outcome (List (Tensor ν NoSymmetry α))
  | 0 => .ok (List.replicate N oneTensor)
  | k + 1 => (stack e up down left right rows N cut k).bind fun l =>
    twoLineToOneLine e up down left right l (rows k) cut

theorem stack_ok (he : AuxEnvOk e) (hs : Dirs s) {N : ℕ} (hN : 0 < N)
    {site : ℕ → ℕ → Tensor ν NoSymmetry α} {h v : ℕ → ℕ → Option ℕ} (hv : ∀ j, v 0 j = none) (k : ℕ)
    (hr : ∀ i < k, RowOn e s N (site i) (h i) (v i) (v (i + 1))) :
    ∃ B t g, (∀ cut, Keeps B cut →
        stack e (s .up) (s .down) (s .left) (s .right) (fun i => (List.range N).map (site i)) N cut k =
          .ok ((List.range N).map t)) ∧
      RowOn e s N t g (fun _ => none) (v k) ∧
      ∀ y : Fin N → ℕ, lineVal e s N t g (fun _ => 0) (allIdx y) =
        chainTo (fun i => box N fun j => bondDim (v i j))
          (fun i z y => lineVal e s N (site i) (h i) (allIdx z) (allIdx y)) k y := by
  induction k with
  | zero =>
    have h0 := ones_isLine e s N
    have hv0 : ((List.range N).map fun _ => (none : Option ℕ)) = (List.range N).map (v 0) :=
      List.map_congr_left fun j _ => (hv j).symm
    rw [hv0] at h0
    obtain ⟨t, g, e1, e2, e3⟩ := h0.1.index
    refine ⟨0, t, g, fun cut _ => by rw [stack, e1], e2, fun y => ?_⟩
    rw [← e3, h0.2, chainTo]
  | succ k ih =>
    obtain ⟨B, t, g, e1, e2, e3⟩ := ih fun i hi => hr i (by omega)
    obtain ⟨r1, r2⟩ := (hr k (by omega)).isRow
    obtain ⟨l1, l2⟩ := e2.isRow
    have l1 : IsLine e s ((List.range N).map t) none ((List.range N).map (v k)) := by
      rw [IsLine, List.map_map]
      exact l1
    obtain ⟨B', r, f1, f2, f3⟩ := twoLine_ok he hs (by simp; omega) l1 r1
    obtain ⟨t', g', q1, q2, q3⟩ := f2.index
    refine ⟨max B B', t', g', fun cut hc => ?_, q2, fun y => ?_⟩
    · rw [stack, e1 cut (hc.le (le_max_left _ _)), Outcome.bind, f1 cut (hc.le (le_max_right _ _)), q1]
    · rw [← q3, f3, chainTo, List.map_map, sum_indices_box]
      refine Finset.sum_congr rfl fun z _ => ?_
      rw [l2, r2, e3]

end TAT
