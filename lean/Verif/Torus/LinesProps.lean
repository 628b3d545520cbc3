import Verif.Torus.LinesCut

/-!
# C90: the contraction of lines on a torus

`torusValue` in `Spec.lean` says what a lattice on a torus stands for, `ringValue` in `LinesSpec.lean` what a row does.
-/

namespace TAT.Torus

open TAT.Grid (IsSite sides GridEnvOk rowOf)

set_option linter.unusedSectionVars false

variable {ν α β : Type} [LinearOrder ν] [Field α] [LinearOrder β] [Zero β] {e : AuxEnv ν α β} {tr : TraceEnv ν α}

/-- **C90**: one step gives a ring again, which stands for the product of the two rows, as long as the cut removes
nothing. -/
theorem C90_step (he : LinesEnvOk e) {L : ℕ} (hL : 2 ≤ L) {t t' : ℕ → Tensor ν NoSymmetry α} {h h' u c d : ℕ → ℕ}
    (ht : IsRing e.nm L t h u c) (ht' : IsRing e.nm L t' h' c d) :
    ∃ (B : ℕ) (t'' : ℕ → Tensor ν NoSymmetry α) (h'' : ℕ → ℕ),
      (∀ cut, B ≤ cut ∨ cut = 2 ^ 64 - 1 → ((Grid.twoLineToOneLine e "up" "down" "left" "right" ((List.range L).map t)
        ((List.range L).map t') cut).bind fun l => closeLine e cut l) = .ok ((List.range L).map t'')) ∧
      IsRing e.nm L t'' h'' u d ∧
      ∀ z y, ringValue e.nm L h'' t'' z y = ∑ q ∈ Fintype.piFinset fun j : Fin L => Finset.range (c j),
        ringValue e.nm L h t z q * ringValue e.nm L h' t' q y := by
  obtain ⟨n, rfl⟩ : ∃ n, L = n + 2 := ⟨L - 2, by omega⟩
  exact lineStep_ok he ht ht'

/-- **C90**: the last line is contracted to the sum of its values over equal indices above and below. -/
theorem C90_ring (he : GridEnvOk e sides) (htr : TraceEnvOk tr) {L : ℕ} (hL : L ≠ 0) {t : ℕ → Tensor ν NoSymmetry α}
    {h v : ℕ → ℕ} (ht : IsRing e.nm L t h v v) :
    ((joinLine e tr ((List.range L).map t) oneTensor).bind fun r =>
      (traced e tr r [("left", "right")]).bind onlyElement) =
    .ok (∑ q ∈ Fintype.piFinset fun j : Fin L => Finset.range (v j), ringValue e.nm L h t q q) := by
  obtain ⟨n, rfl⟩ : ∃ n, L = n + 1 := ⟨L - 1, by omega⟩
  exact joinLine_ok he htr ht

/-- **C90**: `contract_with_two_line_to_one_line` gives the value of the lattice, as long as the cut removes
nothing. -/
theorem C90_contract (he : LinesEnvOk e) (htr : TraceEnvOk tr) {L : ℕ} (hL : L ≠ 0)
    {site : ℕ → ℕ → Tensor ν NoSymmetry α} {h v : ℕ → ℕ → ℕ} (ht : IsTorus e.nm L site h v) :
    ∃ B, ∀ cut, B ≤ cut ∨ cut = 2 ^ 64 - 1 → contractLines e tr L site cut = .ok (torusValue e.nm L h v site) := by
  obtain ⟨n, rfl⟩ : ∃ n, L = n + 1 := ⟨L - 1, by omega⟩
  obtain ⟨B, t, g, g1, g2, g3⟩ := lines_ok he ht n (by omega)
  have hr : IsRing e.nm (n + 1) t g (v 0) (v 0) :=
    ⟨fun j hj => by rw [← ht.column j hj]; simpa only [ht.column j hj] using g2.site j hj, g2.closed⟩
  refine ⟨B, fun cut hc => ?_⟩
  rw [contractLines, Nat.add_sub_cancel, g1 cut hc, Outcome.bind, joinLine_ok he.grid htr hr, torus_path]
  simp only [g3]

/-- **C90**: a lattice with one site has its value for every cut, unlike in `get_exact`. -/
theorem C90_one (he : GridEnvOk e sides) (htr : TraceEnvOk tr) {site : ℕ → ℕ → Tensor ν NoSymmetry α} {h v : ℕ → ℕ → ℕ}
    (ht : IsTorus e.nm 1 site h v) (cut : ℕ) :
    contractLines e tr 1 site cut = .ok (torusValue e.nm 1 h v site) := by
  have hr : IsRing e.nm (0 + 1) (site 0) (h 0) (v 0) (v 0) :=
    ⟨fun j hj => by rw [← ht.column j hj]; simpa only [ht.column j hj] using ht.site 0 (by omega) j hj,
      ht.row 0 (by omega)⟩
  have := joinLine_ok (tr := tr) he htr hr
  rw [contractLines]
  show (joinLine e tr ((List.range (0 + 1)).map (site 0)) oneTensor).bind _ = _
  rw [this, torus_path e.nm 0 h v site]
  rfl

/-- **C90**: without sites the trace of the number one over two edges is an error, though the value of the lattice is
one. -/
theorem C90_zero (e : AuxEnv ν α β) (tr : TraceEnv ν α) (site : ℕ → ℕ → Tensor ν NoSymmetry α) (h v : ℕ → ℕ → ℕ)
    (cut : ℕ) : contractLines e tr 0 site cut = .error "vector::reserve" ∧ torusValue e.nm 0 h v site = 1 := by
  refine ⟨rfl, ?_⟩
  simp [torusValue]

/-- **C90**: with any cut but zero every line is a ring, between the edges above the first row and those below the last
one, with no edge between its sites above the cut, and the result is a number. -/
theorem C90_contract_cut (he : LinesEnvOk e) (htr : TraceEnvOk tr) {L : ℕ} (hL : L ≠ 0)
    {site : ℕ → ℕ → Tensor ν NoSymmetry α} {h v : ℕ → ℕ → ℕ} (ht : IsTorus e.nm L site h v) {cut : ℕ} (hc : cut ≠ 0) :
    (∀ k < L, ∃ t g, lines e L site cut k = .ok ((List.range L).map t) ∧ IsRing e.nm L t g (v 0) (v (k + 1)) ∧
      (k ≠ 0 → cut ≠ 2 ^ 64 - 1 → ∀ j ≤ L, g j ≤ cut)) ∧
    ∃ x, contractLines e tr L site cut = .ok x := by
  obtain ⟨n, rfl⟩ : ∃ n, L = n + 1 := ⟨L - 1, by omega⟩
  refine ⟨lines_any he hc ht, ?_⟩
  obtain ⟨t, g, g1, g2, -⟩ := lines_any he hc ht n (by omega)
  have hr : IsRing e.nm (n + 1) t g (v 0) (v 0) :=
    ⟨fun j hj => by rw [← ht.column j hj]; simpa only [ht.column j hj] using g2.site j hj, g2.closed⟩
  exact ⟨_, by rw [contractLines, Nat.add_sub_cancel, g1, Outcome.bind, joinLine_ok he.grid htr hr]⟩

/-- **C90**: so the two methods agree if there are at least two rows. -/
theorem C90_same (he : LinesEnvOk e) (htr : TraceEnvOk tr) {L : ℕ} (hL : 2 ≤ L)
    {site : ℕ → ℕ → Tensor ν NoSymmetry α} {h v : ℕ → ℕ → ℕ} (ht : IsTorus e.nm L site h v) :
    contractLines e tr L site (2 ^ 64 - 1) = getExact e L site := by
  obtain ⟨B, hB⟩ := C90_contract (tr := tr) he htr (by omega) ht
  rw [hB _ (Or.inr rfl), C88_exact_partial he.grid (by omega) ht]

end TAT.Torus
