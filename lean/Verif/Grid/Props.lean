import Verif.Grid.Cut
import Verif.Square.DenseNew

/-!
# C86: the contraction of lattices in the examples

`rowValue` and `gridValue` in `Spec.lean` say what rows of tensors and lattices stand for.
-/

namespace TAT.Grid

set_option linter.unusedSectionVars false

variable {ν α β : Type} [LinearOrder ν] [Field α] [LinearOrder β] [Zero β]
  {e : AuxEnv ν α β} {s : Side → String}

/-- **C86**: `two_line_to_one_line` gives a row which stands for the product of the two, as long as the cut removes
nothing; the names of the directions are any. -/
theorem C86_two_lines (he : GridEnvOk e s) {N : ℕ} {t1 t2 : ℕ → Tensor ν NoSymmetry α} {h1 h2 v d : ℕ → Option ℕ}
    (r1 : IsRow e.nm s N t1 h1 (fun _ => none) v) (r2 : IsRow e.nm s N t2 h2 v d) :
    ∃ B t h, (∀ cut, B ≤ cut ∨ cut = 2 ^ 64 - 1 → twoLineToOneLine e (s .up) (s .down) (s .left) (s .right)
        ((List.range N).map t1) ((List.range N).map t2) cut = .ok ((List.range N).map t)) ∧
      IsRow e.nm s N t h (fun _ => none) d ∧
      ∀ y : ℕ → ℕ, rowValue e.nm s N t h (fun _ => 0) y =
        ∑ z ∈ Fintype.piFinset fun j : Fin N => Finset.range ((v j).getD 1),
          rowValue e.nm s N t1 h1 (fun _ => 0) (allIdx z) * rowValue e.nm s N t2 h2 (allIdx z) y := by
  obtain ⟨B, t, h, e1, e2, e3⟩ := twoLines_ok he (r1.on he) (r2.on he)
  refine ⟨B, t, h, e1, isRow_of he e2, fun y => ?_⟩
  rw [← lineVal_rowValue he e2, e3]
  refine Finset.sum_congr rfl fun z _ => ?_
  rw [lineVal_rowValue he (r1.on he), lineVal_rowValue he (r2.on he)]

/-- **C86**: with any cut which is not zero the result is a row of the same kind, whose bonds are not larger than
the cut. -/
theorem C86_two_lines_cut (he : GridEnvOk e s) {N : ℕ} {t1 t2 : ℕ → Tensor ν NoSymmetry α}
    {h1 h2 v d : ℕ → Option ℕ} (r1 : IsRow e.nm s N t1 h1 (fun _ => none) v)
    (r2 : IsRow e.nm s N t2 h2 v d) {cut : ℕ} (hc : cut ≠ 0) :
    ∃ t h, twoLineToOneLine e (s .up) (s .down) (s .left) (s .right) ((List.range N).map t1)
        ((List.range N).map t2) cut = .ok ((List.range N).map t) ∧
      IsRow e.nm s N t h (fun _ => none) d ∧ (cut ≠ 2 ^ 64 - 1 → ∀ j ≤ N, (h j).getD 1 ≤ cut) := by
  obtain ⟨t, h, e1, e2, e3⟩ := twoLines_any he hc (r1.on he) (r2.on he)
  exact ⟨t, h, e1, isRow_of he e2, e3⟩

/-- **C86**: rows of different lengths are an error, whatever the tensors are. -/
theorem C86_length (e : AuxEnv ν α β) (up down left right : String) {l1 l2 : List (Tensor ν NoSymmetry α)}
    (h : l1.length ≠ l2.length) (cut : ℕ) :
    twoLineToOneLine e up down left right l1 l2 cut = .error "Different Length When Do Two Line to One Line" := by
  rw [twoLineToOneLine, oneLine, if_pos h]

/-- **C86**: `get_exact` gives the value of the lattice, of any size and with any dimensions. -/
theorem C86_exact (he : GridEnvOk e sides) {L : ℕ} {site : ℕ → ℕ → Tensor ν NoSymmetry α}
    {h v : ℕ → ℕ → Option ℕ} (hg : IsGrid e.nm L site h v) :
    getExact e L site = .ok (gridValue e.nm L h v site) := getExact_ok he hg

/-- **C86**: `contract_with_two_line_to_one_line` gives the value of the lattice, as long as the cut removes
nothing. -/
theorem C86_contract (he : GridEnvOk e sides) {L : ℕ} {site : ℕ → ℕ → Tensor ν NoSymmetry α}
    {h v : ℕ → ℕ → Option ℕ} (hg : IsGrid e.nm L site h v) :
    ∃ B, ∀ cut, B ≤ cut ∨ cut = 2 ^ 64 - 1 → contractLines e L site cut = .ok (gridValue e.nm L h v site) :=
  contractLines_ok he hg

/-- **C86**: so the two methods agree. -/
theorem C86_same (he : GridEnvOk e sides) {L : ℕ} {site : ℕ → ℕ → Tensor ν NoSymmetry α}
    {h v : ℕ → ℕ → Option ℕ} (hg : IsGrid e.nm L site h v) :
    contractLines e L site (2 ^ 64 - 1) = getExact e L site := by
  obtain ⟨B, hB⟩ := C86_contract he hg
  rw [hB _ (Or.inr rfl), C86_exact he hg]

/-- **C86**: with any cut which is not zero every row on the way has bonds not larger than the cut, and the
result is a number. -/
theorem C86_contract_cut (he : GridEnvOk e sides) {L : ℕ} {site : ℕ → ℕ → Tensor ν NoSymmetry α}
    {h v : ℕ → ℕ → Option ℕ} (hg : IsGrid e.nm L site h v) {cut : ℕ} (hc : cut ≠ 0) :
    (∀ k < L, ∃ t g, lines e L site cut k = .ok ((List.range L).map t) ∧
      IsRow e.nm sides L t g (fun _ => none) (v (k + 1)) ∧
      (k ≠ 0 → cut ≠ 2 ^ 64 - 1 → ∀ j ≤ L, (g j).getD 1 ≤ cut)) ∧
    ∃ x, contractLines e L site cut = .ok x := by
  refine ⟨fun k hk => ?_, contractLines_any he hc hg⟩
  obtain ⟨t, g, e1, e2, e3⟩ := lines_any he hc hg k hk
  exact ⟨t, g, e1, isRow_of he e2, e3⟩

/-! ## The constructor -/

/-- The edges of a new lattice: `k` is the place of the edge. -/
def newBond (L D k : ℕ) : Option ℕ := if 0 < k ∧ k < L then some D else none

theorem sides_injective : Function.Injective sides := by
  rintro x y h
  revert h
  cases x <;> cases y <;> decide

theorem siteNames_mem (L i j : ℕ) (x : Side) : sides x ∈ siteNames L i j ↔
    (match x with | .up => i ≠ 0 | .down => i + 1 ≠ L | .left => j ≠ 0 | .right => j + 1 ≠ L) := by
  cases x <;> simp only [siteNames, sides, List.mem_append] <;> split_ifs <;> simp_all

theorem siteNames_sides {L i j : ℕ} {n : String} (h : n ∈ siteNames L i j) : ∃ x, n = sides x := by
  simp only [siteNames, List.mem_append] at h
  rcases h with ((h | h) | h) | h <;> split_ifs at h <;> simp at h
  · exact ⟨.up, h⟩
  · exact ⟨.down, h⟩
  · exact ⟨.left, h⟩
  · exact ⟨.right, h⟩

theorem siteNames_nodup (L i j : ℕ) : (siteNames L i j).Nodup := by
  unfold siteNames
  split_ifs <;> decide

theorem stateAfter_add {S : Type} (gen : S → α × S) (s : S) (m n : ℕ) :
    stateAfter gen s (m + n) = stateAfter gen (stateAfter gen s m) n := by
  induction m generalizing s with
  | zero => simp [stateAfter]
  | succ m ih =>
    rw [Nat.succ_add]
    simp [stateAfter, ih]

theorem newSite_ok {S : Type} (he : GridEnvOk e sides) (gen : S → α × S) (s : S) {L D i j : ℕ} (hD : 0 < D)
    (hi : i < L) (hj : j < L) :
    ∃ t, mkTensor e.junk ((siteNames L i j).map e.nm)
        ((siteNames L i j).map fun _ => (⟨false, [(0, D)]⟩ : Edge NoSymmetry)) = .ok t ∧
      IsSite e.nm sides (setWith gen s t) (newBond L D j) (newBond L D (j + 1)) (newBond L D i)
        (newBond L D (i + 1)) ∧
      allElems (setWith gen s t) = outputs gen s (D ^ (siteNames L i j).length) ∧
      (genBlocks gen t.core.blocks s).2 = stateAfter gen s (D ^ (siteNames L i j).length) := by
  obtain ⟨t, t1, t2, t3, t4, t5⟩ := dense_set e.junk gen s (names := (siteNames L i j).map e.nm)
    (dims := (siteNames L i j).map fun _ => D) ((siteNames_nodup L i j).map he.inj) (by simp)
    (fun d hd => by
      obtain ⟨n, -, rfl⟩ := List.mem_map.1 hd
      exact hD)
  have hleg : ∀ x, leg (setWith gen s t) (e.nm (sides x)) = if sides x ∈ siteNames L i j then some D else none := by
    intro x
    split
    · next h =>
      obtain ⟨k, hk, hx⟩ := List.getElem_of_mem h
      have := t4 k (by simpa using hk)
      rwa [List.getElem_map, List.getElem_map, hx] at this
    · next h =>
      rw [leg_eq_none, t3, List.mem_map]
      rintro ⟨n, hn, hn'⟩
      exact h (he.inj hn' ▸ hn)
  have hout : ∀ (l : List (List NoSymmetry × List α)) (s : S),
      (genBlocks gen l s).2 = stateAfter gen s (l.map fun b => b.2.length).sum := by
    intro l
    induction l with
    | nil => exact fun s => rfl
    | cons b l ih =>
      intro s
      rw [genBlocks, genList_eq, List.map_cons, List.sum_cons, stateAfter_add]
      exact ih _
  refine ⟨t, ?_, ⟨t2, ?_, ?_, ?_, ?_, fun n hn => ?_⟩, by simpa using t5, ?_⟩
  · rw [← t1, List.map_map]
    rfl
  · rw [hleg, newBond]
    exact if_congr ((siteNames_mem L i j .left).trans (by simp only; omega)) rfl rfl
  · rw [hleg, newBond]
    exact if_congr ((siteNames_mem L i j .right).trans (by simp only; omega)) rfl rfl
  · rw [hleg, newBond]
    exact if_congr ((siteNames_mem L i j .up).trans (by simp only; omega)) rfl rfl
  · rw [hleg, newBond]
    exact if_congr ((siteNames_mem L i j .down).trans (by simp only; omega)) rfl rfl
  · have hn : n ∈ (setWith gen s t).names := by
      by_contra h
      exact hn (leg_eq_none.2 h)
    rw [t3, List.mem_map] at hn
    obtain ⟨m, hm, rfl⟩ := hn
    obtain ⟨x, rfl⟩ := siteNames_sides hm
    exact ⟨x, rfl⟩
  · rw [hout]
    congr 1
    have := mkTensor_eq e.junk ((siteNames L i j).map e.nm) (((siteNames L i j).map fun _ => D).map plainEdge) false
      (fun e h => by
        obtain ⟨d, -, rfl⟩ := List.mem_map.1 h
        exact List.pairwise_singleton _ _) (by simp) ((siteNames_nodup L i j).map he.inj)
    have harrow : arrowed (((siteNames L i j).map fun _ => D).map plainEdge) false =
      ((siteNames L i j).map fun _ => D).map plainEdge := rfl
    rw [harrow, prunedEdges_plain, freshBlocks, blockShapes_plain, t1] at this
    injection this with this
    rw [this]
    simp

/-- The number of elements of the sites of a list. -/
def newSize (L D : ℕ) (ps : List (ℕ × ℕ)) : ℕ := (ps.map fun p => D ^ (siteNames L p.1 p.2).length).sum

theorem newSites_ok {S : Type} (he : GridEnvOk e sides) (gen : S → α × S) {L D : ℕ} (hD : 0 < D) :
    ∀ (ps : List (ℕ × ℕ)) (s : S), ps.Nodup → (∀ p ∈ ps, p.1 < L ∧ p.2 < L) →
      ∃ site : ℕ → ℕ → Tensor ν NoSymmetry α,
        newSites e gen L D ps s = .ok (ps.map fun p => (p, site p.1 p.2)) ∧
        (∀ p ∈ ps, IsSite e.nm sides (site p.1 p.2) (newBond L D p.2) (newBond L D (p.2 + 1)) (newBond L D p.1)
          (newBond L D (p.1 + 1))) ∧
        (ps.flatMap fun p => allElems (site p.1 p.2)) = outputs gen s (newSize L D ps)
  | [], s, _, _ => ⟨fun _ _ => oneTensor, rfl, by simp, rfl⟩
  | p :: ps, s, hn, hp => by
    obtain ⟨t, t1, t2, t3, t4⟩ := newSite_ok he gen s hD (hp p (by simp)).1 (hp p (by simp)).2
    obtain ⟨site, s1, s2, s3⟩ := newSites_ok he gen hD ps (genBlocks gen t.core.blocks s).2 (List.nodup_cons.1 hn).2
      fun q hq => hp q (by simp [hq])
    have hne : ∀ q ∈ ps, q ≠ p := fun q hq h => (List.nodup_cons.1 hn).1 (h ▸ hq)
    obtain ⟨site', p1, hq⟩ : ∃ site' : ℕ → ℕ → Tensor ν NoSymmetry α, site' p.1 p.2 = setWith gen s t ∧
        ∀ q ∈ ps, site' q.1 q.2 = site q.1 q.2 :=
      ⟨fun i j => if (i, j) = p then setWith gen s t else site i j, if_pos rfl, fun q hq => if_neg (hne q hq)⟩
    refine ⟨site', ?_, fun q hq' => ?_, ?_⟩
    · rw [newSites, t1, Outcome.bind, s1, Outcome.bind, List.map_cons, p1]
      congr 2
      exact List.map_congr_left fun q h => by rw [hq q h]
    · rcases List.mem_cons.1 hq' with rfl | hq'
      · rw [p1]
        exact t2
      · rw [hq q hq']
        exact s2 q hq'
    · rw [List.flatMap_cons, p1, t3, newSize, List.map_cons, List.sum_cons, outputs_append, ← t4]
      congr 1
      rw [← newSize, ← s3]
      simp only [List.flatMap]
      congr 1
      exact List.map_congr_left fun q h => by rw [hq q h]

theorem positions_mem {L : ℕ} {p : ℕ × ℕ} : p ∈ positions L ↔ p.1 < L ∧ p.2 < L := by
  obtain ⟨i, j⟩ := p
  simp [positions]

theorem positions_nodup (L : ℕ) : (positions L).Nodup := by
  rw [positions, List.nodup_flatMap]
  refine ⟨fun i _ => List.nodup_range.map fun a b h => (Prod.mk.injEq _ _ _ _ ▸ h).2, ?_⟩
  refine List.nodup_range.imp fun h => ?_
  rw [Function.onFun, List.disjoint_left]
  intro p h1 h2
  rw [List.mem_map] at h1 h2
  obtain ⟨a, -, rfl⟩ := h1
  obtain ⟨b, -, h2⟩ := h2
  exact h (by simpa using (congrArg Prod.fst h2).symm)

/-- **C86**: the constructor gives a lattice with edges of dimension `D` between all neighbours, and its elements
are the numbers of the generator in the order of the sites. -/
theorem C86_new {S : Type} (he : GridEnvOk e sides) (gen : S → α × S) (s : S) (L : ℕ) {D : ℕ} (hD : 0 < D) :
    ∃ site : ℕ → ℕ → Tensor ν NoSymmetry α,
      newLattice e gen s L D = .ok ((positions L).map fun p => (p, site p.1 p.2)) ∧
      IsGrid e.nm L site (fun _ j => newBond L D j) (fun i _ => newBond L D i) ∧
      ((positions L).flatMap fun p => allElems (site p.1 p.2)) = outputs gen s (newSize L D (positions L)) := by
  obtain ⟨site, s1, s2, s3⟩ := newSites_ok he gen hD (positions L) s (positions_nodup L) fun p hp => positions_mem.1 hp
  refine ⟨site, s1, ⟨fun i hi => ⟨if_neg (by omega), if_neg (by omega), fun j hj => s2 (i, j) (positions_mem.2 ⟨hi, hj⟩)⟩,
    fun j => if_neg (by omega), fun j => if_neg (by omega)⟩, s3⟩

end TAT.Grid
