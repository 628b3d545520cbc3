import Verif.Square.DenseArith
import Verif.Tensor.Props

/-!
# New tensors without symmetry
-/

namespace TAT

set_option linter.unusedSectionVars false

variable {ν α : Type} [LinearOrder ν]

/-- The edge of a tensor without symmetry. -/
def plainEdge (d : ℕ) : Edge NoSymmetry := ⟨false, [(0, d)]⟩

theorem choices_plain (dims : List ℕ) :
    choices ((dims.map plainEdge).map Edge.map) = [dims.map fun d => ((0 : NoSymmetry), d)] := by
  induction dims with
  | nil => rfl
  | cons d dims ih => rw [List.map_cons, List.map_cons, choices, ih]; rfl

theorem blockShapes_plain (dims : List ℕ) :
    blockShapes ((dims.map plainEdge).map Edge.map) = [(List.replicate dims.length (0 : NoSymmetry), dims.prod)] := by
  rw [blockShapes, choices_plain, List.filter_cons, if_pos (by simpa using noSym_eq _ _)]
  simp [Function.comp_def]

theorem prunedEdges_plain (dims : List ℕ) :
    prunedEdges (dims.map plainEdge) = dims.map plainEdge := by
  rw [prunedEdges]
  refine List.ext_getElem (by simp) fun i h1 h2 => ?_
  have h3 : i < dims.length := by simpa using h2
  rw [List.getElem_mapIdx, List.getElem_map]
  have : usedAt ((dims.map plainEdge).map Edge.map) i (0 : NoSymmetry) = true := by
    rw [usedAt, blockShapes_plain]
    simp [List.getElem?_replicate, h3]
  rw [plainEdge, List.filter_cons, if_pos this]
  rfl

/-- A tensor with the given names and dimensions and blocks of the right shape is dense. -/
theorem dense_plain {t : Tensor ν NoSymmetry α} {dims : List ℕ} (hn : t.names.Nodup)
    (hl : t.names.length = dims.length) (he : t.core.edges = dims.map plainEdge)
    (hb : t.core.blocks.map (fun b => (b.1, b.2.length)) =
      [(List.replicate dims.length (0 : NoSymmetry), dims.prod)]) (hd : ∀ d ∈ dims, 0 < d) :
    Dense t ∧ ∀ i (hi : i < t.names.length), leg t t.names[i] = some (dims[i]'(hl ▸ hi)) := by
  have wf : WF t := by
    refine ⟨by rw [he, hl, List.length_map], hn, ?_, ?_, ?_⟩
    · intro e h
      rw [he, List.mem_map] at h
      obtain ⟨d, -, rfl⟩ := h
      exact List.pairwise_singleton _ _
    · rw [hb, he, blockShapes_plain]
    · rw [he, prunedEdges_plain]
  have hleg : ∀ i (hi : i < t.names.length), leg t t.names[i] = some (dims[i]'(hl ▸ hi)) := by
    intro i hi
    rw [leg_of_mem (List.getElem_mem hi)]
    have : mapOf t t.names[i] = [(0, dims[i]'(hl ▸ hi))] := by
      have h1 := edges_named wf
      have h2 : t.core.edges[i]'(by rw [he, List.length_map, ← hl]; exact hi) = edgeOf t t.names[i] := by
        rw [List.getElem_of_eq h1, List.getElem_map]
      have h3 : t.core.edges[i]'(by rw [he, List.length_map, ← hl]; exact hi) =
          plainEdge (dims[i]'(hl ▸ hi)) := by
        rw [List.getElem_of_eq he, List.getElem_map]
      rw [mapOf, ← h2, h3]
      rfl
    rw [this]
    rfl
  refine ⟨⟨wf, fun n => ?_⟩, hleg⟩
  by_cases h : n ∈ t.names
  · obtain ⟨i, hi, rfl⟩ := List.mem_iff_getElem.1 h
    rw [legDim, hleg i hi]
    exact hd _ (List.getElem_mem _)
  · rw [legDim, leg_eq_none.2 h]
    exact Nat.one_pos

/-- A new tensor whose elements are set from a generator. -/
theorem dense_set {S : Type} (junk : List NoSymmetry → ℕ → α) (gen : S → α × S) (s : S) {names : List ν}
    {dims : List ℕ} (hn : names.Nodup) (hl : names.length = dims.length) (hd : ∀ d ∈ dims, 0 < d) :
    ∃ t, mkTensor junk names (dims.map plainEdge) = .ok t ∧ Dense (setWith gen s t) ∧
      (setWith gen s t).names = names ∧
      (∀ i (hi : i < names.length), leg (setWith gen s t) names[i] = some (dims[i]'(hl ▸ hi))) ∧
      allElems (setWith gen s t) = outputs gen s dims.prod := by
  have key := mkTensor_eq junk names (dims.map plainEdge) false (fun e h => by
      obtain ⟨d, -, rfl⟩ := List.mem_map.1 h
      exact List.pairwise_singleton _ _) (by simpa using hl) hn
  have harrow : arrowed (dims.map plainEdge) false = dims.map plainEdge := rfl
  rw [harrow, prunedEdges_plain, freshBlocks, blockShapes_plain] at key
  refine ⟨_, key, ?_⟩
  obtain ⟨h1, h2⟩ := C50_set gen s (⟨names, dims.map plainEdge,
    [(List.replicate dims.length (0 : NoSymmetry), dims.prod)].map
      fun p => (p.1, (List.range p.2).map (junk p.1))⟩ : Tensor ν NoSymmetry α)
  rw [shape, shape, Prod.mk.injEq, Prod.mk.injEq] at h1
  obtain ⟨e1, e2, e3⟩ := h1
  generalize setWith gen s (⟨names, dims.map plainEdge,
    [(List.replicate dims.length (0 : NoSymmetry), dims.prod)].map
      fun p => (p.1, (List.range p.2).map (junk p.1))⟩ : Tensor ν NoSymmetry α) = T at e1 e2 e3 h2 ⊢
  have e1 : T.names = names := e1
  subst e1
  obtain ⟨f1, f2⟩ := dense_plain hn hl e2 (by rw [e3]; simp) hd
  refine ⟨f1, rfl, f2, ?_⟩
  rw [h2, allElems]
  simp

end TAT
