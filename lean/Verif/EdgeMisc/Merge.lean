import Verif.EdgeMisc.MergeNames

/-!
# Merging, and splitting back
-/

set_option linter.unusedSectionVars false

namespace TAT

variable {ν σ α : Type} [LinearOrder ν] [TatSym σ]

/-- The arguments of the call made by `merge_edge`. -/
def mergeArgs (t : Tensor ν σ α) (merge : List (ν × List ν)) (applyParity : Bool)
    (excludeMerge excludeReverse : List ν) : EdgeArgs ν σ :=
  { merge := mergeExisting t.names merge
    newNames := mergeTarget t.names (mergeExisting t.names merge)
    applyParity := applyParity
    excludeReverseMerge := excludeReverse
    excludeMerge := excludeMerge }

/-- The position of the merged tensor belonging to a position of the tensor: on every edge the total
symmetry of its group, and the number counting the group position in the order described by
`groupIdx`. -/
def mergedPos (t : Tensor ν σ α) (merge : List (ν × List ν)) (p : ν → σ × ℕ) (n : ν) : σ × ℕ :=
  ((keyOf (groupOf merge n) p).sum, groupIdx (mapOf t) (groupOf merge n) p)

/-- Only merging. -/
structure Merging (t : Tensor ν σ α) (a : EdgeArgs ν σ) : Prop where
  rename : a.rename = []
  split : a.split = []
  reversed : a.reversed = []
  cut : a.cut = []
  wf : WF t
  newNodup : a.newNames.Nodup
  perm : t.names.Perm (opM a).flatten

section
variable {t : Tensor ν σ α} {a : EdgeArgs ν σ}

theorem Merging.names (h : Merging t a) : opNames t a = t.names := by
  unfold opNames
  rw [h.rename]
  exact (List.map_congr_left fun n _ => renameOne_nil n).trans (List.map_id _)

theorem Merging.opCut (h : Merging t a) : opCut t a = t.core.edges := by
  unfold TAT.opCut edgeBeforeSplit
  rw [h.cut]; rfl

theorem Merging.opS (h : Merging t a) : opS t a = t.names.map fun n => [n] := by
  rw [opS_noSplit h.split, h.names]

theorem Merging.opFine (h : Merging t a) : opFine t a = edgeOf t := by
  unfold TAT.opFine
  rw [h.split, fineEdges_nil, h.names, h.opCut]
  rfl

theorem Merging.opMap (h : Merging t a) : opMap t a = mapOf t := by
  funext n
  unfold TAT.opMap
  rw [h.opFine]; rfl

theorem Merging.opReversed (h : Merging t a) : opReversed t a = edgeOf t := by
  funext n
  unfold TAT.opReversed reversedEdge reverseOne
  rw [h.opFine, h.reversed]
  simp

theorem Merging.ok (h : Merging t a) : OpOk t a where
  wf := h.wf.shaped
  pruned := fun _ => h.wf.pruned
  nodup := by rw [h.opS, flatten_singletons]; exact h.wf.nodup
  perm := by rw [h.opS, flatten_singletons]; exact h.perm
  newNodup := h.newNodup
  parts := by rw [h.split]; simp
  fits := by
    intro x _ parts hf
    rw [h.split] at hf
    simp [OMap.find?] at hf
  cutKeys := by
    intro _ _
    rw [h.opCut]
    exact List.forall₂_same.2 fun _ _ => rfl

/-- The sign of merging. -/
def mergeSign (t : Tensor ν σ α) (a : EdgeArgs ν σ) (p : ν → σ × ℕ) : ℤ :=
  if TatSym.isFermi σ then
    exchangeOf (oddAt p) t.names (opM a).flatten *
    ((opM a).map fun g => reverseOf (oddAt p) (fun n => flipped (edgeOf t) g n &&
      marked a.applyParity a.excludeReverseMerge n) g).prod *
    groupsOf (oddAt p) (opM a) (a.newNames.map (marked a.applyParity a.excludeMerge))
  else 1

theorem Merging.opSign (h : Merging t a) (p : ν → σ × ℕ) : opSign t a p = mergeSign t a p := by
  unfold TAT.opSign mergeSign
  congr 1
  rw [h.opS, flatten_singletons, groupsOf_short _ (t.names.map fun n => [n]) _ (by simp), h.reversed,
    h.opReversed]
  simp only [List.not_mem_nil, decide_false, Bool.false_and, reverseOf_false, mul_one]

/-- What merging computes. -/
theorem merging_spec [Neg α] [Zero α] (env : Env σ α) (h : Merging t a) :
    ∃ r, edgeOperator env t a = .ok r ∧ r.names = a.newNames ∧ WF r ∧
      r.core.edges = prunedEdges (((opM a).zipIdx 0).map fun x =>
        groupEdge (env.garbage x.2) (x.1.map (edgeOf t))) ∧
      FitsIn r (mapOf t) (opM a) ∧
      ∀ p, ValidPos t p →
        elemAt r.core (coarseKey (opM a) p) (coarseIdx (mapOf t) (opM a) p) =
          (elem t p).map (applySign (mergeSign t a p)) := by
  obtain ⟨r, h1, h2, h3, h4, h5, _⟩ := edgeOperator_spec env h.ok
  refine ⟨r, h1, h2, h3, ?_, ?_, fun p hv => ?_⟩
  · rw [h4]; unfold opEdges; rw [h.opReversed]
  · have := h.ok.fitsIn env.garbage h4
    rwa [h.opMap] at this
  · rw [validPos_iff h.wf] at hv
    have hf : FineOk (TAT.opMap t a) (TAT.opS t a).flatten p := by
      rw [h.opMap, h.opS, flatten_singletons]; exact hv
    have := h5 p hf (h.ok.in_noSplit h.split hf.keyOk)
    rw [h.opSign, h.opMap, h.opS, coarseKey_singles, coarseIdx_singles (mapOf_sorted h.wf)] at this
    exact this

theorem Merging.sortedM (h : Merging t a) : ∀ n ∈ (opM a).flatten, OMap.Sorted (mapOf t n) :=
  fun n hn => mapOf_sorted h.wf n (h.perm.mem_iff.2 hn)

theorem Merging.fineM (h : Merging t a) {p : ν → σ × ℕ} :
    ValidPos t p ↔ FineOk (mapOf t) (opM a).flatten p := by
  rw [validPos_iff h.wf]
  exact ⟨fun x => x.perm h.perm, fun x => x.perm h.perm.symm⟩

/-- The edge of the result at index `i` before dropping unused symmetries. -/
theorem Merging.edgeAt (h : Merging t a) (garbage : ℕ → Bool) {r : Tensor ν σ α}
    (hr : r.core.edges = prunedEdges (((opM a).zipIdx 0).map fun x =>
        groupEdge (garbage x.2) (x.1.map (edgeOf t)))) (i : ℕ) (hi : i < r.core.edges.length)
    (hi' : i < (opM a).length) :
    (∀ s ∈ OMap.keys r.core.edges[i].map,
      dimOf r.core.edges[i] s = mergedDim ((opM a)[i].map (mapOf t)) s) ∧
    r.core.edges[i].arrow = (groupEdge (garbage i) ((opM a)[i].map (edgeOf t))).arrow := by
  have hs := h.ok.edgesSorted garbage
  have he : opEdges garbage t a = ((opM a).zipIdx 0).map fun x =>
        groupEdge (garbage x.2) (x.1.map (edgeOf t)) := by
    unfold opEdges; rw [h.opReversed]
  rw [← he] at hr
  have hi2 : i < (prunedEdges (opEdges garbage t a)).length := by
    rw [pruned_length, opEdges_length, ← opM_length]; exact hi'
  have heq : r.core.edges[i] = (prunedEdges (opEdges garbage t a))[i] := by simp only [hr]
  rw [heq]
  refine ⟨fun s hk => ?_, ?_⟩
  · rw [dims_pruned hs hi2 hk, opEdges_getElem, (groupEdge_map (h.ok.sortedM (List.getElem_mem hi'))).2.2,
      opGroup_maps, h.opMap]
  · simp only [prunedEdges, List.getElem_mapIdx]
    have hrev := h.opReversed
    simp only [opEdges_getElem, hrev]

/-- A fine key makes an allowed block of the merged tensor, with the merged dimensions. -/
theorem Merging.coarse_keys (h : Merging t a) (garbage : ℕ → Bool) {r : Tensor ν σ α}
    (hr : r.core.edges = prunedEdges (((opM a).zipIdx 0).map fun x =>
        groupEdge (garbage x.2) (x.1.map (edgeOf t)))) {p : ν → σ × ℕ}
    (hp : KeyOk (mapOf t) (opM a).flatten p) :
    List.Forall₂ (fun e s => s ∈ OMap.keys e.map) r.core.edges (coarseKey (opM a) p) ∧
    dimsOf r.core.edges (coarseKey (opM a) p) =
      (opM a).map fun g => mergedDim (g.map (mapOf t)) (keyOf g p).sum := by
  have he : opEdges garbage t a = ((opM a).zipIdx 0).map fun x =>
        groupEdge (garbage x.2) (x.1.map (edgeOf t)) := by
    unfold opEdges; rw [h.opReversed]
  rw [← he] at hr
  have h1 := h.ok.destKey garbage (p := p) (by rw [h.opMap]; exact hp.1)
  have h2 := pruned_keys (h.ok.edgesSorted garbage) h1 (by rw [coarseKey_sum]; exact hp.2)
  rw [hr]
  refine ⟨h2.1, ?_⟩
  rw [h2.2, h.ok.destDim, h.opMap]

end

theorem groupOf_eq_map (merge : List (ν × List ν)) (names : List ν) (t : Tensor ν σ α)
    (p : ν → σ × ℕ) :
    keyOf names (mergedPos t merge p) = coarseKey (mergeGroups merge names) p ∧
    idxOf names (mergedPos t merge p) = coarseIdx (mapOf t) (mergeGroups merge names) p := by
  rw [mergeGroups_eq]
  unfold keyOf idxOf coarseKey coarseIdx
  rw [List.map_map, List.map_map]
  exact ⟨rfl, rfl⟩

theorem MergeOk.merging {t : Tensor ν σ α} (ht : WF t) {merge : List (ν × List ν)}
    (h : MergeOk t.names merge) (applyParity : Bool) (excludeMerge excludeReverse : List ν) :
    Merging t (mergeArgs t merge applyParity excludeMerge excludeReverse) where
  rename := rfl
  split := rfl
  reversed := rfl
  cut := rfl
  wf := ht
  newNodup := (h.existing ht.nodup).nodup_target
  perm := (h.existing ht.nodup).perm

end TAT
