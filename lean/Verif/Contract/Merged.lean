import Verif.Contract.Product
import Verif.EdgeMisc.Merge

/-!
# The tensors merged to matrices
-/

set_option linter.unusedSectionVars false

namespace TAT

variable {ν σ α : Type} [LinearOrder ν] [TatSym σ]

/-- Reversing and merging, nothing else. -/
structure Gather (t : Tensor ν σ α) (a : EdgeArgs ν σ) : Prop where
  rename : a.rename = []
  split : a.split = []
  cut : a.cut = []
  wf : Shaped t
  pruned : a.merge = [] → prunedEdges t.core.edges = t.core.edges
  newNodup : a.newNames.Nodup
  perm : t.names.Perm (opM a).flatten

section gather
variable {t : Tensor ν σ α} {a : EdgeArgs ν σ}

theorem Gather.names (h : Gather t a) : opNames t a = t.names := by
  unfold opNames
  rw [h.rename]
  exact (List.map_congr_left fun n _ => renameOne_nil n).trans (List.map_id _)

theorem Gather.opCut (h : Gather t a) : opCut t a = t.core.edges := by
  unfold TAT.opCut edgeBeforeSplit
  rw [h.cut]; rfl

theorem Gather.opS (h : Gather t a) : opS t a = t.names.map fun n => [n] := by
  rw [opS_noSplit h.split, h.names]

theorem Gather.opFine (h : Gather t a) : opFine t a = edgeOf t := by
  unfold TAT.opFine
  rw [h.split, fineEdges_nil, h.names, h.opCut]
  rfl

theorem Gather.opMap (h : Gather t a) : opMap t a = mapOf t := by
  funext n
  unfold TAT.opMap
  rw [h.opFine]; rfl

theorem Gather.ok (h : Gather t a) : OpOk t a where
  wf := h.wf
  pruned := h.pruned
  nodup := by rw [h.opS, flatten_singletons]; exact h.wf.nodup
  perm := by rw [h.opS, flatten_singletons]; exact h.perm
  newNodup := h.newNodup
  parts := by rw [h.split]; simp
  fits := by
    intro x _ parts hf
    rw [h.split] at hf
    simp [OMap.find?] at hf
  cutKeys := by
    intro _ _
    rw [h.opCut]
    exact List.forall₂_same.2 fun _ _ => rfl

theorem gather_spec [Neg α] [Zero α] (env : Env σ α) (h : Gather t a) :
    ∃ r, edgeOperator env t a = .ok r ∧ r.names = a.newNames ∧ WF r ∧
      r.core.edges = prunedEdges (opEdges env.garbage t a) ∧
      ∀ p, ValidPos t p →
        elemAt r.core (coarseKey (opM a) p) (coarseIdx (mapOf t) (opM a) p) =
          (elem t p).map (applySign (opSign t a p)) := by
  obtain ⟨r, h1, h2, h3, h4, h5, _⟩ := edgeOperator_spec env h.ok
  refine ⟨r, h1, h2, h3, h4, fun p hv => ?_⟩
  rw [validPos_iff' h.wf] at hv
  have hf : FineOk (TAT.opMap t a) (TAT.opS t a).flatten p := by
    rw [h.opMap, h.opS, flatten_singletons]; exact hv
  have := h5 p hf (h.ok.in_noSplit h.split hf.keyOk)
  rw [h.opMap, h.opS, coarseKey_singles, coarseIdx_singles (mapOf_sorted' h.wf)] at this
  exact this

theorem Gather.edgeAt (h : Gather t a) (garbage : ℕ → Bool) {edges : List (Edge σ)}
    (hr : edges = prunedEdges (opEdges garbage t a)) (i : ℕ) (hi : i < edges.length)
    (hi' : i < (opM a).length) :
    (∀ s ∈ OMap.keys edges[i].map, dimOf edges[i] s = mergedDim ((opM a)[i].map (mapOf t)) s) ∧
    edges[i].arrow = (groupEdge (garbage i) ((opM a)[i].map (opReversed t a))).arrow := by
  have hs := h.ok.edgesSorted garbage
  have hi2 : i < (prunedEdges (opEdges garbage t a)).length := by
    rw [pruned_length, opEdges_length, ← opM_length]; exact hi'
  subst hr
  refine ⟨fun s hk => ?_, ?_⟩
  · rw [dims_pruned hs hi2 hk, opEdges_getElem,
      (groupEdge_map (h.ok.sortedM (List.getElem_mem hi'))).2.2, opGroup_maps, h.opMap]
  · simp only [prunedEdges, List.getElem_mapIdx]
    simp only [opEdges_getElem]

theorem Gather.coarse_keys (h : Gather t a) (garbage : ℕ → Bool) {p : ν → σ × ℕ}
    (hp : KeyOk (mapOf t) (opM a).flatten p) :
    List.Forall₂ (fun e s => s ∈ OMap.keys e.map) (prunedEdges (opEdges garbage t a))
      (coarseKey (opM a) p) := by
  have h1 := h.ok.destKey garbage (p := p) (by rw [h.opMap]; exact hp.1)
  exact (pruned_keys (h.ok.edgesSorted garbage) h1 (by rw [coarseKey_sum]; exact hp.2)).1

end gather

/-- What is known of a tensor whose edges `G` and `K` were merged to `F` and `C`. -/
structure TwoView (t : Tensor ν σ α) (G K : List ν) (right : Bool) (sign : (ν → σ × ℕ) → ℤ)
    [Neg α] (F C : Edge σ) (r : Tensor ν σ α) : Prop where
  wf : WF r
  edges : r.core.edges = pairOf right F C
  keys : ∀ p, KeyOk (mapOf t) (G ++ K) p →
    (keyOf G p).sum ∈ OMap.keys F.map ∧ (keyOf K p).sum ∈ OMap.keys C.map
  dimF : ∀ s ∈ OMap.keys F.map, dimOf F s = mergedDim (G.map (mapOf t)) s
  dimC : ∀ s ∈ OMap.keys C.map, dimOf C s = mergedDim (K.map (mapOf t)) s
  elem : ∀ p, ValidPos t p →
    elemAt r.core (pairOf right (keyOf G p).sum (keyOf K p).sum)
      (pairOf right (groupIdx (mapOf t) G p) (groupIdx (mapOf t) K p)) =
    (elem t p).map (applySign (sign p))

theorem two_spec [Neg α] [Zero α] (env : Env σ α) {t : Tensor ν σ α} {a : EdgeArgs ν σ}
    (h : Gather t a) {right : Bool} {G K : List ν} (hM : opM a = pairOf right G K) :
    ∃ r F C b, edgeOperator env t a = .ok r ∧ TwoView t G K right (opSign t a) F C r ∧
      F.arrow = (groupEdge b (G.map (opReversed t a))).arrow := by
  obtain ⟨r, h1, h2, h3, h4, h5⟩ := gather_spec env h
  have hl : r.core.edges.length = 2 := by
    rw [h4, pruned_length, opEdges_length, ← opM_length, hM]
    cases right <;> rfl
  have hE := h.edgeAt env.garbage h4
  have hk := fun p hp => h.coarse_keys env.garbage (p := p) hp
  have hpm : ∀ p, KeyOk (mapOf t) (G ++ K) p → KeyOk (mapOf t) (opM a).flatten p := by
    intro p hp
    refine hp.perm ?_
    rw [hM]
    unfold pairOf
    cases right
    · simpa using List.perm_append_comm
    · simp
  rw [← h4] at hk
  match hed : r.core.edges, hl with
  | [x, y], _ =>
    cases right
    · refine ⟨r, y, x, env.garbage 1, h1, ⟨h3, hed, fun p hp => ?_, fun s hs => ?_, fun s hs => ?_,
        fun p hp => ?_⟩, ?_⟩
      · have := hk p (hpm p hp)
        rw [hed, hM] at this
        simp only [pairOf, coarseKey, Bool.false_eq_true, if_false, List.map_cons, List.map_nil,
          List.forall₂_cons, List.forall₂_nil_right_iff, and_true] at this
        exact ⟨this.2, this.1⟩
      · have := (hE 1 (by simp [hed]) (by simp [hM, pairOf])).1
        simp only [hed, hM, pairOf] at this
        exact this s hs
      · have := (hE 0 (by simp [hed]) (by simp [hM, pairOf])).1
        simp only [hed, hM, pairOf] at this
        exact this s hs
      · have := h5 p hp
        rw [hM] at this
        exact this
      · have := (hE 1 (by simp [hed]) (by simp [hM, pairOf])).2
        simp only [hed, hM, pairOf] at this
        exact this
    · refine ⟨r, x, y, env.garbage 0, h1, ⟨h3, hed, fun p hp => ?_, fun s hs => ?_, fun s hs => ?_,
        fun p hp => ?_⟩, ?_⟩
      · have := hk p (hpm p hp)
        rw [hed, hM] at this
        simp only [pairOf, coarseKey, if_true, List.map_cons, List.map_nil,
          List.forall₂_cons, List.forall₂_nil_right_iff, and_true] at this
        exact this
      · have := (hE 0 (by simp [hed]) (by simp [hM, pairOf])).1
        simp only [hed, hM, pairOf] at this
        exact this s hs
      · have := (hE 1 (by simp [hed]) (by simp [hM, pairOf])).1
        simp only [hed, hM, pairOf] at this
        exact this s hs
      · have := h5 p hp
        rw [hM] at this
        exact this
      · have := (hE 0 (by simp [hed]) (by simp [hM, pairOf])).2
        simp only [hed, hM, pairOf] at this
        exact this

end TAT
