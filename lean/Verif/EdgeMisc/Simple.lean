import Verif.EdgeMisc.Model
import Verif.EdgeOp.Surj

/-!
# Operations which neither split nor merge
-/

set_option linter.unusedSectionVars false

namespace TAT

variable {ν σ α : Type} [LinearOrder ν] [TatSym σ]

theorem renameOne_nil (n : ν) : renameOne [] n = n := rfl

section simple
variable {t : Tensor ν σ α} {a : EdgeArgs ν σ}

/-- Nothing but reversal and transposition. -/
structure Plain (a : EdgeArgs ν σ) : Prop where
  rename : a.rename = []
  split : a.split = []
  merge : a.merge = []
  cut : a.cut = []

theorem Plain.names (h : Plain a) : opNames t a = t.names := by
  unfold opNames
  rw [h.rename]
  exact (List.map_congr_left fun n _ => renameOne_nil n).trans (List.map_id _)

theorem Plain.opCut (h : Plain a) : opCut t a = t.core.edges := by
  unfold TAT.opCut edgeBeforeSplit
  rw [h.cut]; rfl

theorem Plain.opS (h : Plain a) : opS t a = t.names.map fun n => [n] := by
  rw [opS_noSplit h.split, h.names]

theorem Plain.opM (h : Plain a) : opM a = a.newNames.map fun n => [n] := opM_noMerge h.merge

theorem Plain.opFine (h : Plain a) : opFine t a = edgeOf t := by
  unfold TAT.opFine
  rw [h.split, fineEdges_nil, h.names, h.opCut]
  rfl

theorem Plain.opMap (h : Plain a) : opMap t a = mapOf t := by
  funext n
  unfold TAT.opMap
  rw [h.opFine]; rfl

theorem Plain.ok (h : Plain a) (ht : WF t) (hp : t.names.Perm a.newNames) : OpOk t a where
  wf := ht.shaped
  pruned := fun _ => ht.pruned
  nodup := by rw [h.opS, flatten_singletons]; exact ht.nodup
  perm := by rw [h.opS, h.opM, flatten_singletons, flatten_singletons]; exact hp
  newNodup := hp.nodup_iff.1 ht.nodup
  parts := by rw [h.split]; simp
  fits := by
    intro x _ parts hf
    rw [h.split] at hf
    simp [OMap.find?] at hf
  cutKeys := by
    intro _ _
    rw [h.opCut]
    exact List.forall₂_same.2 fun _ _ => rfl

theorem zipIdx_map_fst {β γ : Type} (l : List β) (f : β → γ) (k : ℕ) :
    ((l.zipIdx k).map fun x => f x.1) = l.map f := by
  induction l generalizing k with
  | nil => rfl
  | cons x l ih => rw [List.zipIdx_cons, List.map_cons, ih, List.map_cons]

theorem Plain.opEdges (h : Plain a) (garbage : ℕ → Bool) :
    opEdges garbage t a = a.newNames.map (reversedEdge a.reversed (edgeOf t)) := by
  unfold TAT.opEdges
  rw [h.opM]
  have : ∀ x ∈ (a.newNames.map fun n => [n]).zipIdx 0,
      groupEdge (garbage x.2) (x.1.map (opReversed t a)) =
      (fun g : List ν => (g.map (opReversed t a)).headD {}) x.1 := by
    intro x hx
    obtain ⟨i, hi, hxe⟩ := List.mem_iff_getElem.1 hx
    rw [List.getElem_zipIdx] at hxe
    subst hxe
    simp only [List.getElem_map, List.map_cons, List.map_nil, List.headD_cons]
    rfl
  rw [List.map_congr_left this]
  refine (zipIdx_map_fst _ (fun g : List ν => (g.map (opReversed t a)).headD {}) 0).trans ?_
  rw [List.map_map]
  apply List.map_congr_left
  intro n _
  unfold opReversed
  rw [h.opFine]
  rfl

theorem reversedEdge_map (R : List ν) (e : ν → Edge σ) (n : ν) :
    (reversedEdge R e n).map = (e n).map := by
  unfold reversedEdge reverseOne
  split
  · split <;> rfl
  · rfl

theorem Plain.opSign (h : Plain a) (p : ν → σ × ℕ) :
    opSign t a p = if TatSym.isFermi σ then
      exchangeOf (oddAt p) t.names a.newNames *
      reverseOf (oddAt p) (fun n => decide (n ∈ a.reversed) &&
        marked a.applyParity a.excludeReverse n) t.names else 1 := by
  unfold TAT.opSign
  congr 1
  rw [h.opS, h.opM, flatten_singletons, flatten_singletons,
    groupsOf_short _ _ _ (by simp), groupsOf_short _ _ _ (by simp), mul_one, mul_one, List.map_map,
    List.prod_eq_one, mul_one]
  intro x hx
  obtain ⟨n, _, rfl⟩ := List.mem_map.1 hx
  simp [reverseOf, flipped_single]

/-- Reversal and transposition by name. -/
theorem plain_spec [Neg α] [Zero α] (env : Env σ α) (h : Plain a) (ht : WF t)
    (hp : t.names.Perm a.newNames) :
    ∃ r, edgeOperator env t a = .ok r ∧ r.names = a.newNames ∧ WF r ∧
      r.core.edges = a.newNames.map (reversedEdge a.reversed (edgeOf t)) ∧
      ∀ p, ValidPos t p → elem r p = (elem t p).map (applySign
        (if TatSym.isFermi σ then
          exchangeOf (oddAt p) t.names a.newNames *
          reverseOf (oddAt p) (fun n => decide (n ∈ a.reversed) &&
            marked a.applyParity a.excludeReverse n) t.names else 1)) := by
  have hok := h.ok ht hp
  obtain ⟨r, h1, h2, h3, h4, h5, _⟩ := edgeOperator_spec env hok
  have hed : r.core.edges = a.newNames.map (reversedEdge a.reversed (edgeOf t)) := by
    rw [h4, h.opEdges]
    have := ht.pruned
    rw [edges_named ht] at this
    exact prunedEdges_perm ht.nodup hp (fun n _ => (reversedEdge_map _ _ n).symm) this
  refine ⟨r, h1, h2, h3, hed, fun p hv => ?_⟩
  rw [validPos_iff ht] at hv
  have hf : FineOk (TAT.opMap t a) (TAT.opS t a).flatten p := by
    rw [h.opMap, h.opS, flatten_singletons]; exact hv
  have := h5 p hf (hok.in_noSplit h.split hf.keyOk)
  rw [h.opSign, h.opM, h.opS, coarseKey_singles, coarseKey_singles, h.opMap,
    coarseIdx_singles (fun n hn => mapOf_sorted ht n (hp.mem_iff.2 hn)),
    coarseIdx_singles (mapOf_sorted ht)] at this
  unfold elem
  rw [h2]
  exact this

/-- Valid positions do not depend on the order of the edges. -/
theorem validPos_of_edges {t r : Tensor ν σ α} (ht : WF t) (hr : WF r) (hp : t.names.Perm r.names)
    {e : ν → Edge σ} (he : r.core.edges = r.names.map e)
    (hm : ∀ n ∈ t.names, (e n).map = mapOf t n) {p : ν → σ × ℕ} :
    ValidPos r p ↔ ValidPos t p := by
  rw [validPos_iff ht, validPos_iff hr]
  have hm' : ∀ n ∈ r.names, mapOf r n = mapOf t n := by
    intro n hn
    unfold mapOf
    rw [edgeOf_unique hr he n hn]
    exact hm n (hp.mem_iff.2 hn)
  rw [fineOk_congr hm']
  exact ⟨fun h => h.perm hp.symm, fun h => h.perm hp⟩

end simple

end TAT
