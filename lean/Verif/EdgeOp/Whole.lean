import Verif.EdgeOp.Main

/-!
# The meaning of `edge_operator`
-/

set_option linter.unusedSectionVars false

namespace TAT

variable {ν σ α : Type}

section parts
variable [LinearOrder ν] [TatSym σ] {t : Tensor ν σ α} {a : EdgeArgs ν σ}

theorem opMap_reversed (t : Tensor ν σ α) (a : EdgeArgs ν σ) :
    (fun n => (opReversed t a n).map) = opMap t a := funext (opReversed_map t a)

theorem opM_length (a : EdgeArgs ν σ) : (opM a).length = a.newNames.length := by
  simp [opM, mergeGroups]

/-- The merge stage as `edge_operator` runs it. -/
def opMerge (garbage : ℕ → Bool) (t : Tensor ν σ α) (a : EdgeArgs ν σ) : MergeStage σ :=
  mergeStage garbage a.merge.isEmpty a.newNames.length (flagsOf (opM a))
    ((opM a).flatten.map (opReversed t a))

theorem opMerge_eq (garbage : ℕ → Bool) (t : Tensor ν σ α) (a : EdgeArgs ν σ) :
    (opMerge garbage t a).before.map Edge.map = (opM a).flatten.map (opMap t a) ∧
    (opMerge garbage t a).flag = (opM a).flatMap (fun g => groupFlags (g.map (opReversed t a))) ∧
    (opMerge garbage t a).result = opEdges garbage t a ∧
    (a.merge.isEmpty = false → (opMerge garbage t a).offset = (opM a).map (fun g =>
      if g.length = 1 then [] else (mergeGroup (g.map (opMap t a))).2)) := by
  have := mergeStage_eq garbage a.merge a.newNames (opReversed t a)
  rw [opMap_reversed] at this
  exact this

theorem OpOk.nodupM (h : OpOk t a) : (opM a).flatten.Nodup := h.perm.nodup_iff.1 h.nodup

theorem OpOk.sortedOnM (h : OpOk t a) : ∀ n ∈ (opM a).flatten, OMap.Sorted (opMap t a n) :=
  fun n hn => h.sorted n ((h.mem_iff n).2 hn)

/-- The table of the destination side. -/
theorem OpOk.dest (h : OpOk t a) (garbage : ℕ → Bool) (junk : List σ → ℕ → α) :
    IsTable (opMap t a) (opM a) (fun _ => True)
      (if !a.merge.isEmpty then
        locateAll (opMerge garbage t a).offset a.newNames.length (flagsOf (opM a))
          (opMerge garbage t a).before
      else locateBlocks a.newNames.length
        (freshBlocks junk ((opEdges garbage t a).map Edge.map))) := by
  obtain ⟨m1, m2, m3, m4⟩ := opMerge_eq garbage t a
  by_cases hm : a.merge.isEmpty = true
  · rw [if_neg (by simp [hm])]
    have hme : a.merge = [] := List.isEmpty_iff.1 hm
    have hM : opM a = a.newNames.map fun n => [n] := by unfold opM; rw [hme]; rfl
    have hfl : (opM a).flatten = a.newNames := by rw [hM, flatten_singletons]
    have hE : (opEdges garbage t a).map Edge.map = a.newNames.map (opMap t a) := by
      apply List.ext_getElem
      · simp [opEdges, hM]
      · intro i h1 h2
        have hi : i < a.newNames.length := by simpa using h2
        simp only [List.getElem_map]
        rw [opEdges_getElem]
        simp only [hM, List.getElem_map, List.map_singleton]
        exact opReversed_map t a _
    rw [hE]
    rw [hM]
    refine locateBlocks_table (hfl ▸ h.nodupM) (fun n hn => h.sortedOnM n (by rw [hfl]; exact hn)) _
      (fun k => ?_) _ fun _ _ => trivial
    unfold freshBlocks OMap.keys
    rw [List.map_map]
    rfl
  · have hm' : a.merge.isEmpty = false := by simpa using hm
    rw [if_pos (by simp [hm']), ← opM_length]
    refine locateAll_table h.nodupM _ _ m1 _ ?_ fun _ _ hc => absurd trivial hc
    intro p hp _ x hx
    obtain ⟨_, hx2, hx3⟩ := List.mem_zipIdx hx
    simp only [Nat.sub_zero] at hx3
    have hi : x.2 < (opM a).length := by omega
    rw [hx3]
    have hin : ∀ n ∈ (opM a)[x.2], n ∈ (opM a).flatten := fun n hn =>
      List.mem_flatten.2 ⟨_, List.getElem_mem hi, hn⟩
    have hkeys := group_keys (fm := opMap t a) (g := (opM a)[x.2]) (p := p)
      fun n hn => hp.1 n (hin n hn)
    have hso : ∀ m ∈ (opM a)[x.2].map (opMap t a), OMap.Sorted m := by
      intro m hmm
      obtain ⟨n, hn, rfl⟩ := List.mem_map.1 hmm
      exact h.sortedOnM n (hin n hn)
    by_cases h1 : ∃ n, (opM a)[x.2] = [n]
    · obtain ⟨n, hn⟩ := h1
      rw [hn] at hso ⊢
      simp only [keyOf, List.map_singleton, groupEntry, List.sum_singleton]
      rw [mergeOffset_single (hso _ (by simp))]
    · have hl : (opM a)[x.2].length ≠ 1 := by
        intro hc
        exact h1 (List.length_eq_one_iff.1 hc)
      rw [groupEntry_ne _ _ (by rw [keyOf_length]; exact hl), m4 hm',
        List.getD_eq_getElem _ _ (by simpa using hi), List.getElem_map, if_neg hl,
        mergeGroup_offset hso hkeys]

/-- The blocks of the result before copying. -/
theorem OpOk.fresh (h : OpOk t a) (garbage : ℕ → Bool) (junk : List σ → ℕ → α) :
    WF (⟨a.newNames, prunedEdges (opEdges garbage t a),
      freshBlocks junk ((opEdges garbage t a).map Edge.map)⟩ : Tensor ν σ α) := by
  have := wf_fresh junk a.newNames (opEdges garbage t a) false (h.edgesSorted garbage)
    (opEdges_length garbage t a).symm h.newNodup
  have e : arrowed (opEdges garbage t a) false = opEdges garbage t a := by simp [arrowed]
  rwa [e] at this

theorem Shaped.block_of_keys {r : Tensor ν σ α} (h : Shaped r) {k : List σ}
    (hk : List.Forall₂ (fun e s => s ∈ OMap.keys e.map) r.core.edges k) (h0 : k.sum = 0) :
    ∃ data, OMap.find? r.core.blocks k = some data ∧
      data.length = (dimsOf r.core.edges k).prod := by
  obtain ⟨data, hd⟩ := Option.isSome_iff_exists.1 (OMap.find?_isSome.2 (h.mem_keys.2 ⟨hk, h0⟩))
  exact ⟨data, hd, h.length (OMap.mem_of_find? hd)⟩

theorem WF.block_of_keys {r : Tensor ν σ α} (h : WF r) {k : List σ}
    (hk : List.Forall₂ (fun e s => s ∈ OMap.keys e.map) r.core.edges k) (h0 : k.sum = 0) :
    ∃ data, OMap.find? r.core.blocks k = some data ∧
      data.length = (dimsOf r.core.edges k).prod :=
  h.shaped.block_of_keys hk h0

/-- The copy plan `edge_operator` builds. -/
def opPlan (env : Env σ α) (t : Tensor ν σ α) (a : EdgeArgs ν σ) : CopyPlan σ α where
  source := t.core
  edgesBefore := (opS t a).flatten.map (opReversed t a)
  s2d := (opS t a).flatten.map fun n => (opM a).flatten.idxOf n
  d2s := (opM a).flatten.map fun n => (opS t a).flatten.idxOf n
  splitFlag := flagsOf (opS t a)
  mergeFlag := flagsOf (opM a)
  reversedBefore := reverseFlags a.reversed (opS t a).flatten
  reversedAfter := (opMerge env.garbage t a).flag
  splitMark := marks a.applyParity a.excludeSplit (opNames t a)
  reverseMark := marks a.applyParity a.excludeReverse (opS t a).flatten
  reverseMergeMark := marks a.applyParity a.excludeReverseMerge (opM a).flatten
  mergeMark := marks a.applyParity a.excludeMerge a.newNames
  destination := if !a.merge.isEmpty then
      locateAll (opMerge env.garbage t a).offset a.newNames.length (flagsOf (opM a))
        (opMerge env.garbage t a).before
    else locateBlocks a.newNames.length
      (freshBlocks env.junk ((opEdges env.garbage t a).map Edge.map))
  edgesAfter := prunedEdges (opEdges env.garbage t a)

/-- The table of source blocks `edge_operator` runs over. -/
def opSource (t : Tensor ν σ α) (a : EdgeArgs ν σ) : List (List σ × (List σ × List ℕ)) :=
  if !a.split.isEmpty || (TatSym.isFermi σ && !a.reversed.isEmpty) then
    locateAll (splitStage a.split (opNames t a) (opCut t a)).offset t.names.length
      (splitStage a.split (opNames t a) (opCut t a)).flag
      (splitStage a.split (opNames t a) (opCut t a)).edges
  else locateBlocks t.names.length t.core.blocks

/-- The result before copying. -/
def opFresh [Zero α] (env : Env σ α) (t : Tensor ν σ α) (a : EdgeArgs ν σ) : Tensor ν σ α :=
  if TatSym.isNoSym σ then ⟨a.newNames, prunedEdges (opEdges env.garbage t a),
      freshBlocks env.junk ((opEdges env.garbage t a).map Edge.map)⟩
  else zero ⟨a.newNames, prunedEdges (opEdges env.garbage t a),
      freshBlocks env.junk ((opEdges env.garbage t a).map Edge.map)⟩

/-- Nothing to do: the condition of the shortcut at edge_operator.hpp 131-138. -/
def opShortcut (t : Tensor ν σ α) (a : EdgeArgs ν σ) : Bool :=
  isSameVector (opNames t a) a.newNames && a.split.isEmpty && a.reversed.isEmpty &&
    a.merge.isEmpty && a.cut.isEmpty

/-- `edge_operator` reduced to its main loop. -/
theorem edgeOperator_eq [Neg α] [Zero α] (env : Env σ α) (h : OpOk t a)
    (hsc : opShortcut t a = false) :
    edgeOperator env t a =
      ((opSource t a).foldlM (copyBlock env.pf (opPlan env t a)) (opFresh env t a).core.blocks).bind
        fun blocks => .ok ⟨a.newNames, ⟨prunedEdges (opEdges env.garbage t a), blocks⟩⟩ := by
  obtain ⟨s1, s2, s3⟩ := splitStage_eq a.split (opNames t a) (opCut t a) h.lenCut
  have hedges : (splitStage a.split (opNames t a) (opCut t a)).edges =
      (opS t a).flatten.map (opFine t a) := by
    rw [s2, ← edgeNamed_map h.fineNodup, ← splitGroups_flatten _ _ _ h.lenCut]
    rfl
  have s1' : (splitStage a.split (opNames t a) (opCut t a)).names = (opS t a).flatten := s1
  have s3' : (splitStage a.split (opNames t a) (opCut t a)).flag = flagsOf (opS t a) := s3
  have hplan : planLoop (nameToIndex (opS t a).flatten) (opM a).flatten =
      .ok ((opM a).flatten.map fun n => (opS t a).flatten.idxOf n) :=
    planLoop_ok h.nodup fun n hn => (h.mem_iff n).2 hn
  have hinv := scatter_plan h.nodup h.nodupM h.perm
  have hgather : gather ({} : Edge σ) ((opM a).flatten.map fun n => (opS t a).flatten.idxOf n)
      ((opS t a).flatten.map (opReversed t a)) = (opM a).flatten.map (opReversed t a) :=
    gather_perm _ _ fun n hn => (h.mem_iff n).2 hn
  have hrev : reverseEdges a.reversed (opS t a).flatten ((opS t a).flatten.map (opFine t a)) =
      (opS t a).flatten.map (opReversed t a) := reverseEdges_eq _ _ _
  have hcore := newCore_eq env.junk (opEdges env.garbage t a) false (h.edgesSorted env.garbage)
  have e : arrowed (opEdges env.garbage t a) false = opEdges env.garbage t a := by simp [arrowed]
  rw [e] at hcore
  have hres := (opMerge_eq env.garbage t a).2.2.1
  have hn1 : nameBeforeSplit a.rename t.names = opNames t a := nameBeforeSplit_eq _ _
  have hcheck : checkValidName a.newNames (prunedEdges (opEdges env.garbage t a)).length = .ok () :=
    (checkValidName_ok _ _).2 ⟨by rw [pruned_length, opEdges_length], h.newNodup⟩
  have hmn : mergeNames a.merge a.newNames = ((opM a).flatten, flagsOf (opM a)) := mergeNames_eq _ _
  have hc : edgeBeforeSplit a.cut t.names t.core.edges = opCut t a := rfl
  have hlen : ¬ (opS t a).flatten.length ≠ (opM a).flatten.length := by
    rw [h.perm.length_eq]; simp
  unfold edgeOperator
  simp only [hn1, hc, hmn, s1']
  rw [show (isSameVector (opNames t a) a.newNames && a.split.isEmpty && a.reversed.isEmpty &&
    a.merge.isEmpty && a.cut.isEmpty) = false from hsc, if_neg (by simp), if_neg hlen, hplan]
  simp only [Outcome.bind]
  simp only [hedges, hrev, hgather, hinv]
  have hom : mergeStage env.garbage a.merge.isEmpty a.newNames.length (flagsOf (opM a))
    ((opM a).flatten.map (opReversed t a)) = opMerge env.garbage t a := rfl
  simp only [hom, hres, hcore, hcheck]
  have hsrc : (if (!a.split.isEmpty || (TatSym.isFermi σ && !a.reversed.isEmpty)) = true then
      locateAll (splitStage a.split (opNames t a) (opCut t a)).offset t.names.length
        (splitStage a.split (opNames t a) (opCut t a)).flag ((opS t a).flatten.map (opFine t a))
      else locateBlocks t.names.length t.core.blocks) = opSource t a := by
    unfold opSource; rw [hedges]
  rw [hsrc, s3']
  rfl

theorem OpOk.copyOk [Zero α] (h : OpOk t a) (env : Env σ α) :
    CopyOk (opMap t a) (opS t a) (opM a) (opIn t a) (opPlan env t a) where
  nodup := h.nodup
  perm := h.perm
  sorted := h.sorted
  edgesBefore := by
    change ((opS t a).flatten.map (opReversed t a)).map Edge.map = _
    exact opGroup_maps t a _
  s2d := rfl
  d2s := rfl
  splitFlag := rfl
  mergeFlag := rfl
  dest := h.dest env.garbage env.junk
  sourceBlock := fun _ hp hok => h.sourceBlock hp hok
  sourceKeys := fun _ _ hok => h.sourceKeys hok
  sourceDims := fun _ _ hok => h.sourceDims hok
  destKeys := fun p hp => (pruned_keys (h.edgesSorted env.garbage) (h.destKey env.garbage hp.1)
    (by rw [coarseKey_sum]; exact hp.2)).1
  destDims := by
    intro p hp
    have h1 := (pruned_keys (h.edgesSorted env.garbage) (h.destKey env.garbage hp.1)
      (by rw [coarseKey_sum]; exact hp.2)).2
    rw [h.destDim] at h1
    change dimsOf (opPlan env t a).edgesAfter _ = _ at h1
    have hl : (opPlan env t a).edgesAfter.length = (opM a).length := by
      change (prunedEdges _).length = _
      rw [pruned_length]; simp [opEdges]
    refine forall2_getElem.2 ⟨hl, fun i hi hi' => ?_⟩
    have := congrArg (fun l => l[i]?) h1
    simp only [dimsOf, coarseKey] at this
    rw [List.getElem?_eq_getElem (by simp; omega), List.getElem?_eq_getElem (by simpa using hi'),
      Option.some.injEq, List.getElem_zipWith, List.getElem_map, List.getElem_map] at this
    exact le_of_eq this.symm
  okCongr := by
    intro p q hk hp
    have : coarseKey (opS t a) p = coarseKey (opS t a) q := by
      refine List.map_congr_left fun g hg => ?_
      congr 1
      refine List.map_congr_left fun n hn => ?_
      exact List.map_inj_left.1 hk n (List.mem_flatten.2 ⟨g, hg, hn⟩)
    unfold opIn at *
    rwa [← this]

theorem blockParity_opPlan (env : Env σ α) (t : Tensor ν σ α) (a : EdgeArgs ν σ) (p : ν → σ × ℕ) :
    blockParity (opPlan env t a) (keyOf (opS t a).flatten p) (keyOf (opM a).flatten p) =
      opParity t a p := by
  unfold blockParity opParity
  have := (opMerge_eq env.garbage t a).2.1
  simp only [opPlan, this]

/-- What `edge_operator` computes, with the shortcut not taken. -/
theorem edgeOperator_main [Neg α] [Zero α] (env : Env σ α) (h : OpOk t a)
    (hsc : opShortcut t a = false) :
    ∃ r, edgeOperator env t a = .ok r ∧ r.names = a.newNames ∧ WF r ∧
      r.core.edges = prunedEdges (opEdges env.garbage t a) ∧
      (∀ q, FineOk (opMap t a) (opS t a).flatten q → opIn t a q →
        elemAt r.core (coarseKey (opM a) q) (coarseIdx (opMap t a) (opM a) q) =
          (elemAt t.core (coarseKey (opS t a) q) (coarseIdx (opMap t a) (opS t a) q)).map
            (signed (opParity t a q))) ∧
      (∀ q, FineOk (opMap t a) (opS t a).flatten q → ¬ opIn t a q → TatSym.isNoSym σ = false →
        elemAt r.core (coarseKey (opM a) q) (coarseIdx (opMap t a) (opM a) q) = some 0) := by
  have hf := h.fresh env.garbage env.junk
  have hzw : WF (opFresh env t a) := by
    unfold opFresh
    split
    · exact hf
    · rw [zero_eq]; exact mapTensor_wf _ hf
  have hze : (opFresh env t a).core.edges = prunedEdges (opEdges env.garbage t a) := by
    unfold opFresh
    split
    · rfl
    · rw [zero_eq]; rfl
  have hzn : (opFresh env t a).names = a.newNames := by
    unfold opFresh
    split
    · rfl
    · rw [zero_eq]; rfl
  have hco := h.copyOk env
  have hkM : ∀ p, KeyOk (opMap t a) (opM a).flatten p →
      List.Forall₂ (fun e s => s ∈ OMap.keys e.map) (opFresh env t a).core.edges
        (coarseKey (opM a) p) := by
    intro p hp
    rw [hze]
    exact hco.destKeys p hp
  obtain ⟨blocks', b1, b2, b3, b4⟩ := copyLoop_spec hco env.pf (opSource t a) h.source
    hzw.blocksSorted (fun p hp => by
      have := hzw.block_of_keys (hkM p hp) (by rw [coarseKey_sum]; exact hp.2)
      rw [hze] at this
      exact this)
  refine ⟨⟨a.newNames, ⟨prunedEdges (opEdges env.garbage t a), blocks'⟩⟩, ?_, rfl, ?_, rfl, ?_, ?_⟩
  · rw [edgeOperator_eq env h hsc, b1]; rfl
  · have hb := hzw.blocks
    rw [hze] at hb
    exact ⟨hf.rank, hf.nodup, hf.sorted, by rw [← hb]; exact b2, hf.pruned⟩
  · intro q hq hin
    have := b3 q hq hin
    rw [blockParity_opPlan] at this
    exact this
  · intro q hq hin hns
    have := b4 q hq hin
    refine this.trans ?_
    have hqM : FineOk (opMap t a) (opM a).flatten q := by
      refine ⟨fun n hn => hq.1 n ((h.mem_iff n).2 hn), ?_⟩
      rw [← hq.2]
      exact ((h.perm.map _).sum_eq).symm
    have hbox := coarse_inBox h.sortedOnM hqM.1 (hco.destDims q hqM.keyOk)
    obtain ⟨data, hd, hl⟩ := hf.block_of_keys (k := coarseKey (opM a) q)
      (hco.destKeys q hqM.keyOk) (by rw [coarseKey_sum]; exact hqM.2)
    unfold elemAt
    dsimp only
    have : (opFresh env t a).core.blocks = (freshBlocks env.junk
        ((opEdges env.garbage t a).map Edge.map)).map fun b => (b.1, b.2.map fun _ => (0 : α)) := by
      unfold opFresh
      rw [if_neg (by simp [hns]), zero_eq]
      rfl
    rw [this, OMap.find?_map_val _ (fun _ (d : List α) => d.map fun _ => (0 : α)), hd]
    simp only [Option.map_some, Option.bind_some]
    have hlt := rowMajor_lt hbox
    rw [List.getElem?_eq_getElem (by rw [List.length_map, hl]; exact hlt)]
    simp

end parts

end TAT
