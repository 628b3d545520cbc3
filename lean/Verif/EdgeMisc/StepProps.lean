import Verif.EdgeMisc.Steps
import Verif.EdgeMisc.MergeProps

/-!
# C22: one combined operation equals its steps
-/

set_option linter.unusedSectionVars false

namespace TAT

variable {ν σ α : Type} [LinearOrder ν] [TatSym σ]

section split
variable {t : Tensor ν σ α} {a : EdgeArgs ν σ}

theorem find?_existing (names : List ν) (split : List (ν × List (ν × List (σ × ℕ)))) {n : ν}
    (hn : n ∈ names) : OMap.find? (splitExisting names split) n = OMap.find? split n := by
  unfold splitExisting
  refine (find?_filter_key split (fun k => decide (k ∈ names)) n).trans ?_
  rw [if_pos (decide_eq_true hn)]

theorem splitGroups_existing (names : List ν) (split : List (ν × List (ν × List (σ × ℕ)))) :
    splitGroups (splitExisting names split) names = splitGroups split names := by
  unfold splitGroups
  apply List.map_congr_left
  intro n hn
  rw [find?_existing names split hn]

theorem splitTarget_existing (names : List ν) (split : List (ν × List (ν × List (σ × ℕ)))) :
    splitTarget names (splitExisting names split) = (splitGroups split names).flatten := by
  rw [← splitGroups_existing]
  exact splitTarget_eq _ _

theorem fineEdges_existing (names : List ν) (edges : List (Edge σ))
    (split : List (ν × List (ν × List (σ × ℕ)))) :
    fineEdges (splitExisting names split) (names.zip edges) = fineEdges split (names.zip edges) := by
  unfold fineEdges
  rw [List.flatMap_def, List.flatMap_def]
  congr 1
  apply List.map_congr_left
  intro x hx
  rw [find?_existing names split (List.of_mem_zip hx).1]

variable (t a) in
/-- The split step of the combined operation. -/
def stepSplit : EdgeArgs ν σ :=
  splitArgs (edgeRename t a.rename) a.split a.applyParity a.excludeSplit

theorem stepNames : (edgeRename t a.rename).names = opNames t a := rfl

theorem step_opNames : opNames (edgeRename t a.rename) (stepSplit t a) = opNames t a := by
  rw [← stepNames]
  unfold opNames
  exact (List.map_congr_left fun n _ => renameOne_nil n).trans (List.map_id _)

theorem step_opCut (hc : a.cut = []) :
    opCut (edgeRename t a.rename) (stepSplit t a) = opCut t a := by
  unfold opCut edgeBeforeSplit
  rw [hc]; rfl

theorem step_opS : opS (edgeRename t a.rename) (stepSplit t a) = opS t a := by
  unfold opS
  rw [step_opNames]
  exact splitGroups_existing _ _

theorem step_opFine (hc : a.cut = []) :
    opFine (edgeRename t a.rename) (stepSplit t a) = opFine t a := by
  unfold opFine
  rw [step_opNames, step_opCut hc]
  congr 1
  exact fineEdges_existing _ _ _

theorem step_opMap (hc : a.cut = []) :
    opMap (edgeRename t a.rename) (stepSplit t a) = opMap t a := by
  funext n
  unfold opMap
  rw [step_opFine hc]

theorem step_newNames : (stepSplit t a).newNames = (opS t a).flatten :=
  splitTarget_existing _ _

theorem step_opM : opM (stepSplit t a) = (opS t a).flatten.map fun n => [n] := by
  rw [opM_noMerge (show (stepSplit t a).merge = [] from rfl), step_newNames]

theorem step_ok (h : OpOk t a) (ht : WF t) (hc : a.cut = []) (hn : (opNames t a).Nodup) :
    OpOk (edgeRename t a.rename) (stepSplit t a) where
  wf := ⟨by rw [stepNames, opNames_length]; exact h.wf.rank, hn, h.wf.sorted, h.wf.blocks⟩
  pruned := fun _ => ht.pruned
  nodup := by rw [step_opS]; exact h.nodup
  perm := by rw [step_opS, step_opM, flatten_singletons]
  newNodup := by rw [step_newNames]; exact h.nodup
  parts := fun x hx => h.parts x (List.mem_of_mem_filter hx)
  fits := by
    intro x hx parts hf
    rw [step_opNames, step_opCut hc] at hx
    rw [step_opMap hc, step_opS, step_opNames, step_opCut hc]
    have hx' := h.fits x hx parts (by
      rw [← hf]; exact (find?_existing _ _ (List.of_mem_zip hx).1).symm)
    refine ⟨hx'.1, fun hl p hp hmany => hx'.2 hl p hp fun y hy parts' hf' => ?_⟩
    refine hmany y hy parts' ?_
    rw [← hf']
    exact find?_existing _ _ (List.of_mem_zip hy).1
  cutKeys := by
    intro _ _
    have : opCut (edgeRename t a.rename) (stepSplit t a) = t.core.edges := rfl
    rw [this]
    exact List.forall₂_same.2 fun _ _ => rfl

theorem step_opIn (hc : a.cut = []) (p : ν → σ × ℕ) :
    opIn (edgeRename t a.rename) (stepSplit t a) p ↔ opIn t a p := by
  unfold opIn
  rw [step_opCut hc, step_opS]

theorem step_opEdges (hc : a.cut = []) (garbage : ℕ → Bool) :
    opEdges garbage (edgeRename t a.rename) (stepSplit t a) =
      (opS t a).flatten.map (opFine t a) := by
  unfold opEdges
  rw [step_opM]
  have hrev : opReversed (edgeRename t a.rename) (stepSplit t a) = opFine t a := by
    funext n
    unfold opReversed reversedEdge reverseOne
    rw [step_opFine hc]
    have : (stepSplit t a).reversed = [] := rfl
    rw [this]
    simp
  rw [hrev]
  have : ∀ x ∈ ((opS t a).flatten.map fun n => [n]).zipIdx 0,
      groupEdge (garbage x.2) (x.1.map (opFine t a)) =
      (fun g : List ν => (g.map (opFine t a)).headD {}) x.1 := by
    intro x hx
    obtain ⟨i, hi, hxe⟩ := List.mem_iff_getElem.1 hx
    rw [List.getElem_zipIdx] at hxe
    subst hxe
    simp only [List.getElem_map, List.map_cons, List.map_nil, List.headD_cons]
    rfl
  rw [List.map_congr_left this]
  refine (zipIdx_map_fst _ (fun g : List ν => (g.map (opFine t a)).headD {}) 0).trans ?_
  rw [List.map_map]
  rfl

theorem step_opSign (p : ν → σ × ℕ) :
    opSign (edgeRename t a.rename) (stepSplit t a) p = if TatSym.isFermi σ then
      groupsOf (oddAt p) (opS t a) ((opNames t a).map (marked a.applyParity a.excludeSplit))
      else 1 := by
  unfold TAT.opSign
  congr 1
  rw [step_opS, step_opM, flatten_singletons, exchangeOf_refl, step_opNames,
    groupsOf_short _ ((opS t a).flatten.map fun n => [n]) _ (by
      intro g hg; obtain ⟨n, _, rfl⟩ := List.mem_map.1 hg; simp), mul_one, one_mul]
  have h1 : (stepSplit t a).reversed = [] := rfl
  rw [h1]
  simp only [List.not_mem_nil, decide_false, Bool.false_and, reverseOf_false, one_mul]
  rw [List.map_map, List.prod_eq_one, mul_one]
  · rfl
  · intro x hx
    obtain ⟨n, _, rfl⟩ := List.mem_map.1 hx
    simp [reverseOf, flipped_single]

/-- What the split step computes. -/
theorem step_split [Neg α] [Zero α] (env : Env σ α) (h : OpOk t a) (ht : WF t)
    (hc : a.cut = []) (hn : (opNames t a).Nodup) :
    ∃ r, splitEdge env (edgeRename t a.rename) a.split a.applyParity a.excludeSplit = .ok r ∧
      r.names = (opS t a).flatten ∧ WF r ∧
      (∀ n ∈ r.names, edgeOf r n =
        ⟨(opFine t a n).arrow, usedMap (opMap t a) (opS t a).flatten n⟩) ∧
      (∀ q, FineOk (opMap t a) (opS t a).flatten q → opIn t a q → elem r q =
        (elemAt t.core (coarseKey (opS t a) q) (coarseIdx (opMap t a) (opS t a) q)).map
          (applySign (if TatSym.isFermi σ then groupsOf (oddAt q) (opS t a)
            ((opNames t a).map (marked a.applyParity a.excludeSplit)) else 1))) ∧
      (∀ q, FineOk (opMap t a) (opS t a).flatten q → ¬ opIn t a q → TatSym.isNoSym σ = false →
        elem r q = some 0) := by
  have hok := step_ok h ht hc hn
  obtain ⟨r, h1, h2, h3, h4, h5, h6⟩ := edgeOperator_spec env hok
  rw [step_newNames] at h2
  rw [step_opEdges hc, prunedEdges_named h.nodup, ← h2] at h4
  have hel : ∀ q, elem r q = elemAt r.core (coarseKey (opM (stepSplit t a)) q)
      (coarseIdx (opMap t a) (opM (stepSplit t a)) q) := by
    intro q
    rw [step_opM, coarseKey_singles, coarseIdx_singles h.sorted]
    unfold elem
    rw [h2]
  refine ⟨r, h1, h2, h3, ?_, fun q hq hin => ?_, fun q hq hin hns => ?_⟩
  · intro n hn
    have := edgeOf_unique h3 h4 n hn
    rw [this, h2]
    rfl
  · rw [hel]
    have := h5 q (by rw [step_opMap hc, step_opS]; exact hq) ((step_opIn hc q).2 hin)
    rw [step_opMap hc, step_opS, step_opSign] at this
    exact this
  · rw [hel]
    have := h6 q (by rw [step_opMap hc, step_opS]; exact hq) (fun hh => hin ((step_opIn hc q).1 hh)) hns
    rw [step_opMap hc] at this
    exact this

end split

/-! ## all steps -/

section steps
variable {t : Tensor ν σ α} {a : EdgeArgs ν σ}

/-- The steps, one call at a time: rename, split, reverse, bring the parts of the new edges
together, merge. -/
def oneByOne [Neg α] [Zero α] (env : Env σ α) (t : Tensor ν σ α) (a : EdgeArgs ν σ) :
    Outcome (Tensor ν σ α) :=
  (splitEdge env (edgeRename t a.rename) a.split a.applyParity a.excludeSplit).bind fun t₁ =>
  (reverseEdge env t₁ a.reversed a.applyParity a.excludeReverse).bind fun t₂ =>
  (transpose env t₂ (a.newNames.flatMap (groupOf a.merge))).bind fun t₃ =>
  mergeEdge env t₃ a.merge a.applyParity a.excludeMerge a.excludeReverseMerge

/-- The arrows keep their meaning when unused symmetries are dropped: an edge which after splitting
has an odd symmetry also has an odd symmetry that takes part in a block. -/
def ArrowsUsed (t : Tensor ν σ α) (a : EdgeArgs ν σ) : Prop :=
  ∀ n ∈ (opS t a).flatten, (∃ s ∈ OMap.keys (opMap t a n), TatSym.fermi s ≠ 0) →
    ∃ q, KeyOk (opMap t a) (opS t a).flatten q ∧ TatSym.fermi (q n).1 ≠ 0

theorem arrowValid_iff (e : Edge σ) : arrowValid e = true ↔
    ∃ s ∈ OMap.keys e.map, TatSym.fermi s ≠ 0 := by
  unfold arrowValid OMap.keys
  rw [List.any_eq_true]
  constructor
  · rintro ⟨x, hx, h⟩
    exact ⟨x.1, List.mem_map_of_mem hx, by simpa using h⟩
  · rintro ⟨s, hs, h⟩
    obtain ⟨x, hx, rfl⟩ := List.mem_map.1 hs
    exact ⟨x, hx, by simpa using h⟩

theorem ArrowsUsed.valid (hu : ArrowsUsed t a) (b : Bool) {n : ν} (hn : n ∈ (opS t a).flatten) :
    arrowValid (⟨b, usedMap (opMap t a) (opS t a).flatten n⟩ : Edge σ) =
      arrowValid (⟨b, opMap t a n⟩ : Edge σ) := by
  rw [Bool.eq_iff_iff, arrowValid_iff, arrowValid_iff]
  constructor
  · rintro ⟨s, hs, h⟩
    exact ⟨s, (usedMap_keys.1 hs).1, h⟩
  · intro hs
    obtain ⟨q, hq, h⟩ := hu n hn hs
    exact ⟨(q n).1, usedMap_keys.2 ⟨hq.1 n hn, q, hq, rfl⟩, h⟩

theorem firstArrow_congr {e e' : ν → Edge σ} {g : List ν}
    (h : ∀ n ∈ g, (e n).arrow = (e' n).arrow ∧ arrowValid (e n) = arrowValid (e' n)) :
    firstArrow (g.map e) = firstArrow (g.map e') := by
  unfold firstArrow
  induction g with
  | nil => rfl
  | cons n g ih =>
    have hn := h n (by simp)
    rw [List.map_cons, List.map_cons, List.find?_cons, List.find?_cons, ← hn.2]
    cases arrowValid (e n) with
    | true => simp only [Option.map_some, hn.1]
    | false => exact ih fun m hm => h m (List.mem_cons_of_mem _ hm)

theorem flipped_congr {e e' : ν → Edge σ} {g : List ν}
    (h : ∀ n ∈ g, (e n).arrow = (e' n).arrow ∧ arrowValid (e n) = arrowValid (e' n)) {n : ν}
    (hn : n ∈ g) : flipped e g n = flipped e' g n := by
  unfold flipped
  rw [firstArrow_congr h, (h n hn).1, (h n hn).2]

theorem groupEdge_arrow_congr {e e' : ν → Edge σ} {g : List ν} (b : Bool)
    (h1 : ∀ n ∈ g, (e n).arrow = (e' n).arrow)
    (h2 : TatSym.isFermi σ = true → ∀ n ∈ g, arrowValid (e n) = arrowValid (e' n)) :
    (groupEdge b (g.map e)).arrow = (groupEdge b (g.map e')).arrow := by
  match g, h1, h2 with
  | [], _, _ => rfl
  | [n], h1, _ => exact h1 n (by simp)
  | n :: m :: g, h1, h2 =>
    change (if TatSym.isFermi σ then (firstArrow ((n :: m :: g).map e)).getD b else false) =
      if TatSym.isFermi σ then (firstArrow ((n :: m :: g).map e')).getD b else false
    split
    · rename_i hf
      rw [firstArrow_congr fun x hx => ⟨h1 x hx, h2 hf x hx⟩]
    · rfl

theorem reversedEdge_arrow (R : List ν) {e e' : ν → Edge σ} {n : ν}
    (h : (e n).arrow = (e' n).arrow) : (reversedEdge R e n).arrow = (reversedEdge R e' n).arrow := by
  unfold reversedEdge reverseOne
  split
  · split
    · simp only [h]
    · exact h
  · exact h

theorem noSym_opIn (h : OpOk t a) (hc : a.cut = [])
    (hns : TatSym.isNoSym σ = true → t.core.blocks ≠ []) (hs : TatSym.isNoSym σ = true)
    (q : ν → σ × ℕ) : opIn t a q := by
  have hcut : opCut t a = t.core.edges := by unfold opCut edgeBeforeSplit; rw [hc]; rfl
  unfold opIn
  rw [hcut]
  obtain ⟨b, hb⟩ := List.exists_mem_of_ne_nil _ (hns hs)
  have hk := (h.wf.mem_keys.1 (List.mem_map_of_mem (f := Prod.fst) hb)).1
  have hk' := forall2_getElem.1 hk
  refine forall2_getElem.2 ⟨by rw [← h.wf.rank, ← h.lenS]; simp [coarseKey], fun i i1 i2 => ?_⟩
  have := hk'.2 i i1 (by omega)
  rwa [TatSym.noSym_eq hs (coarseKey (opS t a) q)[i] b.1[i]]

theorem isSign_prod {l : List ℤ} (h : ∀ x ∈ l, IsSign x) : IsSign l.prod := by
  induction l with
  | nil => exact Or.inl rfl
  | cons x l ih =>
    rw [List.prod_cons]
    exact (h x (by simp)).mul (ih fun y hy => h y (List.mem_cons_of_mem _ hy))

theorem isSign_reverseOf (odd chosen : ν → Bool) (A : List ν) : IsSign (reverseOf odd chosen A) := by
  refine isSign_prod fun x hx => ?_
  obtain ⟨n, _, rfl⟩ := List.mem_map.1 hx
  split
  · exact Or.inr rfl
  · exact Or.inl rfl

theorem isSign_groupsOf (odd : ν → Bool) (groups : List (List ν)) (mark : List Bool) :
    IsSign (groupsOf odd groups mark) := isSign_of_sq (groupsOf_sq odd groups mark)

/-- **C22.**  Renaming, splitting, reversing, transposing and merging in one call gives the same
tensor as doing the steps one call at a time.  The groups to be merged are not empty (an empty group
takes an uninitialised arrow), and for fermions `ArrowsUsed` is needed (`C22_unused_arrow`). -/
theorem C22_steps_partial [InvolutiveNeg α] [Zero α] (hz : -(0 : α) = 0) (env : Env σ α) (h : OpOk t a)
    (ht : WF t) (hc : a.cut = []) (hn : (opNames t a).Nodup) (hms : OMap.Sorted a.merge)
    (hm : ∀ m ∈ a.merge, m.1 ∈ a.newNames ∧ m.2 ≠ [])
    (hns : TatSym.isNoSym σ = true → t.core.blocks ≠ [])
    (hf : TatSym.isFermi σ = true → ArrowsUsed t a) :
    ∃ r, edgeOperator env t a = .ok r ∧ oneByOne env t a = .ok r := by
  obtain ⟨r, h1, h2, h3, h4, h5, h6⟩ := edgeOperator_spec env h
  refine ⟨r, h1, ?_⟩
  have hM : opM a = a.newNames.map (groupOf a.merge) := mergeGroups_eq _ _
  have hMf : a.newNames.flatMap (groupOf a.merge) = (opM a).flatten := by
    rw [hM, List.flatMap_def]
  have hMn : (opM a).flatten.Nodup := h.perm.nodup_iff.1 h.nodup
  -- split
  obtain ⟨r₁, s1, s2, s3, s4, s5, s6⟩ := step_split env h ht hc hn
  -- reverse
  obtain ⟨r₂, u1, u2, u3, u4, u5⟩ := plain_spec (t := r₁)
    (a := { reversed := a.reversed, newNames := r₁.names, applyParity := a.applyParity,
            excludeReverse := a.excludeReverse }) env ⟨rfl, rfl, rfl, rfl⟩ s3 (List.Perm.refl _)
  have u4' : ∀ n ∈ r₂.names, edgeOf r₂ n = reversedEdge a.reversed (edgeOf r₁) n := by
    refine edgeOf_unique u3 ?_
    rw [u4, u2]
  -- transpose
  have hp3 : r₂.names.Perm (opM a).flatten := by rw [u2, s2]; exact h.perm
  obtain ⟨r₃, v1, v2, v3, v4, v5, v6⟩ := C16_transpose env u3 hp3
  -- merge
  have hsub : mergeExisting r₃.names a.merge = a.merge := by
    unfold mergeExisting
    refine (List.map_congr_left fun m hmm => ?_).trans (List.map_id _)
    have : m.2.filter (fun n => decide (n ∈ r₃.names)) = m.2 := by
      rw [List.filter_eq_self]
      intro n hnm
      rw [decide_eq_true_eq, v2, ← hMf]
      refine List.mem_flatMap.2 ⟨m.1, (hm m hmm).1, ?_⟩
      unfold groupOf
      rw [OMap.find?_of_mem hms.nodup (show (m.1, m.2) ∈ a.merge from hmm)]
      exact hnm
    rw [this]; rfl
  have htgt : mergeTarget r₃.names (mergeExisting r₃.names a.merge) = a.newNames := by
    rw [hsub, v2]
    exact mergeTarget_flatten hms h.newNodup hMn hm
  set b : EdgeArgs ν σ := mergeArgs r₃ a.merge a.applyParity a.excludeMerge a.excludeReverseMerge
    with hb
  have hbM : opM b = opM a := by
    unfold opM
    rw [hb]
    simp only [mergeArgs]
    rw [htgt, hsub]
  have hbn : b.newNames = a.newNames := htgt
  have hmg : Merging r₃ b :=
    { rename := rfl, split := rfl, reversed := rfl, cut := rfl, wf := v3
      newNodup := by rw [hbn]; exact h.newNodup
      perm := by rw [hbM, v2] }
  obtain ⟨r₄, w1, w2, w3, w4, w5, w6⟩ := merging_spec env hmg
  have hstep : oneByOne env t a = .ok r₄ := by
    unfold oneByOne
    have ok_bind : ∀ {β δ : Type} (x : β) (f : β → Outcome δ), (Outcome.ok x).bind f = f x :=
      fun _ _ => rfl
    rw [s1, ok_bind]
    have u1' : reverseEdge env r₁ a.reversed a.applyParity a.excludeReverse = .ok r₂ := u1
    rw [u1', ok_bind, hMf, v1, ok_bind]
    exact w1
  rw [hstep]
  -- edges of the tensor before merging
  have hedge : ∀ n ∈ (opM a).flatten, edgeOf r₃ n = reversedEdge a.reversed
      (fun n => ⟨(opFine t a n).arrow, usedMap (opMap t a) (opS t a).flatten n⟩) n := by
    intro n hn
    have hn2 : n ∈ r₂.names := hp3.mem_iff.2 hn
    have hn1 : n ∈ r₁.names := by rw [u2] at hn2; exact hn2
    rw [v4 n hn, u4' n hn2]
    unfold reversedEdge
    rw [s4 n hn1]
  have hmap : ∀ n ∈ (opM a).flatten, mapOf r₃ n = usedMap (opMap t a) (opS t a).flatten n := by
    intro n hn
    unfold mapOf
    rw [hedge n hn, reversedEdge_map]
  have harrow : ∀ n ∈ (opM a).flatten, (edgeOf r₃ n).arrow = (opReversed t a n).arrow := by
    intro n hn
    rw [hedge n hn]
    exact reversedEdge_arrow _ rfl
  have hvalid : TatSym.isFermi σ = true → ∀ n ∈ (opM a).flatten,
      arrowValid (edgeOf r₃ n) = arrowValid (opReversed t a n) := by
    intro hfe n hn
    have := (hf hfe).valid false ((h.mem_iff n).2 hn)
    unfold arrowValid at this ⊢
    rw [opReversed_map]
    have e := hmap n hn
    unfold mapOf at e
    rw [e]
    exact this
  have hmemM : ∀ g ∈ opM a, ∀ n ∈ g, n ∈ (opM a).flatten := fun g hg n hn =>
    List.mem_flatten.2 ⟨g, hg, hn⟩
  -- the edges of the results
  have hE4 : r₄.core.edges = prunedEdges (opEdges env.garbage r₃ b) := by
    rw [w4]; unfold opEdges; rw [hmg.opReversed]
  have hedges : r₄.core.edges = r.core.edges := by
    rw [hE4, h4]
    have l1 : (prunedEdges (opEdges env.garbage r₃ b)).length = (opM a).length := by
      rw [pruned_length, opEdges_length, hbn, opM_length]
    have l2 : (prunedEdges (opEdges env.garbage t a)).length = (opM a).length := by
      rw [pruned_length, opEdges_length, opM_length]
    apply List.ext_getElem (by rw [l1, l2])
    intro i i1 i2
    have hi : i < (opM a).length := by rw [← l2]; exact i2
    have hgi : (opM a)[i] ∈ opM a := List.getElem_mem hi
    have hib : i < (opM b).length := by rw [hbM]; exact hi
    have hgb : (opM b)[i] = (opM a)[i] := by simp only [hbM]
    have hkey : ∀ q, KeyOk (opMap r₃ b) (opM b).flatten q ↔
        KeyOk (opMap t a) (opM a).flatten q := by
      intro q
      rw [hmg.opMap, hbM, keyOk_congr hmap]
      exact usedMap_keyOk h.perm
    have hmapi : (prunedEdges (opEdges env.garbage r₃ b))[i].map =
        (prunedEdges (opEdges env.garbage t a))[i].map := by
      have so : ∀ (l : List (Edge σ)) (hl : ∀ e ∈ l, OMap.Sorted e.map)
          (j : ℕ) (hj : j < (prunedEdges l).length), OMap.Sorted (prunedEdges l)[j].map := by
        intro l hl j hj
        simp only [prunedEdges, List.getElem_mapIdx]
        exact (hl _ (List.getElem_mem _)).filter _
      refine OMap.ext (so _ (hmg.ok.edgesSorted _) i i1) (so _ (h.edgesSorted _) i i2) fun s => ?_
      by_cases hs : ∃ q, KeyOk (opMap t a) (opM a).flatten q ∧ (keyOf (opM a)[i] q).sum = s
      · obtain ⟨q, hq, rfl⟩ := hs
        rw [h.find_result env.garbage i i2 hi hq]
        have := hmg.ok.find_result env.garbage i i1 hib ((hkey q).2 hq)
        rw [hgb, hmg.opMap, List.map_congr_left fun n hn => hmap n (hmemM _ hgi n hn),
          usedMap_mergedDim h.perm hMn hgi hq] at this
        exact this
      · have k2 : s ∉ OMap.keys (prunedEdges (opEdges env.garbage t a))[i].map := fun hk =>
          hs ((h.mem_keys_result env.garbage i i2 hi s).1 hk)
        have k1 : s ∉ OMap.keys (prunedEdges (opEdges env.garbage r₃ b))[i].map := by
          intro hk
          obtain ⟨q, hq, hqs⟩ := (hmg.ok.mem_keys_result env.garbage i i1 hib s).1 hk
          rw [hgb] at hqs
          exact hs ⟨q, (hkey q).1 hq, hqs⟩
        rw [OMap.find?_eq_none.2 k1, OMap.find?_eq_none.2 k2]
    have harr : (prunedEdges (opEdges env.garbage r₃ b))[i].arrow =
        (prunedEdges (opEdges env.garbage t a))[i].arrow := by
      simp only [prunedEdges, List.getElem_mapIdx]
      rw [opEdges_getElem, opEdges_getElem, hgb, hmg.opReversed]
      exact groupEdge_arrow_congr _ (fun n hn => harrow n (hmemM _ hgi n hn))
        (fun hfe n hn => hvalid hfe n (hmemM _ hgi n hn))
    have ext : ∀ e e' : Edge σ, e.arrow = e'.arrow → e.map = e'.map → e = e' := by
      intro e e' a1 a2
      cases e; cases e'
      simp only at a1 a2
      subst a1 a2; rfl
    exact ext _ _ harr hmapi
  -- the elements
  congr 1
  refine fine_ext w3 h3 (by rw [w2, hbn, h2]) hedges (fm := opMap t a) (groups := opM a) hMn
    (fun n hn => h.sorted n ((h.mem_iff n).2 hn)) ?_ ?_
  · unfold FitsIn
    rw [hedges]
    exact h.fitsIn env.garbage h4
  intro q hq
  have hqS : FineOk (opMap t a) (opS t a).flatten q := hq.perm h.perm.symm
  have hci : coarseIdx (mapOf r₃) (opM a) q = coarseIdx (opMap t a) (opM a) q := by
    unfold coarseIdx
    apply List.map_congr_left
    intro g hg
    rw [← usedMap_groupIdx h.perm hMn hg hq.keyOk]
    unfold groupIdx
    rw [List.map_congr_left fun n hn => hmap n (hmemM g hg n hn),
      List.map_congr_left fun n hn => congrArg (fun m => dimM m (q n).1) (hmap n (hmemM g hg n hn))]
  have hv3 : ValidPos r₃ q := by
    rw [validPos_iff v3, v2, fineOk_congr hmap]
    exact (usedMap_fineOk h.perm).2 hq
  have hv2 : ValidPos r₂ q := (v5 q).1 hv3
  have hv1 : ValidPos r₁ q := by
    rw [validPos_iff s3, s2]
    have : ∀ n ∈ (opS t a).flatten, mapOf r₁ n = usedMap (opMap t a) (opS t a).flatten n := by
      intro n hn
      unfold mapOf
      rw [s4 n (by rw [s2]; exact hn)]
    rw [fineOk_congr this]
    exact (usedMap_fineOk (List.Perm.refl _)).2 hqS
  have e4 := w6 q hv3
  rw [hbM, hci, v6 q hv2, u5 q hv1] at e4
  rw [e4]
  have hsm : mergeSign r₃ b q = if TatSym.isFermi σ then
      ((opM a).map fun g => reverseOf (oddAt q) (fun n => flipped (opReversed t a) g n &&
        marked a.applyParity a.excludeReverseMerge n) g).prod *
      groupsOf (oddAt q) (opM a) (a.newNames.map (marked a.applyParity a.excludeMerge)) else 1 := by
    unfold mergeSign
    split
    · rename_i hfe
      rw [hbM, v2, exchangeOf_refl, one_mul, hbn]
      congr 2
      apply List.map_congr_left
      intro g hg
      unfold reverseOf
      congr 1
      apply List.map_congr_left
      intro n hn
      beta_reduce
      rw [flipped_congr (e' := opReversed t a) (fun n hn => ⟨harrow n (hmemM g hg n hn),
        hvalid hfe n (hmemM g hg n hn)⟩) hn]
      rfl
    · rfl
  by_cases hin : opIn t a q
  · rw [h5 q hqS hin, s5 q hqS hin]
    rw [Option.map_map, Option.map_map, Option.map_map]
    congr 1
    funext x
    simp only [Function.comp]
    rw [hsm]
    unfold transposeSign opSign
    cases hfe : TatSym.isFermi σ with
    | false => simp [applySign_one]
    | true =>
      simp only [if_true]
      have i1 := isSign_exchangeOf (oddAt q) r₂.names (opM a).flatten
      have i2 := isSign_exchangeOf (oddAt q) r₁.names r₁.names
      have i3 := isSign_reverseOf (oddAt q) (fun n => decide (n ∈ a.reversed) &&
        marked a.applyParity a.excludeReverse n) r₁.names
      have i4 := isSign_groupsOf (oddAt q) (opS t a)
        ((opNames t a).map (marked a.applyParity a.excludeSplit))
      have i5 : IsSign ((opM a).map fun g => reverseOf (oddAt q) (fun n =>
          flipped (opReversed t a) g n && marked a.applyParity a.excludeReverseMerge n) g).prod := by
        refine isSign_prod fun x hx => ?_
        obtain ⟨g, _, rfl⟩ := List.mem_map.1 hx
        exact isSign_reverseOf _ _ _
      have i6 := isSign_groupsOf (oddAt q) (opM a)
        (a.newNames.map (marked a.applyParity a.excludeMerge))
      rw [applySign_mul (i2.mul i3) i4, applySign_mul i1 ((i2.mul i3).mul i4),
        applySign_mul (i5.mul i6) (i1.mul ((i2.mul i3).mul i4))]
      congr 1
      rw [exchangeOf_refl, u2, s2]
      ring
  · cases hns' : TatSym.isNoSym σ with
    | true => exact absurd (noSym_opIn h hc hns hns' q) hin
    | false =>
      rw [h6 q hqS hin hns', s6 q hqS hin hns']
      have h0 : ∀ s : ℤ, applySign s (0 : α) = 0 := by
        intro s
        unfold applySign
        split
        · exact hz
        · rfl
      simp only [Option.map_some, h0]

/-- **C22** for symmetries without fermions. -/
theorem C22_bose [InvolutiveNeg α] [Zero α] (hz : -(0 : α) = 0) (env : Env σ α) (h : OpOk t a)
    (ht : WF t) (hc : a.cut = []) (hn : (opNames t a).Nodup) (hms : OMap.Sorted a.merge)
    (hm : ∀ m ∈ a.merge, m.1 ∈ a.newNames ∧ m.2 ≠ [])
    (hb : TatSym.isFermi σ = false) (hne : t.core.blocks ≠ []) :
    ∃ r, edgeOperator env t a = .ok r ∧ oneByOne env t a = .ok r :=
  C22_steps_partial hz env h ht hc hn hms hm (fun _ => hne) fun hf => by rw [hb] at hf; cases hf

end steps

/-! ## where the steps differ -/

/-- A fermionic tensor with one element; edge 0 has only the even symmetry. -/
def sampleStep : Tensor ℕ FermiSymmetry ℤ :=
  ⟨[0, 1, 2], [⟨false, [(⟨0⟩, 1)]⟩, ⟨true, [(⟨1⟩, 1)]⟩, ⟨false, [(⟨-1⟩, 1)]⟩],
    [([⟨0⟩, ⟨1⟩, ⟨-1⟩], [7])]⟩

theorem sampleStep_wf : WF sampleStep :=
  ⟨by decide, by decide, by decide, by decide +kernel, by decide +kernel⟩

/-- Edge 0 is split into 3 and 4, where 3 is offered an odd symmetry that no block can have; 3 and 1
are merged into 5. -/
def stepArgs : EdgeArgs ℕ FermiSymmetry :=
  { split := [(0, [(3, [(⟨0⟩, 1), (⟨1⟩, 1)]), (4, [(⟨0⟩, 1)])])]
    merge := [(5, [3, 1])]
    newNames := [5, 4, 2]
    applyParity := true }

theorem stepArgs_ok : OpOk sampleStep stepArgs where
  wf := sampleStep_wf.shaped
  pruned := fun _ => sampleStep_wf.pruned
  nodup := by decide
  perm := by decide
  newNodup := by decide
  parts := by decide
  fits := by
    intro x hx parts hf
    have : x = (0, ⟨false, [(⟨0⟩, 1)]⟩) ∨ x = (1, ⟨true, [(⟨1⟩, 1)]⟩) ∨
        x = (2, ⟨false, [(⟨-1⟩, 1)]⟩) := by
      simpa [opNames, opCut, edgeBeforeSplit, sampleStep, stepArgs, renameOne, OMap.find?] using hx
    rcases this with rfl | rfl | rfl
    · have hp : parts = [(3, [(⟨0⟩, 1), (⟨1⟩, 1)]), (4, [(⟨0⟩, 1)])] := by
        simpa [stepArgs, OMap.find?] using hf.symm
      subst hp
      exact ⟨by decide +kernel, fun h => absurd h (by decide)⟩
    · simp [stepArgs, OMap.find?] at hf
    · simp [stepArgs, OMap.find?] at hf
  cutKeys := fun h => absurd h (by decide)

/-- **C22** is false without `ArrowsUsed`: dropping the unused odd symmetry of a part between the
steps makes its arrow meaningless, so that the merged edge takes the arrow of the other member; in
one call the unused symmetry still decides, and the other member is reversed, with a sign. -/
theorem C22_unused_arrow :
    OpOk sampleStep stepArgs ∧ WF sampleStep ∧ stepArgs.cut = [] ∧ (opNames sampleStep stepArgs).Nodup ∧
    OMap.Sorted stepArgs.merge ∧ (∀ m ∈ stepArgs.merge, m.1 ∈ stepArgs.newNames ∧ m.2 ≠ []) ∧
    edgeOperator env0 sampleStep stepArgs = .ok
      ⟨[5, 4, 2], [⟨false, [(⟨1⟩, 1)]⟩, ⟨false, [(⟨0⟩, 1)]⟩, ⟨false, [(⟨-1⟩, 1)]⟩],
        [([⟨1⟩, ⟨0⟩, ⟨-1⟩], [-7])]⟩ ∧
    oneByOne env0 sampleStep stepArgs = .ok
      ⟨[5, 4, 2], [⟨true, [(⟨1⟩, 1)]⟩, ⟨false, [(⟨0⟩, 1)]⟩, ⟨false, [(⟨-1⟩, 1)]⟩],
        [([⟨1⟩, ⟨0⟩, ⟨-1⟩], [7])]⟩ :=
  ⟨stepArgs_ok, sampleStep_wf, rfl, by decide, by decide, by decide, by decide +kernel, by decide +kernel⟩

/-- A call doing all five steps at once. -/
def stepArgs2 : EdgeArgs ℕ FermiSymmetry :=
  { rename := [(1, 11)]
    split := [(5, [(2, [(⟨-1⟩, 1), (⟨0⟩, 1), (⟨1⟩, 2)]), (0, [(⟨0⟩, 1), (⟨1⟩, 1)])])]
    reversed := [2]
    merge := [(9, [0, 11])]
    newNames := [9, 2]
    applyParity := true }

/-- `sampleFermi` with edges 2 and 0 merged. -/
def sampleStep2 : Tensor ℕ FermiSymmetry ℤ :=
  ⟨[5, 1], [⟨false, [(⟨0⟩, 2), (⟨1⟩, 3)]⟩, ⟨true, [(⟨-1⟩, 1), (⟨0⟩, 1)]⟩],
    [([⟨0⟩, ⟨0⟩], [5, 3]), ([⟨1⟩, ⟨-1⟩], [4, -1, -2])]⟩

theorem sampleStep2_wf : WF sampleStep2 :=
  ⟨by decide, by decide, by decide, by decide +kernel, by decide +kernel⟩

theorem stepArgs2_ok : OpOk sampleStep2 stepArgs2 where
  wf := sampleStep2_wf.shaped
  pruned := fun _ => sampleStep2_wf.pruned
  nodup := by decide
  perm := by decide
  newNodup := by decide
  parts := by decide
  fits := by
    intro x hx parts hf
    have : x = (5, ⟨false, [(⟨0⟩, 2), (⟨1⟩, 3)]⟩) ∨ x = (11, ⟨true, [(⟨-1⟩, 1), (⟨0⟩, 1)]⟩) := by
      simpa [opNames, opCut, edgeBeforeSplit, sampleStep2, stepArgs2, renameOne, OMap.find?] using hx
    rcases this with rfl | rfl
    · have hp : parts = [(2, [(⟨-1⟩, 1), (⟨0⟩, 1), (⟨1⟩, 2)]), (0, [(⟨0⟩, 1), (⟨1⟩, 1)])] := by
        simpa [stepArgs2, OMap.find?] using hf.symm
      subst hp
      exact ⟨by decide +kernel, fun h => absurd h (by decide)⟩
    · simp [stepArgs2, OMap.find?] at hf
  cutKeys := fun h => absurd h (by decide)

theorem stepArgs2_used : ArrowsUsed sampleStep2 stepArgs2 := by
  intro n hn _
  have : n = 2 ∨ n = 0 ∨ n = 11 := by
    have e : (opS sampleStep2 stepArgs2).flatten = [2, 0, 11] := by decide
    rw [e] at hn
    simpa using hn
  unfold KeyOk
  rcases this with rfl | rfl | rfl
  · exact ⟨fun n => if n = 2 then (⟨1⟩, 0) else if n = 11 then (⟨-1⟩, 0) else (⟨0⟩, 0),
      ⟨by decide +kernel, by decide +kernel⟩, by decide⟩
  · exact ⟨fun n => if n = 0 then (⟨1⟩, 0) else if n = 11 then (⟨-1⟩, 0) else (⟨0⟩, 0),
      ⟨by decide +kernel, by decide +kernel⟩, by decide⟩
  · exact ⟨fun n => if n = 0 then (⟨1⟩, 0) else if n = 11 then (⟨-1⟩, 0) else (⟨0⟩, 0),
      ⟨by decide +kernel, by decide +kernel⟩, by decide⟩

example : OpOk sampleStep2 stepArgs2 ∧ WF sampleStep2 ∧ (opNames sampleStep2 stepArgs2).Nodup ∧
    OMap.Sorted stepArgs2.merge ∧
    (∀ m ∈ stepArgs2.merge, m.1 ∈ stepArgs2.newNames ∧ m.2 ≠ []) ∧
    ArrowsUsed sampleStep2 stepArgs2 :=
  ⟨stepArgs2_ok, sampleStep2_wf, by decide, by decide, by decide, stepArgs2_used⟩

/-- The result of the call. -/
example : edgeOperator env0 sampleStep2 stepArgs2 = .ok
    ⟨[9, 2], [⟨false, [(⟨-1⟩, 1), (⟨0⟩, 2), (⟨1⟩, 1)]⟩,
      ⟨true, [(⟨-1⟩, 1), (⟨0⟩, 1), (⟨1⟩, 2)]⟩],
      [([⟨-1⟩, ⟨1⟩], [1, 2]), ([⟨0⟩, ⟨0⟩], [3, 4]), ([⟨1⟩, ⟨-1⟩], [-5])]⟩ := by
  decide +kernel

end TAT
