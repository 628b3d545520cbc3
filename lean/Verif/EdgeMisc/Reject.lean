import Verif.EdgeMisc.Simple

/-!
# Name lists which `edge_operator` refuses
-/

set_option linter.unusedSectionVars false

namespace TAT

variable {ν σ α : Type} [LinearOrder ν] [TatSym σ]

theorem mergedEdge_sorted (arrow : Bool) {group : List (Edge σ)}
    (h : ∀ e ∈ group, OMap.Sorted e.map) : OMap.Sorted (mergedEdge arrow group).1.map := by
  unfold mergedEdge
  split
  · exact h _ (by simp)
  · refine (mergeGroup_map ?_).1
    intro m hm
    obtain ⟨e, he, rfl⟩ := List.mem_map.1 hm
    exact h e he

theorem mergeLoop_sorted (garbage : ℕ → Bool) (n k : ℕ) (rest : List (ℕ × Edge σ))
    (h : ∀ x ∈ rest, OMap.Sorted x.2.map) :
    ∀ e ∈ (mergeLoop garbage n k rest).result, OMap.Sorted e.map := by
  induction n generalizing k rest with
  | zero => intro e he; simp [mergeLoop] at he
  | succ n ih =>
    rw [mergeLoop]
    intro e he
    dsimp only at he
    rcases List.mem_cons.1 he with rfl | he
    · have hg : ∀ e ∈ (rest.takeWhile fun x => x.1 == k).map Prod.snd, OMap.Sorted e.map := by
        intro e he
        obtain ⟨x, hx, rfl⟩ := List.mem_map.1 he
        exact h x ((List.takeWhile_sublist _).mem hx)
      split
      · refine mergedEdge_sorted _ fun e he => ?_
        have hm := List.mem_map_of_mem (f := Edge.map) he
        rw [(mergeArrow_none _).1] at hm
        obtain ⟨e', he', hee⟩ := List.mem_map.1 hm
        rw [← hee]
        exact hg e' he'
      · exact mergedEdge_sorted _ hg
    · exact ih _ _ (fun x hx => h x ((List.dropWhile_sublist _).mem hx)) e he

theorem mergeLoop_length (garbage : ℕ → Bool) (n k : ℕ) (rest : List (ℕ × Edge σ)) :
    (mergeLoop garbage n k rest).result.length = n := by
  induction n generalizing k rest with
  | zero => rfl
  | succ n ih => rw [mergeLoop]; simp [ih]

theorem isError_bind {β γ : Type} {x : Outcome β} (f : β → Outcome γ) (h : x.isError = true) :
    (x.bind f).isError = true := by
  cases x <;> simp_all [Outcome.isError, Outcome.bind]

theorem fineEdges_sorted {split : List (ν × List (ν × List (σ × ℕ)))} {edges : List (ν × Edge σ)}
    (hp : ∀ x ∈ split, ∀ y ∈ x.2, OMap.Sorted y.2) (he : ∀ x ∈ edges, OMap.Sorted x.2.map) :
    ∀ x ∈ fineEdges split edges, OMap.Sorted x.2.map := by
  intro x hx
  obtain ⟨y, hy, hxy⟩ := List.mem_flatMap.1 hx
  cases hf : OMap.find? split y.1 with
  | none =>
    rw [hf] at hxy
    rw [List.mem_singleton.1 hxy]
    exact he y hy
  | some parts =>
    rw [hf] at hxy
    obtain ⟨q, hq, rfl⟩ := List.mem_map.1 hxy
    exact hp _ (OMap.mem_of_find? hf) q hq

theorem planLoop_ne_ub (index : List (ν × ℕ)) (l : List ν) : planLoop index l ≠ .ub := by
  induction l with
  | nil => simp [planLoop]
  | cons n ns ih =>
    unfold planLoop planOne
    split
    · cases h : planLoop index ns with
      | error m => simp [Outcome.bind]
      | ok r => simp [Outcome.bind]
      | ub => exact absurd h ih
    · simp [Outcome.bind]

/-- `edge_operator` throws when the shortcut is not taken and the requested names cannot be met. -/
theorem edgeOperator_reject' [Neg α] [Zero α] (env : Env σ α) {t : Tensor ν σ α} {a : EdgeArgs ν σ}
    (ht : WF t) (hparts : ∀ x ∈ a.split, ∀ y ∈ x.2, OMap.Sorted y.2)
    (hsc : opShortcut t a = false)
    (hbad : (opM a).flatten.length ≠ (opS t a).flatten.length ∨
      ((opS t a).flatten.Nodup ∧ ∃ n ∈ (opM a).flatten, n ∉ (opS t a).flatten) ∨
      ¬ a.newNames.Nodup) :
    (edgeOperator env t a).isError = true := by
  have hsub := edgeBeforeSplit_sub a.cut t.names t.core.edges ht.rank ht.sorted
  have hlen : (opNames t a).length = (opCut t a).length := by
    rw [opNames_length, ht.rank]
    exact hsub.length_eq.symm
  obtain ⟨s1, s2, s3⟩ := splitStage_eq a.split (opNames t a) (opCut t a) hlen
  have s1' : (splitStage a.split (opNames t a) (opCut t a)).names = (opS t a).flatten := s1
  have hn1 : nameBeforeSplit a.rename t.names = opNames t a := nameBeforeSplit_eq _ _
  have hmn : mergeNames a.merge a.newNames = ((opM a).flatten, flagsOf (opM a)) := mergeNames_eq _ _
  have hc : edgeBeforeSplit a.cut t.names t.core.edges = opCut t a := rfl
  unfold edgeOperator
  simp only [hn1, hc, hmn, s1']
  rw [show (isSameVector (opNames t a) a.newNames && a.split.isEmpty && a.reversed.isEmpty &&
    a.merge.isEmpty && a.cut.isEmpty) = false from hsc, if_neg (by simp)]
  by_cases hl : (opS t a).flatten.length ≠ (opM a).flatten.length
  · rw [if_pos hl]; rfl
  · rw [if_neg hl]
    by_cases hin : (opS t a).flatten.Nodup ∧ ∃ n ∈ (opM a).flatten, n ∉ (opS t a).flatten
    · rw [planLoop_error hin.1 hin.2]; rfl
    · have hdup : ¬ a.newNames.Nodup := by
        rcases hbad with h | h | h
        · exact absurd (Ne.symm h) hl
        · exact absurd h hin
        · exact h
      cases hplan : planLoop (nameToIndex (opS t a).flatten) (opM a).flatten with
      | error m => rfl
      | ub => exact absurd hplan (planLoop_ne_ub _ _)
      | ok plan =>
      simp only [Outcome.bind]
      have hcutSorted : ∀ e ∈ opCut t a, OMap.Sorted e.map := by
        intro e he
        obtain ⟨i, hi, rfl⟩ := List.mem_iff_getElem.1 he
        have := forall2_getElem.1 hsub
        exact (this.2 i hi (by rw [← this.1]; exact hi)).sorted
      have hfe : ∀ e ∈ (splitStage a.split (opNames t a) (opCut t a)).edges, OMap.Sorted e.map := by
        rw [s2]
        intro e he
        obtain ⟨x, hx, rfl⟩ := List.mem_map.1 he
        refine fineEdges_sorted hparts (fun x hx => ?_) x hx
        exact hcutSorted _ (List.of_mem_zip hx).2
      have hlenS : (opS t a).flatten.length =
          (splitStage a.split (opNames t a) (opCut t a)).edges.length := by
        rw [s2]
        unfold opS
        rw [splitGroups_flatten _ _ _ hlen, List.length_map, List.length_map]
      have hre : ∀ e ∈ reverseEdges a.reversed (opS t a).flatten
          (splitStage a.split (opNames t a) (opCut t a)).edges, OMap.Sorted e.map := by
        intro e he
        have hm := List.mem_map_of_mem (f := Edge.map) he
        rw [reverseEdges_maps _ _ _ hlenS] at hm
        obtain ⟨e', he', hee⟩ := List.mem_map.1 hm
        rw [← hee]
        exact hfe e' he'
      generalize reverseEdges a.reversed (opS t a).flatten
          (splitStage a.split (opNames t a) (opCut t a)).edges = re at hre ⊢
      have hga : ∀ e ∈ gather ({} : Edge σ) plan re, OMap.Sorted e.map := by
        intro e he
        obtain ⟨i, _, rfl⟩ := List.mem_map.1 he
        by_cases hi : i < re.length
        · rw [List.getD_eq_getElem _ _ hi]; exact hre _ (List.getElem_mem hi)
        · rw [List.getD_eq_default _ _ (by omega)]
          exact List.Pairwise.nil
      generalize gather ({} : Edge σ) plan re = ga at hga ⊢
      have hms : ∀ e ∈ (mergeStage env.garbage a.merge.isEmpty a.newNames.length (flagsOf (opM a))
          ga).result, OMap.Sorted e.map := by
        unfold mergeStage
        split
        · exact hga
        · refine mergeLoop_sorted _ _ _ _ fun x hx => ?_
          exact hga _ (List.of_mem_zip hx).2
      rw [newCore_eq env.junk _ false hms]
      simp only
      have := checkValidName_error a.newNames
        (prunedEdges (arrowed (mergeStage env.garbage a.merge.isEmpty a.newNames.length
          (flagsOf (opM a)) ga).result false)).length (fun h => hdup h.2)
      generalize checkValidName a.newNames _ = c at this ⊢
      cases c <;> simp_all [Outcome.isError]

theorem edgeOperator_reject [Neg α] [Zero α] (env : Env σ α) {t : Tensor ν σ α} {a : EdgeArgs ν σ}
    (ht : WF t) (hn : (opS t a).flatten.Nodup) (hparts : ∀ x ∈ a.split, ∀ y ∈ x.2, OMap.Sorted y.2)
    (hsc : opShortcut t a = false)
    (hbad : (opM a).flatten.length ≠ (opS t a).flatten.length ∨
      (∃ n ∈ (opM a).flatten, n ∉ (opS t a).flatten) ∨ ¬ a.newNames.Nodup) :
    (edgeOperator env t a).isError = true :=
  edgeOperator_reject' env ht hparts hsc (hbad.imp id (Or.imp (And.intro hn) id))

end TAT
