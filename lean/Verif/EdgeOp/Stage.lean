import Verif.EdgeOp.Copy

/-!
# The stages before the data movement
-/

set_option linter.unusedSectionVars false

namespace TAT

variable {ν σ α : Type}

/-! ## rename and cut -/

section cut
variable [LinearOrder ν] [TatSym σ]

/-- The dimension a symmetry keeps under a cut, `none` if it is removed. -/
def cutDim (c : List (σ × ℕ)) (s : σ) (d : ℕ) : Option ℕ :=
  match OMap.find? c s with
  | some n => if n ≠ 0 then some (min n d) else none
  | none => some d

theorem cutStep_eq (c acc : List (σ × ℕ)) (x : σ × ℕ) :
    cutStep c acc x = match cutDim c x.1 x.2 with
      | some v => OMap.set acc x.1 v
      | none => acc := by
  unfold cutStep cutDim
  cases OMap.find? c x.1 with
  | none => rfl
  | some n =>
    dsimp only
    split
    · dsimp only
      congr 1
      split <;> omega
    · rfl

theorem cutStep_fold (c : List (σ × ℕ)) (m acc : List (σ × ℕ)) (hn : (OMap.keys m).Nodup)
    (ha : OMap.Sorted acc) :
    OMap.Sorted (m.foldl (cutStep c) acc) ∧
    ∀ s, OMap.find? (m.foldl (cutStep c) acc) s =
      ((OMap.find? m s).bind (cutDim c s)).or (OMap.find? acc s) := by
  induction m generalizing acc with
  | nil => exact ⟨ha, fun s => by simp [OMap.find?]⟩
  | cons x m ih =>
    rw [OMap.keys_cons, List.nodup_cons] at hn
    rw [List.foldl_cons, cutStep_eq]
    have hx : OMap.find? m x.1 = none := OMap.find?_eq_none.2 hn.1
    cases hc : cutDim c x.1 x.2 with
    | none =>
      dsimp only
      obtain ⟨i1, i2⟩ := ih acc hn.2 ha
      refine ⟨i1, fun s => ?_⟩
      rw [i2 s]
      by_cases hs : s = x.1
      · subst hs; simp [OMap.find?, hx, hc]
      · simp [OMap.find?, hs]
    | some v =>
      dsimp only
      obtain ⟨i1, i2⟩ := ih (OMap.set acc x.1 v) hn.2 (ha.set _ _)
      refine ⟨i1, fun s => ?_⟩
      rw [i2 s, OMap.find?_set]
      by_cases hs : s = x.1
      · subst hs; simp [OMap.find?, hx, hc]
      · simp [OMap.find?, hs]

theorem cutEdge_find (cut : List (ν × List (σ × ℕ))) (n : ν) {e : Edge σ} (he : OMap.Sorted e.map) :
    OMap.Sorted (cutEdge cut n e).map ∧ (cutEdge cut n e).arrow = e.arrow ∧
    ∀ s, OMap.find? (cutEdge cut n e).map s =
      (OMap.find? e.map s).bind (cutDim ((OMap.find? cut n).getD []) s) := by
  unfold cutEdge
  cases OMap.find? cut n with
  | none =>
    refine ⟨he, rfl, fun s => ?_⟩
    have : cutDim (σ := σ) [] s = some := by funext d; rfl
    rw [Option.getD_none, this]
    cases OMap.find? e.map s <;> rfl
  | some c =>
    obtain ⟨h1, h2⟩ := cutStep_fold c e.map [] he.nodup (by simp [OMap.Sorted])
    refine ⟨h1, rfl, fun s => ?_⟩
    dsimp only
    rw [h2 s]
    simp [OMap.find?]

theorem cutDim_le {c : List (σ × ℕ)} {s : σ} {d v : ℕ} (h : cutDim c s d = some v) : v ≤ d := by
  unfold cutDim at h
  split at h
  · split at h
    · cases h; omega
    · cases h
  · cases h; exact le_refl _

/-- A cut edge is contained in the original one. -/
structure SubEdge (e' e : Edge σ) : Prop where
  sorted : OMap.Sorted e'.map
  arrow : e'.arrow = e.arrow
  dim : ∀ s ∈ OMap.keys e'.map, s ∈ OMap.keys e.map ∧ dimOf e' s ≤ dimOf e s

theorem cutEdge_sub (cut : List (ν × List (σ × ℕ))) (n : ν) {e : Edge σ} (he : OMap.Sorted e.map) :
    SubEdge (cutEdge cut n e) e := by
  obtain ⟨h1, h2, h3⟩ := cutEdge_find cut n he
  refine ⟨h1, h2, fun s hs => ?_⟩
  obtain ⟨v, hv⟩ := Option.isSome_iff_exists.1 (OMap.find?_isSome.2 hs)
  have := hv
  rw [h3] at this
  obtain ⟨d, hd, hdv⟩ := Option.bind_eq_some_iff.1 this
  refine ⟨OMap.find?_isSome.1 (by rw [hd]; rfl), ?_⟩
  unfold dimOf
  rw [hv, hd]
  exact cutDim_le hdv

theorem edgeBeforeSplit_sub (cut : List (ν × List (σ × ℕ))) (names : List ν) (edges : List (Edge σ))
    (hl : names.length = edges.length) (hs : ∀ e ∈ edges, OMap.Sorted e.map) :
    List.Forall₂ SubEdge (edgeBeforeSplit cut names edges) edges := by
  unfold edgeBeforeSplit
  split
  · exact List.forall₂_same.2 fun e he => ⟨hs e he, rfl, fun s h => ⟨h, le_refl _⟩⟩
  · induction edges generalizing names with
    | nil => cases names <;> simp
    | cons e es ih =>
      cases names with
      | nil => simp at hl
      | cons n ns =>
        rw [List.zipWith_cons_cons]
        exact .cons (cutEdge_sub cut n (hs e (by simp)))
          (ih ns (by simpa using hl) fun x hx => hs x (by simp [hx]))

theorem nameBeforeSplit_eq (m : List (ν × ν)) (names : List ν) :
    nameBeforeSplit m names = names.map (renameOne m) := by
  unfold nameBeforeSplit
  split
  · rename_i h
    have : m = [] := List.isEmpty_iff.1 h
    subst this
    have : renameOne ([] : List (ν × ν)) = id := by funext n; rfl
    rw [this, List.map_id]
  · rfl

end cut

/-! ## split -/

section split
variable [LinearOrder ν] [TatSym σ]

theorem splitLoop_eq (splitMap : List (ν × List (ν × List (σ × ℕ)))) (k : ℕ) (names : List ν)
    (edges : List (Edge σ)) (hl : names.length = edges.length) :
    (splitLoop splitMap k names edges).names = (fineEdges splitMap (names.zip edges)).map Prod.fst ∧
    (splitLoop splitMap k names edges).edges = (fineEdges splitMap (names.zip edges)).map Prod.snd ∧
    (splitLoop splitMap k names edges).flag = flagsFrom k (splitGroups splitMap names) ∧
    (splitLoop splitMap k names edges).offset = List.zipWith (fun n (e : Edge σ) =>
      match OMap.find? splitMap n with
      | some parts => splitOffset e.map (parts.map Prod.snd)
      | none => []) names edges := by
  induction names generalizing k edges with
  | nil => cases edges <;> simp_all [splitLoop, fineEdges, splitGroups, flagsFrom]
  | cons n ns ih =>
    cases edges with
    | nil => simp at hl
    | cons e es =>
      obtain ⟨i1, i2, i3, i4⟩ := ih (k + 1) es (by simpa using hl)
      rw [splitLoop]
      simp only [List.zip_cons_cons, fineEdges, List.flatMap_cons, splitGroups, List.map_cons,
        List.zipWith_cons_cons, flagsFrom] at *
      cases OMap.find? splitMap n with
      | none => simp [i1, i2, i3, i4]
      | some parts => simp [i1, i2, i3, i4, Function.comp_def]

theorem splitGroups_flatten (splitMap : List (ν × List (ν × List (σ × ℕ)))) (names : List ν)
    (edges : List (Edge σ)) (hl : names.length = edges.length) :
    (splitGroups splitMap names).flatten = (fineEdges splitMap (names.zip edges)).map Prod.fst := by
  induction names generalizing edges with
  | nil => cases edges <;> simp_all [fineEdges, splitGroups]
  | cons n ns ih =>
    cases edges with
    | nil => simp at hl
    | cons e es =>
      have i := ih es (by simpa using hl)
      unfold splitGroups fineEdges at *
      rw [List.map_cons, List.flatten_cons, List.zip_cons_cons, List.flatMap_cons, List.map_append,
        i]
      congr 1
      cases OMap.find? splitMap n with
      | none => rfl
      | some parts => simp [Function.comp_def]

theorem fineEdges_nil (edges : List (ν × Edge σ)) : fineEdges [] edges = edges := by
  unfold fineEdges
  simp [OMap.find?]

theorem splitGroups_nil (names : List ν) :
    splitGroups ([] : List (ν × List (ν × List (σ × ℕ)))) names = names.map fun n => [n] := rfl

theorem splitStage_eq (splitMap : List (ν × List (ν × List (σ × ℕ)))) (names : List ν)
    (edges : List (Edge σ)) (hl : names.length = edges.length) :
    (splitStage splitMap names edges).names = (splitGroups splitMap names).flatten ∧
    (splitStage splitMap names edges).edges = (fineEdges splitMap (names.zip edges)).map Prod.snd ∧
    (splitStage splitMap names edges).flag = flagsOf (splitGroups splitMap names) := by
  unfold splitStage
  split
  · rename_i h
    have : splitMap = [] := List.isEmpty_iff.1 h
    subst this
    rw [fineEdges_nil, splitGroups_nil, flatten_singletons, flagsOf_singletons]
    refine ⟨rfl, ?_, rfl⟩
    dsimp only
    rw [List.map_snd_zip (by omega)]
  · obtain ⟨h1, h2, h3, _⟩ := splitLoop_eq splitMap 0 names edges hl
    exact ⟨by rw [h1, splitGroups_flatten _ _ _ hl], h2, h3⟩

/-- The edge named `n` among distinctly named edges. -/
theorem edgeNamed_map {edges : List (ν × Edge σ)} (hn : (edges.map Prod.fst).Nodup) :
    (edges.map Prod.fst).map (edgeNamed edges) = edges.map Prod.snd := by
  rw [List.map_map]
  refine List.map_congr_left fun x hx => ?_
  simp only [Function.comp, edgeNamed]
  have : (edges.find? fun y => decide (y.1 = x.1)) = some x := by
    induction edges with
    | nil => simp at hx
    | cons y l ih =>
      rw [List.map_cons, List.nodup_cons] at hn
      rcases List.mem_cons.1 hx with rfl | hx
      · simp
      · rw [List.find?_cons, ih hn.2 hx]
        have : y.1 ≠ x.1 := by
          intro h
          exact hn.1 (h ▸ List.mem_map_of_mem hx)
        simp [this]
  rw [this]; rfl

theorem reverseEdges_maps (reversed : List ν) (names : List ν) (edges : List (Edge σ))
    (hl : names.length = edges.length) :
    (reverseEdges reversed names edges).map Edge.map = edges.map Edge.map := by
  unfold reverseEdges
  split
  · induction names generalizing edges with
    | nil => cases edges <;> simp_all
    | cons n ns ih =>
      cases edges with
      | nil => simp at hl
      | cons e es =>
        rw [List.zipWith_cons_cons, List.map_cons, List.map_cons,
          ih es (by simpa using hl)]
        congr 1
        unfold reverseOne
        split <;> rfl
  · rfl

/-- The edges before the transposition as a function of their names. -/
def reversedEdge (reversed : List ν) (e : ν → Edge σ) (n : ν) : Edge σ :=
  if TatSym.isFermi σ then reverseOne reversed n (e n) else e n

theorem reverseEdges_eq (reversed : List ν) (names : List ν) (e : ν → Edge σ) :
    reverseEdges reversed names (names.map e) = names.map (reversedEdge reversed e) := by
  unfold reverseEdges reversedEdge
  by_cases hf : TatSym.isFermi σ = true
  · by_cases hr : reversed.isEmpty
    · have : reversed = [] := List.isEmpty_iff.1 hr
      subst this
      simp [reverseOne, hf]
    · simp only [hf, Bool.true_and, hr, Bool.not_false, if_true]
      have : ∀ l : List ν, List.zipWith (reverseOne reversed) l (l.map e) =
          l.map fun n => reverseOne reversed n (e n) := by
        intro l
        rw [List.zipWith_map_right, List.zipWith_self]
      simp [this]
  · simp [hf]

end split

/-! ## merge -/

section merge
variable [LinearOrder ν]

theorem mergeNamesLoop_eq (mergeMap : List (ν × List ν)) (k : ℕ) (newNames : List ν) :
    mergeNamesLoop mergeMap k newNames =
      ((mergeGroups mergeMap newNames).flatten, flagsFrom k (mergeGroups mergeMap newNames)) := by
  induction newNames generalizing k with
  | nil => rfl
  | cons n ns ih =>
    unfold mergeGroups at *
    rw [mergeNamesLoop, ih (k + 1), List.map_cons, List.flatten_cons, flagsFrom]
    cases OMap.find? mergeMap n with
    | none => rfl
    | some g => rfl

theorem mergeGroups_nil (newNames : List ν) :
    mergeGroups [] newNames = newNames.map fun n => [n] := rfl

theorem mergeNames_eq (mergeMap : List (ν × List ν)) (newNames : List ν) :
    mergeNames mergeMap newNames =
      ((mergeGroups mergeMap newNames).flatten, flagsOf (mergeGroups mergeMap newNames)) := by
  unfold mergeNames
  split
  · rename_i h
    have : mergeMap = [] := List.isEmpty_iff.1 h
    subst this
    rw [mergeGroups_nil, flatten_singletons, flagsOf_singletons]
  · exact mergeNamesLoop_eq mergeMap 0 newNames

omit [LinearOrder ν] in
variable [TatSym σ] in
theorem mergeArrow_some (a : Bool) (es : List (Edge σ)) :
    (mergeArrow (some a) es).1.map Edge.map = es.map Edge.map ∧
    (mergeArrow (some a) es).2.1 = es.map (fun e => arrowValid e && decide (some a ≠ some e.arrow)) ∧
    (mergeArrow (some a) es).2.2 = some a := by
  induction es with
  | nil => exact ⟨rfl, rfl, rfl⟩
  | cons e es ih =>
    obtain ⟨i1, i2, i3⟩ := ih
    rw [mergeArrow]
    by_cases hv : arrowValid e
    · simp only [hv, if_true]
      by_cases ha : a = e.arrow
      · simp [ha, hv] at *
        exact ⟨i1, i2, i3⟩
      · simp only [if_neg ha]
        simp [hv, ha, i1, i3]
        simpa using i2
    · simp only [hv]
      simp [hv, i1, i3]
      simpa using i2

omit [LinearOrder ν] in
variable [TatSym σ] in
/-- Fixing the arrow of a merge group. -/
theorem mergeArrow_none (es : List (Edge σ)) :
    (mergeArrow none es).1.map Edge.map = es.map Edge.map ∧
    (mergeArrow none es).2.1 = flipFlags es ∧
    (mergeArrow none es).2.2 = firstArrow es := by
  have key : (mergeArrow none es).1.map Edge.map = es.map Edge.map ∧
      (mergeArrow none es).2.1 =
        es.map (fun e => arrowValid e && decide (firstArrow es ≠ some e.arrow)) ∧
      (mergeArrow none es).2.2 = firstArrow es := by
    induction es with
    | nil => exact ⟨rfl, rfl, rfl⟩
    | cons e es ih =>
      rw [mergeArrow]
      by_cases hv : arrowValid e
      · obtain ⟨s1, s2, s3⟩ := mergeArrow_some e.arrow es
        have hf : firstArrow (e :: es) = some e.arrow := by simp [firstArrow, hv]
        simp only [hv, if_true]
        rw [hf]
        refine ⟨by simp [s1], ?_, s3⟩
        rw [s2, List.map_cons]
        simp
      · obtain ⟨i1, i2, i3⟩ := ih
        have hf : firstArrow (e :: es) = firstArrow es := by simp [firstArrow, hv]
        rw [hf]
        simp only [hv]
        refine ⟨by simp [i1], ?_, by simpa using i3⟩
        simp only [Bool.false_eq_true, if_false, List.map_cons, hv, Bool.false_and, i2]
  exact key

section stage
variable [TatSym σ]

/-- The result edge of a merge group. -/
def groupEdge (garbage : Bool) (es : List (Edge σ)) : Edge σ :=
  match es with
  | [e] => e
  | _ => ⟨if TatSym.isFermi σ then (firstArrow es).getD garbage else false,
      (mergeGroup (es.map Edge.map)).1⟩

/-- Which members of a merge group are reversed. -/
def groupFlags (es : List (Edge σ)) : List Bool :=
  if TatSym.isFermi σ then flipFlags es else List.replicate es.length false

theorem flipFlags_single (e : Edge σ) : flipFlags [e] = [false] := by
  unfold flipFlags firstArrow
  by_cases hv : arrowValid e <;> simp [hv]

theorem mergeArrow_single (e : Edge σ) : (mergeArrow none [e]).1 = [e] := by
  rw [mergeArrow]
  by_cases hv : arrowValid e <;> simp [hv, mergeArrow]

omit [LinearOrder ν] in
/-- The merge loop on edges given by names. -/
theorem mergeLoop_eq (garbage : ℕ → Bool) (e : ν → Edge σ) (k : ℕ) (groups : List (List ν)) :
    (mergeLoop garbage groups.length k ((flagsFrom k groups).zip (groups.flatten.map e))).before.map
        Edge.map = groups.flatten.map (fun n => (e n).map) ∧
    (mergeLoop garbage groups.length k ((flagsFrom k groups).zip (groups.flatten.map e))).flag =
      groups.flatMap (fun g => groupFlags (g.map e)) ∧
    (mergeLoop garbage groups.length k ((flagsFrom k groups).zip (groups.flatten.map e))).result =
      (groups.zipIdx k).map (fun x => groupEdge (garbage x.2) (x.1.map e)) ∧
    (mergeLoop garbage groups.length k ((flagsFrom k groups).zip (groups.flatten.map e))).offset =
      groups.map (fun g => if g.length = 1 then [] else
        (mergeGroup (g.map fun n => (e n).map)).2) := by
  induction groups generalizing k with
  | nil => exact ⟨rfl, rfl, rfl, rfl⟩
  | cons g gs ih =>
    obtain ⟨t1, t2⟩ := takeWhile_flags e k g gs
    obtain ⟨i1, i2, i3, i4⟩ := ih (k + 1)
    rw [List.length_cons, mergeLoop, t1, t2]
    have hg : (g.map fun x => (k, e x)).map Prod.snd = g.map e := by
      rw [List.map_map]; rfl
    simp only [hg]
    rw [List.map_append, i1, i2, i3, i4, List.flatten_cons, List.map_append, List.flatMap_cons,
      List.zipIdx_cons, List.map_cons, List.map_cons]
    have hmaps : ∀ es : List (Edge σ),
        (if TatSym.isFermi σ = true then mergeArrow none es
          else (es, List.replicate es.length false, some false)).1.map Edge.map =
          es.map Edge.map := by
      intro es
      split
      · exact (mergeArrow_none es).1
      · rfl
    have hflag : (if TatSym.isFermi σ = true then mergeArrow none (g.map e)
          else (g.map e, List.replicate (g.map e).length false, some false)).2.1 =
          groupFlags (g.map e) := by
      unfold groupFlags
      split
      · exact (mergeArrow_none _).2.1
      · rfl
    have harr : (if TatSym.isFermi σ = true then mergeArrow none (g.map e)
          else (g.map e, List.replicate (g.map e).length false, some false)).2.2.getD (garbage k) =
          if TatSym.isFermi σ then (firstArrow (g.map e)).getD (garbage k) else false := by
      split
      · rw [(mergeArrow_none _).2.2]
      · rfl
    have hm : mergedEdge
          ((if TatSym.isFermi σ = true then mergeArrow none (g.map e)
            else (g.map e, List.replicate (g.map e).length false, some false)).2.2.getD (garbage k))
          (if TatSym.isFermi σ = true then mergeArrow none (g.map e)
            else (g.map e, List.replicate (g.map e).length false, some false)).1 =
        (groupEdge (garbage k) (g.map e),
          if g.length = 1 then [] else (mergeGroup (g.map fun n => (e n).map)).2) := by
      rw [harr]
      match g with
      | [n] =>
        have : (if TatSym.isFermi σ = true then mergeArrow none ([n].map e)
            else ([n].map e, List.replicate ([n].map e).length false, some false)).1 = [e n] := by
          split
          · exact mergeArrow_single (e n)
          · rfl
        rw [this]
        rfl
      | [] =>
        have : (if TatSym.isFermi σ = true then mergeArrow none (([] : List ν).map e)
            else (([] : List ν).map e, List.replicate (([] : List ν).map e).length false,
              some false)).1 = [] := by
          split <;> rfl
        rw [this]
        rfl
      | n :: n' :: l =>
        have h := hmaps ((n :: n' :: l).map e)
        generalize (if TatSym.isFermi σ = true then mergeArrow none ((n :: n' :: l).map e)
            else ((n :: n' :: l).map e, List.replicate ((n :: n' :: l).map e).length false,
              some false)).1 = es at h
        have hlen := congrArg List.length h
        match es with
        | [] => simp at hlen
        | [_] => simp at hlen
        | a :: b :: es =>
          unfold mergedEdge groupEdge
          dsimp only
          rw [h]
          simp [Function.comp_def]
    rw [hm, hflag]
    refine ⟨?_, rfl, rfl, rfl⟩
    rw [hmaps, List.map_map]
    rfl

/-- The merge stage, with or without merges. -/
theorem mergeStage_eq (garbage : ℕ → Bool) (mergeMap : List (ν × List ν)) (newNames : List ν)
    (e : ν → Edge σ) :
    let groups := mergeGroups mergeMap newNames
    let ms := mergeStage garbage mergeMap.isEmpty newNames.length (flagsOf groups)
      (groups.flatten.map e)
    ms.before.map Edge.map = groups.flatten.map (fun n => (e n).map) ∧
    ms.flag = groups.flatMap (fun g => groupFlags (g.map e)) ∧
    ms.result = (groups.zipIdx 0).map (fun x => groupEdge (garbage x.2) (x.1.map e)) ∧
    (mergeMap.isEmpty = false → ms.offset = groups.map (fun g => if g.length = 1 then [] else
        (mergeGroup (g.map fun n => (e n).map)).2)) := by
  intro groups ms
  by_cases h : mergeMap.isEmpty = true
  · have hm : mergeMap = [] := List.isEmpty_iff.1 h
    subst hm
    have hg : groups = newNames.map fun n => [n] := rfl
    have hms : ms = ⟨newNames.map e, List.replicate newNames.length false, newNames.map e, []⟩ := by
      simp only [ms, mergeStage, hg, flatten_singletons]
      simp
    rw [hms]
    have hgf : ∀ n : ν, groupFlags ([n].map e) = [false] := by
      intro n
      unfold groupFlags
      split
      · exact flipFlags_single _
      · rfl
    refine ⟨?_, ?_, ?_, ?_⟩
    · rw [hg, flatten_singletons, List.map_map]; rfl
    · rw [hg, List.flatMap_map]
      simp only [hgf]
      clear hms hg ms h
      clear groups
      induction newNames with
      | nil => rfl
      | cons x l ih => rw [List.flatMap_cons, ← ih]; rfl
    · rw [hg]
      dsimp only
      apply List.ext_getElem
      · simp
      · intro i h1 h2
        simp [groupEdge]
    · intro hc; simp at hc
  · have h' : mergeMap.isEmpty = false := by simpa using h
    have hl : groups.length = newNames.length := by simp [groups, mergeGroups]
    obtain ⟨a1, a2, a3, a4⟩ := mergeLoop_eq garbage e 0 groups
    have hms : ms = mergeLoop garbage groups.length 0 ((flagsFrom 0 groups).zip
        (groups.flatten.map e)) := by
      simp only [ms, mergeStage, h', hl]
      rfl
    rw [hms]
    exact ⟨a1, a2, a3, fun _ => a4⟩

end stage

end merge

end TAT
