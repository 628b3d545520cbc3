import Verif.Expo.Model
import Verif.Decomp.Unfold

/-!
# Splitting both edges of a matrix
-/

set_option linter.unusedSectionVars false

namespace TAT

variable {ν σ α : Type} [LinearOrder ν] [TatSym σ]

/-- The edge of the result. -/
def scatterEdge (t : Tensor ν σ α) (F C : Edge σ) (A R : List ν) (n : ν) : Edge σ :=
  reversedEdge R (fun n => if n ∈ A then ⟨F.arrow, mapOf t n⟩ else ⟨C.arrow, mapOf t n⟩) n

theorem scatter_both [Neg α] [Zero α] (env : Env σ α) {t T : Tensor ν σ α} (hT : WF T) {x1 x2 : ν}
    {A B : List ν} (hAB : (A ++ B).Nodup) (hs : ∀ n ∈ A ++ B, OMap.Sorted (mapOf t n))
    {F C : Edge σ} (hn : T.names = [x1, x2]) (he : T.core.edges = [F, C])
    {S : List (ν × List (ν × List (σ × ℕ)))}
    (h1 : OMap.find? S x1 = some (A.map fun n => (n, mapOf t n)))
    (h2 : OMap.find? S x2 = some (B.map fun n => (n, mapOf t n)))
    (hS : ∀ x ∈ S, ∀ y ∈ x.2, OMap.Sorted y.2) {R : List ν}
    (kF : ∀ q, KeyOk (mapOf t) (A ++ B) q → (keyOf A q).sum ∈ OMap.keys F.map)
    (kC : ∀ q, KeyOk (mapOf t) (A ++ B) q → (keyOf B q).sum ∈ OMap.keys C.map)
    (dF : ∀ s ∈ OMap.keys F.map, dimOf F s = mergedDim (A.map (mapOf t)) s)
    (dC : ∀ s ∈ OMap.keys C.map, dimOf C s = mergedDim (B.map (mapOf t)) s) :
    ∃ u, edgeOperator env T { split := S, reversed := R, newNames := A ++ B } = .ok u ∧
      u.names = A ++ B ∧ WF u ∧
      u.core.edges = prunedEdges ((A ++ B).map (scatterEdge t F C A R)) ∧
      ∀ q, FineOk (mapOf t) (A ++ B) q →
        elem u q = elemAt T.core [(keyOf A q).sum, (keyOf B q).sum]
          [groupIdx (mapOf t) A q, groupIdx (mapOf t) B q] := by
  set a : EdgeArgs ν σ := { split := S, reversed := R, newNames := A ++ B } with ha
  have hnames : opNames T a = [x1, x2] := by
    unfold opNames
    rw [hn]
    exact (List.map_congr_left fun n _ => renameOne_nil n).trans (List.map_id _)
  have hcut : opCut T a = [F, C] := by
    unfold opCut
    unfold edgeBeforeSplit
    rw [he]
    rfl
  have p1 : ∀ G : List ν, (G.map fun n => (n, mapOf t n)).map Prod.fst = G := map_fst_parts t
  have p2 : ∀ G : List ν, (G.map fun n => (n, mapOf t n)).map Prod.snd = G.map (mapOf t) :=
    map_snd_parts t
  have hSg : opS T a = [A, B] := by
    unfold opS splitGroups
    rw [hnames]
    simp only [List.map_cons, List.map_nil]
    rw [show a.split = S from rfl, h1, h2]
    dsimp only
    rw [p1, p1]
  have hSf : (opS T a).flatten = A ++ B := by rw [hSg]; simp
  have hM : opM a = (A ++ B).map fun n => [n] := opM_noMerge rfl
  have hMf : (opM a).flatten = A ++ B := by rw [hM, flatten_singletons]
  have hdisj : ∀ n ∈ B, n ∉ A := fun n hn h => by
    rw [List.nodup_append] at hAB
    exact hAB.2.2 n h n hn rfl
  have hfine : ∀ n ∈ A ++ B, opFine T a n =
      if n ∈ A then ⟨F.arrow, mapOf t n⟩ else ⟨C.arrow, mapOf t n⟩ := by
    have hE : fineEdges a.split ((opNames T a).zip (opCut T a)) =
        A.map (fun n => (n, (⟨F.arrow, mapOf t n⟩ : Edge σ))) ++
        B.map (fun n => (n, (⟨C.arrow, mapOf t n⟩ : Edge σ))) := by
      rw [hnames, hcut]
      unfold fineEdges
      simp only [List.zip_cons_cons, List.zip_nil_left, List.flatMap_cons, List.flatMap_nil]
      rw [show a.split = S from rfl, h1, h2]
      simp [List.map_map, Function.comp_def]
    have hf : ((fineEdges a.split ((opNames T a).zip (opCut T a))).map Prod.fst).Nodup := by
      rw [hE, List.map_append, List.map_map, List.map_map]
      have e1 : A.map (Prod.fst ∘ fun n => (n, (⟨F.arrow, mapOf t n⟩ : Edge σ))) = A :=
        List.map_id _
      have e2 : B.map (Prod.fst ∘ fun n => (n, (⟨C.arrow, mapOf t n⟩ : Edge σ))) = B :=
        List.map_id _
      rw [e1, e2]
      exact hAB
    intro n hn
    unfold opFine
    rcases List.mem_append.1 hn with hn | hn
    · rw [if_pos hn]
      exact edgeNamed_of_mem hf (x := (n, ⟨F.arrow, mapOf t n⟩)) (by
        rw [hE]; exact List.mem_append_left _ (List.mem_map.2 ⟨n, hn, rfl⟩))
    · rw [if_neg (hdisj n hn)]
      exact edgeNamed_of_mem hf (x := (n, ⟨C.arrow, mapOf t n⟩)) (by
        rw [hE]; exact List.mem_append_right _ (List.mem_map.2 ⟨n, hn, rfl⟩))
  have hmap : ∀ n ∈ A ++ B, opMap T a n = mapOf t n := by
    intro n hn
    unfold opMap
    rw [hfine n hn]
    split <;> rfl
  have hrev : ∀ n ∈ A ++ B, opReversed T a n = scatterEdge t F C A R n := by
    intro n hn
    unfold opReversed scatterEdge reversedEdge
    rw [hfine n hn]
  have hkey : ∀ q, KeyOk (opMap T a) (A ++ B) q ↔ KeyOk (mapOf t) (A ++ B) q := fun q =>
    keyOk_congr hmap
  have hok : OpOk T a := {
    wf := hT.shaped
    pruned := fun _ => hT.pruned
    nodup := by rw [hSf]; exact hAB
    perm := by rw [hSf, hMf]
    newNodup := hAB
    parts := hS
    fits := by
      intro y hy parts' hparts'
      rw [hnames, hcut] at hy
      have hy' : y = (x1, F) ∨ y = (x2, C) := by simpa using hy
      rw [hSf]
      rcases hy' with rfl | rfl
      · obtain rfl := Option.some.inj (h1.symm.trans hparts')
        rw [p1, p2]
        exact ⟨fun s hs => le_of_eq (dF s hs).symm, fun _ p hp _ => kF p ((hkey p).1 hp)⟩
      · obtain rfl := Option.some.inj (h2.symm.trans hparts')
        rw [p1, p2]
        exact ⟨fun s hs => le_of_eq (dC s hs).symm, fun _ p hp _ => kC p ((hkey p).1 hp)⟩
    cutKeys := by
      intro _ _
      rw [hcut, he]
      exact .cons rfl (.cons rfl .nil) }
  obtain ⟨u, d1, d2, d3, d4, d5, -⟩ := edgeOperator_spec env hok
  refine ⟨u, d1, d2, d3, ?_, fun q hq => ?_⟩
  · rw [d4]
    congr 1
    unfold opEdges
    rw [hM]
    apply List.ext_getElem
    · simp
    · intro i i1 i2
      simp only [List.getElem_map, List.getElem_zipIdx, List.map_singleton, groupEdge]
      exact hrev _ (List.getElem_mem _)
  · have hq' : FineOk (opMap T a) (opS T a).flatten q := by
      rw [hSf]; exact (fineOk_congr hmap).2 hq
    have hk := (hkey q).1 (by rw [← hSf]; exact hq'.keyOk)
    have hcoarse : coarseKey (opS T a) q = [(keyOf A q).sum, (keyOf B q).sum] := by
      rw [hSg]; rfl
    have hgi : ∀ G : List ν, (∀ n ∈ G, n ∈ A ++ B) →
        groupIdx (opMap T a) G q = groupIdx (mapOf t) G q := by
      intro G hG
      unfold groupIdx
      rw [List.map_congr_left fun n hn => hmap n (hG n hn),
        List.map_congr_left (g := fun n => dimM (mapOf t n) (q n).1)
        fun n hn => by rw [hmap n (hG n hn)]]
    have hcoarseI : coarseIdx (opMap T a) (opS T a) q =
        [groupIdx (mapOf t) A q, groupIdx (mapOf t) B q] := by
      rw [hSg]
      unfold coarseIdx
      rw [List.map_cons, List.map_cons, List.map_nil,
        hgi A fun n hn => List.mem_append_left _ hn, hgi B fun n hn => List.mem_append_right _ hn]
    have hin : opIn T a q := by
      unfold opIn
      rw [hcut, hcoarse]
      exact .cons (kF q hk) (.cons (kC q hk) .nil)
    have hsN : ∀ n ∈ A ++ B, OMap.Sorted (opMap T a n) := fun n hn => by
      rw [hmap n hn]; exact hs n hn
    have h5 := d5 q hq' hin
    rw [hM, coarseKey_singles, coarseIdx_singles hsN, hcoarse, hcoarseI] at h5
    have hsign : opSign T a q = 1 := by
      unfold opSign
      by_cases hf : TatSym.isFermi σ = true
      · rw [if_pos hf, hM, flatten_singletons, hSf,
          groupsOf_short _ (List.map _ _) _ (by
            intro g hg
            obtain ⟨n, _, rfl⟩ := List.mem_map.1 hg
            simp)]
        have e1 : (fun n => decide (n ∈ a.reversed) && marked a.applyParity a.excludeReverse n) =
            fun _ => false := by
          funext n; simp [ha, marked]
        have e2 := prod_reverseOf_false (oddAt q) ((A ++ B).map fun n => [n]) (fun g n =>
          flipped (opReversed T a) g n && marked a.applyParity a.excludeReverseMerge n) (by
            intro g n
            simp [ha, marked])
        have e3 : groupsOf (oddAt q) (opS T a)
            ((opNames T a).map (marked a.applyParity a.excludeSplit)) = 1 := by
          unfold groupsOf
          apply List.prod_eq_one
          intro y hy
          obtain ⟨i, hi, rfl⟩ := List.mem_iff_getElem.1 hy
          simp [ha, marked]
        rw [e1, e2, e3, reverseOf_false, exchangeOf_refl]
        simp
      · rw [if_neg hf]
    rw [hsign] at h5
    unfold elem
    rw [d2]
    refine h5.trans ?_
    rw [applySign_one, Option.map_id, id]

end TAT
