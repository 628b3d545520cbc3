import Verif.EdgeMisc.MergeProps

/-!
C19 and C20, said without the functions of the model that compute the groups and the target names.
-/

namespace TAT
variable {ν σ α : Type} [LinearOrder ν] [TatSym σ]

/-- The edges of the tensor going into the edge `n` of the result: the existing ones among the
listed names, or `n` itself. -/
def mergedInto (names : List ν) (merge : List (ν × List ν)) (n : ν) : List ν :=
  match merge.find? fun m => decide (m.1 = n) with
  | some m => m.2.filter fun k => decide (k ∈ names)
  | none => [n]

/-- Where an edge of the result comes from: the place of the last listed edge of its group. -/
def placeOf (names : List ν) (merge : List (ν × List ν)) (n : ν) : ℕ :=
  names.idxOf ((mergedInto names merge n).getLastD n)

/-- The sign of an element: the exchange of the edges, the reversal of the edges against the arrow
of their group, and the reversal of the order inside the groups. -/
def mergingSign (t : Tensor ν σ α) (merge : List (ν × List ν)) (ap : Bool) (em er : List ν)
    (result : List ν) (p : ν → σ × ℕ) : ℤ :=
  if TatSym.isFermi σ then
    exchangeOf (oddAt p) t.names (result.flatMap (mergedInto t.names merge)) *
    (result.map fun n => reverseOf (oddAt p)
      (fun k => flipped (edgeOf t) (mergedInto t.names merge n) k && marked ap er k)
      (mergedInto t.names merge n)).prod *
    (result.map fun n => if marked ap em n = true then
      reversalSign ((mergedInto t.names merge n).map (oddAt p)) else 1).prod
  else 1

theorem mergedInto_eq (names : List ν) (merge : List (ν × List ν)) :
    groupOf (mergeExisting names merge) = mergedInto names merge := by
  funext n
  unfold groupOf mergedInto mergeExisting
  induction merge with
  | nil => rfl
  | cons m l ih =>
    rw [List.map_cons, OMap.find?, List.find?_cons]
    by_cases h : m.1 = n
    · simp [h]
    · have h' : n ≠ m.1 := fun e => h e.symm
      simp only [h, h', decide_false, if_false]
      exact ih

theorem MergeOk'.place (h : MergeOk' names merge) {n x : ν} (hn : n ∈ names)
    (hx : x ∈ mergeTargetStep merge n) : (groupOf merge x).getLastD x = n := by
  rcases (h.mem_step hn).1 hx with ⟨hu, rfl⟩ | ⟨m, hm, hl, rfl⟩
  · have : OMap.find? merge x = none := by
      rw [OMap.find?_eq_none]
      intro hk
      obtain ⟨m, hm, rfl⟩ := List.mem_map.1 hk
      exact h.fresh m hm hu
    unfold groupOf
    rw [this]; rfl
  · unfold groupOf
    rw [OMap.find?_of_mem h.keys (show (m.1, m.2) ∈ merge from hm), Option.getD_some,
      List.getLastD_eq_getLast?, hl, Option.getD_some]

theorem mergeTarget_eq (names : List ν) (merge : List (ν × List ν)) :
    mergeTarget names merge =
      ((merge.filter fun m => m.2.isEmpty).map Prod.fst).reverse ++
        names.flatMap (mergeTargetStep merge) := by
  unfold mergeTarget
  rw [List.reverse_append]
  congr 1
  have hs : ∀ n, (mergeTargetStep merge n).reverse = mergeTargetStep merge n := by
    intro n
    unfold mergeTargetStep
    split
    · split <;> rfl
    · rfl
  induction names with
  | nil => rfl
  | cons n l ih =>
    rw [List.reverse_cons, List.flatMap_append, List.reverse_append, ih, List.flatMap_cons]
    simp [hs]

/-- The merge lists without the names which the tensor does not have. -/
def listedEdges (names : List ν) (merge : List (ν × List ν)) : List (ν × List ν) :=
  merge.map fun m => (m.1, m.2.filter fun n => decide (n ∈ names))

/-- **C19**: the names of the result are first the new names into which no existing edge is merged, and
then the other edges ordered by the place of the last listed edge of their group; every merged edge
gets the arrow of the first edge of its group on which an arrow has a meaning; every element comes
with the product of the three signs. -/
theorem C19_merge_places [Neg α] [Zero α] (env : Env σ α) {t : Tensor ν σ α} (ht : WF t)
    {merge : List (ν × List ν)} (hm : MergeOk t.names merge) (ap : Bool) (em er : List ν) :
    ∃ r, mergeEdge env t merge ap em er = .ok r ∧
      (∃ A B, r.names = A ++ B ∧
        A = ((merge.filter fun m => m.2.all fun k => decide (k ∉ t.names)).map Prod.fst).reverse ∧
        B.Pairwise (fun x y => placeOf t.names merge x < placeOf t.names merge y) ∧
        ∀ x ∈ B, placeOf t.names merge x < t.names.length) ∧
      (∀ n ∈ r.names, TatSym.isFermi σ = true → ∀ e,
        ((mergedInto t.names merge n).map (edgeOf t)).find? arrowValid = some e →
        (edgeOf r n).arrow = e.arrow) ∧
      (∀ p, ValidPos t p → ∀ q : ν → σ × ℕ,
        (∀ n ∈ r.names, q n = ((keyOf (mergedInto t.names merge n) p).sum,
          groupIdx (mapOf t) (mergedInto t.names merge n) p)) →
        elem r q = (elem t p).map (applySign (mergingSign t merge ap em er r.names p))) := by
  have h := hm.merging ht ap em er
  have hM' := hm.existing ht.nodup
  obtain ⟨r, h1, h2, h3, h4, h5, h6⟩ := merging_spec env h
  have hn : r.names = mergeTarget t.names (mergeExisting t.names merge) := h2
  have hgr := mergedInto_eq t.names merge
  have hg : opM (mergeArgs t merge ap em er) = r.names.map (mergedInto t.names merge) := by
    unfold opM; rw [mergeGroups_eq, h2, ← hgr]; rfl
  refine ⟨r, h1, ?_, ?_, ?_⟩
  · refine ⟨_, _, hn.trans (mergeTarget_eq _ _), ?_, ?_, ?_⟩
    · congr 1
      unfold mergeExisting
      rw [List.filter_map, List.map_map]
      congr 1
      apply List.filter_congr
      intro m _
      rw [Bool.eq_iff_iff]
      simp [List.filter_eq_nil_iff]
    · rw [List.pairwise_flatMap]
      refine ⟨fun n hn' => ?_, ?_⟩
      · unfold mergeTargetStep
        split
        · split <;> simp
        · simp
      · rw [List.pairwise_iff_getElem]
        intro i j hi hj hij x hx y hy
        unfold placeOf
        rw [← hgr, hM'.place (List.getElem_mem hi) hx, hM'.place (List.getElem_mem hj) hy,
          ht.nodup.idxOf_getElem, ht.nodup.idxOf_getElem]
        exact hij
    · intro x hx
      obtain ⟨n, hn', hx'⟩ := List.mem_flatMap.1 hx
      unfold placeOf
      rw [← hgr, hM'.place hn' hx']
      exact List.idxOf_lt_length_of_mem hn'
  · intro n hnr hf e he
    obtain ⟨i, hi, rfl⟩ := List.mem_iff_getElem.1 hnr
    have hir : i < r.core.edges.length := by rw [← h3.rank]; exact hi
    have hiM : i < (opM (mergeArgs t merge ap em er)).length := by
      rw [opM_length, ← h2]; exact hi
    have hed : edgeOf r r.names[i] = r.core.edges[i] := by
      have h' := congrArg (fun l => l[i]?) (edges_named h3)
      simp only [List.getElem?_map, List.getElem?_eq_getElem hir, List.getElem?_eq_getElem hi,
        Option.map_some, Option.some.injEq] at h'
      exact h'.symm
    have hgi : (opM (mergeArgs t merge ap em er))[i] = mergedInto t.names merge r.names[i] := by
      simp only [hg, List.getElem_map]
    rw [hed, (h.edgeAt env.garbage h4 i hir hiM).2, hgi]
    generalize (mergedInto t.names merge r.names[i]).map (edgeOf t) = es at he
    unfold groupEdge
    split
    · rename_i e'
      rw [List.find?_singleton] at he
      split at he
      · rw [Option.some.inj he]
      · cases he
    · simp only [hf, if_true]
      unfold firstArrow
      rw [he]; rfl
  · intro p hp q hq
    have hs : mergeSign t (mergeArgs t merge ap em er) p = mergingSign t merge ap em er r.names p := by
      unfold mergeSign mergingSign
      rw [hg, ← h2]
      have e1 : groupsOf (oddAt p) (r.names.map (mergedInto t.names merge))
          (r.names.map (marked ap em)) = (r.names.map fun n => if marked ap em n = true then
          reversalSign ((mergedInto t.names merge n).map (oddAt p)) else 1).prod := by
        unfold groupsOf
        rw [List.zipWith_map, List.zipWith_self]
      rw [List.map_map, ← List.flatMap_def]
      congr 2
    rw [← hs, ← h6 p hp]
    unfold elem
    have k1 : keyOf r.names q = coarseKey (opM (mergeArgs t merge ap em er)) p := by
      rw [hg]
      unfold coarseKey keyOf
      rw [List.map_map]
      exact List.map_congr_left fun n hn' => by rw [hq n hn']; rfl
    have k2 : idxOf r.names q = coarseIdx (mapOf t) (opM (mergeArgs t merge ap em er)) p := by
      rw [hg]
      unfold coarseIdx idxOf
      rw [List.map_map]
      exact List.map_congr_left fun n hn' => by rw [hq n hn']; rfl
    rw [k1, k2]

/-- **C19**: merging with a usable merge map succeeds.  The names of the result are the unmerged
names and the new ones.  The dimension of every symmetry of a result edge is the sum, over all
combinations of symmetries of its group with this total, of the product of the dimensions.  The map
of positions is total, injective and surjective, and every element is kept up to the sign. -/
theorem C19_merge [Neg α] [Zero α] (env : Env σ α) {t : Tensor ν σ α} (ht : WF t)
    {merge : List (ν × List ν)} (hm : MergeOk t.names merge) (ap : Bool) (em er : List ν) :
    ∃ r, mergeEdge env t merge ap em er = .ok r ∧ WF r ∧
      r.names.Perm (unmerged (listedEdges t.names merge) t.names ++ OMap.keys merge) ∧
      (∀ n ∈ r.names, ∀ s ∈ OMap.keys (mapOf r n), dimM (mapOf r n) s =
        mergedDim ((groupOf (listedEdges t.names merge) n).map (mapOf t)) s) ∧
      (∀ p, ValidPos t p → ValidPos r (mergedPos t (listedEdges t.names merge) p)) ∧
      (∀ p p', ValidPos t p → ValidPos t p' →
        (∀ n ∈ r.names, mergedPos t (listedEdges t.names merge) p n =
          mergedPos t (listedEdges t.names merge) p' n) → ∀ n ∈ t.names, p n = p' n) ∧
      (∀ q, ValidPos r q → ∃ p, ValidPos t p ∧
        ∀ n ∈ r.names, mergedPos t (listedEdges t.names merge) p n = q n) ∧
      (∀ p, ValidPos t p → elem r (mergedPos t (listedEdges t.names merge) p) =
        (elem t p).map (applySign (mergingSign t merge ap em er r.names p))) := by
  obtain ⟨r, h1, h2, _, h3, h4, h5, h6, h7, _⟩ := merge_edge_spec env ht hm ap em er
  obtain ⟨r', k1, _, _, k2⟩ := C19_merge_places env ht hm ap em er
  obtain rfl : r = r' := Outcome.ok.inj (h1.symm.trans k1)
  refine ⟨r, h1, h2, h3, h4, h5, h6, h7, fun p hp => k2 p hp _ fun n _ => ?_⟩
  rw [← mergedInto_eq]
  rfl

/-- **C20**: merging edges and splitting the merged edges back into the same edges restores the
tensor, up to the order of the edges: the result is the transposed original, with all signs.  The
members of each group have the same arrow as far as their arrows matter. -/
theorem C20_merge_split [InvolutiveNeg α] [Zero α] (env₁ env₂ env₃ : Env σ α) {t : Tensor ν σ α}
    (ht : WF t) {merge : List (ν × List ν)} (hm : MergeOk t.names merge) (ap : Bool)
    (em er : List ν)
    (harrow : TatSym.isFermi σ = true → ∀ m ∈ listedEdges t.names merge, ∀ n ∈ m.2, ∀ n' ∈ m.2,
      arrowValid (edgeOf t n) = true → arrowValid (edgeOf t n') = true →
      (edgeOf t n).arrow = (edgeOf t n').arrow) :
    ∃ r u v, mergeEdge env₁ t merge ap em er = .ok r ∧
      splitEdge env₂ r (splitBack t (listedEdges t.names merge)) ap em = .ok u ∧
      t.names.Perm u.names ∧ transpose env₃ t u.names = .ok v ∧ SameTensor v u := by
  exact merge_split_back env₁ env₂ env₃ ht hm ap em er harrow

/-! ## examples -/

/-- The group `[2, 0]` stands where the edge 0 was; edges with different arrows get the arrow of the
first one listed, and the other one is reversed. -/
example : placeOf sampleFermi.names [(5, [2, 0, 8])] 5 = 0 ∧
    placeOf sampleFermi.names [(5, [2, 0, 8])] 1 = 1 := by decide

example : MergeOk sampleFermi.names [(5, [1, 2]), (6, [9])] := ⟨by decide, by decide, by decide⟩

example : mergeEdge env0 sampleFermi [(5, [1, 2]), (6, [9])] true = .ok
    ⟨[6, 0, 5], [⟨false, [(⟨0⟩, 1)]⟩, ⟨false, [(⟨0⟩, 1), (⟨1⟩, 1)]⟩, ⟨true, [(⟨-1⟩, 2), (⟨0⟩, 3)]⟩],
      [([⟨0⟩, ⟨0⟩, ⟨0⟩], [1, 2, 3]), ([⟨0⟩, ⟨1⟩, ⟨-1⟩], [4, -5])]⟩ := by decide +kernel

end TAT
