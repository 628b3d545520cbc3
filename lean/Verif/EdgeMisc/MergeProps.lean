import Verif.EdgeMisc.Merge
import Verif.EdgeMisc.Props

/-!
# Properties of merging and splitting (C19, C20)
-/

set_option linter.unusedSectionVars false

namespace TAT

variable {ν σ α : Type} [LinearOrder ν] [TatSym σ]

/-- What merging does. -/
theorem merge_edge_spec [Neg α] [Zero α] (env : Env σ α) {t : Tensor ν σ α} (ht : WF t)
    {merge : List (ν × List ν)} (hm : MergeOk t.names merge) (ap : Bool) (em er : List ν) :
    ∃ r, mergeEdge env t merge ap em er = .ok r ∧ WF r ∧
      r.names = mergeTarget t.names (mergeExisting t.names merge) ∧
      r.names.Perm (unmerged (mergeExisting t.names merge) t.names ++ OMap.keys merge) ∧
      (∀ n ∈ r.names, ∀ s ∈ OMap.keys (mapOf r n), dimM (mapOf r n) s =
        mergedDim ((groupOf (mergeExisting t.names merge) n).map (mapOf t)) s) ∧
      (∀ p, ValidPos t p → ValidPos r (mergedPos t (mergeExisting t.names merge) p)) ∧
      (∀ p p', ValidPos t p → ValidPos t p' →
        (∀ n ∈ r.names, mergedPos t (mergeExisting t.names merge) p n =
          mergedPos t (mergeExisting t.names merge) p' n) → ∀ n ∈ t.names, p n = p' n) ∧
      (∀ q, ValidPos r q → ∃ p, ValidPos t p ∧
        ∀ n ∈ r.names, mergedPos t (mergeExisting t.names merge) p n = q n) ∧
      (∀ p, ValidPos t p → elem r (mergedPos t (mergeExisting t.names merge) p) =
        (elem t p).map (applySign (mergeSign t (mergeArgs t merge ap em er) p))) := by
  have h := hm.merging ht ap em er
  have hM' := hm.existing ht.nodup
  obtain ⟨r, h1, h2, h3, h4, h5, h6⟩ := merging_spec env h
  have hn : r.names = mergeTarget t.names (mergeExisting t.names merge) := h2
  have hkeys : OMap.keys (mergeExisting t.names merge) = OMap.keys merge := by
    unfold mergeExisting OMap.keys
    rw [List.map_map]; rfl
  have hg : opM (mergeArgs t merge ap em er) = r.names.map (groupOf (mergeExisting t.names merge)) := by
    unfold opM; rw [mergeGroups_eq, h2]; rfl
  have hco := fun p => groupOf_eq_map (mergeExisting t.names merge) r.names t p
  have hMr : mergeGroups (mergeExisting t.names merge) r.names = opM (mergeArgs t merge ap em er) := by
    rw [hn]; rfl
  simp only [hMr] at hco
  refine ⟨r, h1, h3, hn, ?_, ?_, ?_, ?_, ?_, ?_⟩
  · rw [hn, ← hkeys]; exact hM'.perm_target
  · intro n hnr s hs
    obtain ⟨i, hi, rfl⟩ := List.mem_iff_getElem.1 hnr
    have hir : i < r.core.edges.length := by rw [← h3.rank]; exact hi
    have hiM : i < (opM (mergeArgs t merge ap em er)).length := by
      rw [opM_length, ← h2]; exact hi
    have he : edgeOf r r.names[i] = r.core.edges[i] := by
      have := edges_named h3
      have h' := congrArg (fun l => l[i]?) this
      simp only [List.getElem?_map, List.getElem?_eq_getElem hir, List.getElem?_eq_getElem hi,
        Option.map_some, Option.some.injEq] at h'
      exact h'.symm
    unfold mapOf at hs
    rw [he] at hs
    have := (h.edgeAt env.garbage h4 i hir hiM).1 s hs
    have hgi : (opM (mergeArgs t merge ap em er))[i] = groupOf (mergeExisting t.names merge) r.names[i] := by
      simp only [hg, List.getElem_map]
    rw [hgi] at this
    rw [← this, dimOf_eq]
    unfold mapOf
    rw [he]
  · intro p hp
    have hf := h.fineM.1 hp
    obtain ⟨k1, k2⟩ := h.coarse_keys env.garbage h4 hf.keyOk
    obtain ⟨e1, e2⟩ := hco p
    refine ⟨?_, ?_⟩
    · refine forall2_getElem.2 ⟨by rw [List.length_map, h3.rank], fun i hi hi' => ?_⟩
      have hir : i < r.names.length := by rw [h3.rank]; exact hi
      have hiM : i < (opM (mergeArgs t merge ap em er)).length := by
        rw [hg, List.length_map]; exact hir
      have := congrArg (fun l => l[i]?) k2
      have hlk : i < (coarseKey (opM (mergeArgs t merge ap em er)) p).length := by
        simpa [coarseKey] using hiM
      simp only [dimsOf, List.getElem?_map, List.getElem?_eq_getElem hiM, Option.map_some] at this
      rw [List.getElem?_eq_getElem (by simp; omega), Option.some.injEq, List.getElem_zipWith] at this
      have hgi : (opM (mergeArgs t merge ap em er))[i] = groupOf (mergeExisting t.names merge) r.names[i] := by
        simp only [hg, List.getElem_map]
      have hck : (coarseKey (opM (mergeArgs t merge ap em er)) p)[i] =
          (keyOf (opM (mergeArgs t merge ap em er))[i] p).sum := by simp [coarseKey]
      rw [hck, hgi] at this
      rw [List.getElem_map]
      unfold mergedPos
      rw [this]
      have hsub : ∀ m ∈ groupOf (mergeExisting t.names merge) r.names[i],
          m ∈ (opM (mergeArgs t merge ap em er)).flatten := fun m hm' =>
        List.mem_flatten.2 ⟨_, List.getElem_mem hiM, hgi ▸ hm'⟩
      exact groupIdx_lt (fun m hm' => h.sortedM m (hsub m hm')) (fun m hm' => hf.1 m (hsub m hm'))
    · rw [e1, coarseKey_sum]; exact hf.2
  · intro p p' hp hp' heq n hn'
    have hf := h.fineM.1 hp
    have hf' := h.fineM.1 hp'
    have e1 : keyOf r.names (mergedPos t (mergeExisting t.names merge) p) =
      keyOf r.names (mergedPos t (mergeExisting t.names merge) p') := keyOf_congr heq
    have e2 : idxOf r.names (mergedPos t (mergeExisting t.names merge) p) =
      idxOf r.names (mergedPos t (mergeExisting t.names merge) p') := idxOf_congr heq
    rw [(hco p).1, (hco p').1] at e1
    rw [(hco p).2, (hco p').2] at e2
    exact coarse_inj h.sortedM hf.1 hf'.1 e1 e2 n (h.perm.mem_iff.1 hn')
  · intro q hq
    obtain ⟨p, p1, p2, p3⟩ := exists_fine (h.perm.nodup_iff.1 ht.nodup) h.sortedM h5 hq
    refine ⟨p, h.fineM.2 p1, fun n hn' => ?_⟩
    rw [← (hco p).1] at p2
    rw [← (hco p).2] at p3
    exact Prod.ext (List.map_inj_left.1 p2 n hn') (List.map_inj_left.1 p3 n hn')
  · intro p hp
    unfold elem
    rw [(hco p).1, (hco p).2]
    exact h6 p hp

/-! ## C20: splitting back -/

/-- Edges are the same up to the arrow of an edge on which the arrow has no meaning (bosonic types,
and fermionic edges without any fermion). -/
def SameEdge (e e' : Edge σ) : Prop :=
  e.map = e'.map ∧ (TatSym.isFermi σ = true → arrowValid e = true → e.arrow = e'.arrow)

/-- Tensors are the same up to meaningless arrows. -/
def SameTensor (t r : Tensor ν σ α) : Prop :=
  t.names = r.names ∧ List.Forall₂ SameEdge t.core.edges r.core.edges ∧
  t.core.blocks = r.core.blocks

theorem forall2_map_eq {β γ δ : Type} {f : β → δ} {g : γ → δ} {l : List β} {l' : List γ}
    (h : List.Forall₂ (fun x y => f x = g y) l l') : l.map f = l'.map g := by
  induction h with
  | nil => rfl
  | cons h _ ih => rw [List.map_cons, List.map_cons, h, ih]

/-- Tensors with the same elements are the same. -/
theorem sameTensor_ext {t r : Tensor ν σ α} (ht : WF t) (hr : WF r) (hn : t.names = r.names)
    (he : List.Forall₂ SameEdge t.core.edges r.core.edges)
    (hv : ∀ p, ValidPos t p → elem t p = elem r p) : SameTensor t r := by
  refine ⟨hn, he, ?_⟩
  have hmaps : t.core.edges.map Edge.map = r.core.edges.map Edge.map :=
    forall2_map_eq (he.imp fun _ _ h => h.1)
  let w : Tensor ν σ α := ⟨r.names, ⟨t.core.edges, r.core.blocks⟩⟩
  have hw : WF w := by
    refine ⟨?_, hr.nodup, ht.sorted, ?_, ht.pruned⟩
    · change r.names.length = t.core.edges.length
      rw [hr.rank]; exact he.length_eq.symm
    · change r.core.blocks.map _ = blockShapes (t.core.edges.map Edge.map)
      rw [hmaps]; exact hr.blocks
  have hdims : ∀ k : List σ, dimsOf t.core.edges k = dimsOf r.core.edges k := by
    intro k
    have e : ∀ es : List (Edge σ), dimsOf es k = List.zipWith dimM (es.map Edge.map) k := by
      intro es; unfold dimsOf; rw [List.zipWith_map_left]; rfl
    rw [e, e, hmaps]
  have : t = w := by
    refine tensor_ext ht hw hn rfl fun p hp => ?_
    rw [hv p hp]
    unfold elem elemAt
    change _ = (OMap.find? r.core.blocks (keyOf r.names p)).bind fun data =>
      data[rowMajor (dimsOf t.core.edges (keyOf r.names p)) (idxOf r.names p)]?
    rw [hdims]
  rw [this]

theorem reversalSign_sq (l : List Bool) : reversalSign l * reversalSign l = 1 := by
  induction l with
  | nil => rfl
  | cons b l ih =>
    rw [reversalSign, mul_mul_mul_comm, ih, mul_one]
    split
    · rw [← mul_pow]; simp
    · rfl

theorem groupsOf_sq (odd : ν → Bool) (groups : List (List ν)) (mark : List Bool) :
    groupsOf odd groups mark * groupsOf odd groups mark = 1 := by
  unfold groupsOf
  induction groups generalizing mark with
  | nil => simp
  | cons g gs ih =>
    cases mark with
    | nil => simp
    | cons m ms =>
      rw [List.zipWith_cons_cons, List.prod_cons, mul_mul_mul_comm, ih, mul_one]
      split
      · exact reversalSign_sq _
      · rfl

/-- The table handed to `split_edge` to undo a merge. -/
def splitBack (t : Tensor ν σ α) (merge : List (ν × List ν)) : List (ν × List (ν × List (σ × ℕ))) :=
  merge.map fun m => (m.1, m.2.map fun n => (n, mapOf t n))

theorem splitBack_find (t : Tensor ν σ α) (merge : List (ν × List ν)) (n : ν) :
    OMap.find? (splitBack t merge) n =
      (OMap.find? merge n).map fun g => g.map fun n => (n, mapOf t n) := by
  unfold splitBack
  exact OMap.find?_map_val merge (fun _ g => g.map fun n => (n, mapOf t n)) n

theorem filter_eq_of_keys {m : List (σ × ℕ)} (hs : OMap.Sorted m) {f : σ × ℕ → Bool}
    (h : ∀ s ∈ OMap.keys m, s ∈ OMap.keys (m.filter f)) : m.filter f = m := by
  rw [List.filter_eq_self]
  intro x hx
  obtain ⟨y, hy, hyx⟩ := List.mem_map.1 (h x.1 (List.mem_map_of_mem hx))
  have hym := List.mem_of_mem_filter hy
  have h1 := OMap.find?_of_mem hs.nodup (show (x.1, x.2) ∈ m from hx)
  have h2 := OMap.find?_of_mem hs.nodup (show (y.1, y.2) ∈ m from hym)
  rw [hyx, h1, Option.some.injEq] at h2
  have : y = x := Prod.ext hyx h2.symm
  rw [← this]
  exact (List.mem_filter.1 hy).2

/-- The arguments of the call made by `split_edge`. -/
def splitArgs (r : Tensor ν σ α) (split : List (ν × List (ν × List (σ × ℕ)))) (ap : Bool)
    (exclude : List ν) : EdgeArgs ν σ :=
  { split := splitExisting r.names split
    newNames := splitTarget r.names (splitExisting r.names split)
    applyParity := ap
    excludeSplit := exclude }

section back
variable {t r : Tensor ν σ α} {a : EdgeArgs ν σ} {split : List (ν × List (ν × List (σ × ℕ)))}

/-- Everything needed to know about the merged tensor `r` to split it back. -/
structure Back (t r : Tensor ν σ α) (a : EdgeArgs ν σ) (garbage : ℕ → Bool)
    (split : List (ν × List (ν × List (σ × ℕ)))) : Prop where
  merging : Merging t a
  wf : WF r
  names : r.names = a.newNames
  edges : r.core.edges = prunedEdges (((opM a).zipIdx 0).map fun x =>
        groupEdge (garbage x.2) (x.1.map (edgeOf t)))
  existing : splitExisting r.names split = split
  find : ∀ n, OMap.find? split n =
    (OMap.find? a.merge n).map fun g => g.map fun n => (n, mapOf t n)
  vals : ∀ x ∈ split, ∃ m ∈ a.merge, x = (m.1, m.2.map fun n => (n, mapOf t n))
  sub : ∀ m ∈ a.merge, ∀ n ∈ m.2, n ∈ t.names

variable {garbage : ℕ → Bool} {ap : Bool} {ex : List ν}

theorem Back.groups (h : Back t r a garbage split) : splitGroups split r.names = opM a := by
  unfold splitGroups opM mergeGroups
  rw [h.names]
  apply List.map_congr_left
  intro n _
  rw [h.find]
  cases OMap.find? a.merge n with
  | none => rfl
  | some g => simp [Function.comp_def]

theorem Back.opNames (h : Back t r a garbage split) : opNames r (splitArgs r split ap ex) = r.names := by
  unfold TAT.opNames
  exact (List.map_congr_left fun n _ => renameOne_nil n).trans (List.map_id _)

theorem Back.opCut (h : Back t r a garbage split) :
    opCut r (splitArgs r split ap ex) = r.core.edges := rfl

theorem Back.opS (h : Back t r a garbage split) : opS r (splitArgs r split ap ex) = opM a := by
  unfold TAT.opS
  rw [h.opNames, ← h.groups]
  change splitGroups (splitExisting r.names split) r.names = _
  rw [h.existing]

theorem Back.newNames (h : Back t r a garbage split) :
    (splitArgs r split ap ex).newNames = (opM a).flatten := by
  change splitTarget r.names (splitExisting r.names split) = _
  rw [splitTarget_eq, h.existing, h.groups]

theorem Back.opM (h : Back t r a garbage split) :
    opM (splitArgs r split ap ex) = (TAT.opM a).flatten.map fun n => [n] := by
  rw [opM_noMerge rfl, h.newNames]

theorem Back.nodup (h : Back t r a garbage split) : (TAT.opM a).flatten.Nodup :=
  h.merging.perm.nodup_iff.1 h.merging.wf.nodup

theorem Back.rel (h : Back t r a garbage split) :
    List.Forall₂ (SplitRel split (opFine r (splitArgs r split ap ex)))
      (r.names.zip r.core.edges) (TAT.opM a) := by
  have hS := h.opS (ap := ap) (ex := ex)
  have hf : (splitArgs r split ap ex).split = split := h.existing
  rw [← h.groups]
  refine splitRel_aux split _ _ _ h.wf.rank fun x hx => ?_
  unfold opFine
  rw [h.opNames, h.opCut, hf]
  refine edgeNamed_of_mem ?_ hx
  rw [← splitGroups_flatten _ _ _ h.wf.rank, h.groups]
  exact h.nodup

theorem Back.lenM (h : Back t r a garbage split) : (TAT.opM a).length = r.names.length := by
  rw [opM_length, h.names]

theorem Back.lenE (h : Back t r a garbage split) : r.core.edges.length = (TAT.opM a).length := by
  rw [h.lenM, h.wf.rank]

/-- The fine edge of a name in group `i`. -/
theorem Back.fineAt (h : Back t r a garbage split) (i : ℕ) (hi : i < (TAT.opM a).length) :
    (∀ n ∈ (TAT.opM a)[i], opMap r (splitArgs r split ap ex) n = mapOf t n ∧
      (opFine r (splitArgs r split ap ex) n).arrow =
        (r.core.edges[i]'(by rw [h.lenE]; exact hi)).arrow) := by
  have hir : i < r.names.length := by rw [← h.lenM]; exact hi
  have hie : i < r.core.edges.length := by rw [h.lenE]; exact hi
  have := (forall2_getElem.1 (h.rel (ap := ap) (ex := ex))).2 i (by
    rw [List.length_zip, ← h.wf.rank, Nat.min_self]; exact hir) hi
  rw [List.getElem_zip] at this
  have hgi : (TAT.opM a)[i] = groupOf a.merge r.names[i] := by
    have : TAT.opM a = r.names.map (groupOf a.merge) := by
      unfold TAT.opM; rw [mergeGroups_eq, h.names]
    simp only [this, List.getElem_map]
  intro n hn
  rcases this with ⟨h1, h2, h3⟩ | ⟨parts, h1, h2, h3⟩
  · rw [h2, List.mem_singleton] at hn
    rw [h2] at h3
    subst hn
    simp only [List.map_cons, List.map_nil, List.cons.injEq, and_true] at h3
    have hmap : (opFine r (splitArgs r split ap ex) r.names[i]) = r.core.edges[i] := h3
    refine ⟨?_, by rw [hmap]⟩
    unfold opMap
    rw [hmap]
    -- the edge is the pruned original
    have hmem : r.names[i] ∈ (TAT.opM a).flatten :=
      List.mem_flatten.2 ⟨(TAT.opM a)[i], List.getElem_mem hi, by rw [h2]; simp⟩
    have hmt := h.merging.perm.mem_iff.2 hmem
    have hkeep : ∀ s ∈ OMap.keys (mapOf t r.names[i]), s ∈ OMap.keys r.core.edges[i].map := by
      intro s hs
      have hp := h.merging.wf.pruned
      rw [edges_named h.merging.wf, prunedEdges_eq_iff h.merging.wf.nodup] at hp
      obtain ⟨p, hk, hps⟩ := hp _ hmt s hs
      have hk' : KeyOk (mapOf t) (TAT.opM a).flatten p := hk.perm h.merging.perm
      have := (forall2_getElem.1 (h.merging.coarse_keys garbage h.edges hk').1).2 i hie
        (by simpa [coarseKey] using hi)
      have hck : (coarseKey (TAT.opM a) p)[i]'(by simpa [coarseKey] using hi) = s := by
        simp only [coarseKey, List.getElem_map]
        rw [h2]
        simp [keyOf, hps]
      rwa [hck] at this
    have hedge : r.core.edges[i].map = (mapOf t r.names[i]).filter (fun x =>
        usedAt ((((TAT.opM a).zipIdx 0).map fun x =>
          groupEdge (garbage x.2) (x.1.map (edgeOf t))).map Edge.map) i x.1) := by
      simp only [h.edges, prunedEdges, List.getElem_mapIdx, List.getElem_map, List.getElem_zipIdx,
        h2]
      rfl
    rw [hedge] at hkeep ⊢
    exact filter_eq_of_keys (mapOf_sorted h.merging.wf _ hmt) hkeep
  · rw [h.find] at h1
    obtain ⟨g, hg, rfl⟩ := Option.map_eq_some_iff.1 h1
    have hgg : (TAT.opM a)[i] = g := by rw [hgi]; unfold groupOf; rw [hg]; rfl
    rw [hgg] at h3 hn
    have h4 := (List.map_inj_left (l := g) (f := opFine r (splitArgs r split ap ex))
      (g := fun n => ⟨r.core.edges[i].arrow, mapOf t n⟩)).1 (by rw [h3, List.map_map]; rfl)
    rw [opMap, h4 n hn]
    exact ⟨rfl, rfl⟩

theorem Back.opMap (h : Back t r a garbage split) : ∀ n ∈ (TAT.opM a).flatten,
    opMap r (splitArgs r split ap ex) n = mapOf t n := by
  intro n hn
  obtain ⟨g, hg, hng⟩ := List.mem_flatten.1 hn
  obtain ⟨i, hi, rfl⟩ := List.mem_iff_getElem.1 hg
  exact (h.fineAt i hi n hng).1

theorem Back.ok (h : Back t r a garbage split) : OpOk r (splitArgs r split ap ex) where
  wf := h.wf.shaped
  pruned := fun _ => h.wf.pruned
  nodup := by rw [h.opS]; exact h.nodup
  perm := by rw [h.opS, h.opM, flatten_singletons]
  newNodup := by rw [h.newNames]; exact h.nodup
  parts := by
    intro x hx y hy
    rw [show (splitArgs r split ap ex).split = split from h.existing] at hx
    obtain ⟨m, hm, rfl⟩ := h.vals x hx
    obtain ⟨n, hn, rfl⟩ := List.mem_map.1 hy
    exact mapOf_sorted h.merging.wf n (h.sub m hm n hn)
  fits := by
    intro x hx parts hf
    rw [show (splitArgs r split ap ex).split = split from h.existing, h.find] at hf
    obtain ⟨g, hg, rfl⟩ := Option.map_eq_some_iff.1 hf
    rw [h.opNames, h.opCut] at hx
    obtain ⟨i, hi, rfl⟩ := List.mem_iff_getElem.1 hx
    have hir : i < r.names.length := by simp at hi; omega
    have hie : i < r.core.edges.length := by rw [← h.wf.rank]; exact hir
    have hiM : i < (TAT.opM a).length := by rw [h.lenM]; exact hir
    rw [List.getElem_zip] at hg
    simp only [List.getElem_zip]
    have hgg : (TAT.opM a)[i] = g := by
      have : TAT.opM a = r.names.map (groupOf a.merge) := by
        unfold TAT.opM; rw [mergeGroups_eq, h.names]
      simp only [this, List.getElem_map]
      unfold groupOf; rw [hg]; rfl
    refine ⟨fun s hs => ?_, fun _ p hp _ => ?_⟩
    · rw [(h.merging.edgeAt garbage h.edges i hie hiM).1 s hs, hgg, List.map_map]
      exact le_of_eq rfl
    · rw [h.opS] at hp
      have hp' := (keyOk_congr h.opMap).1 hp
      have := (forall2_getElem.1 (h.merging.coarse_keys garbage h.edges hp').1).2 i hie
        (by simpa [coarseKey] using hiM)
      simp only [coarseKey, List.getElem_map, hgg] at this
      rw [List.map_map]
      simpa [Function.comp_def] using this
  cutKeys := by
    intro _ _
    rw [h.opCut]
    exact List.forall₂_same.2 fun _ _ => rfl

theorem Back.opSign (h : Back t r a garbage split) (p : ν → σ × ℕ) :
    opSign r (splitArgs r split ap ex) p = if TatSym.isFermi σ then
      groupsOf (oddAt p) (TAT.opM a) (a.newNames.map (marked ap ex)) else 1 := by
  unfold TAT.opSign
  congr 1
  rw [h.opS, h.opM, flatten_singletons, exchangeOf_refl,
    groupsOf_short _ ((TAT.opM a).flatten.map fun n => [n]) _ (by
      intro g hg
      obtain ⟨n, _, rfl⟩ := List.mem_map.1 hg
      simp), List.map_map,
    List.prod_eq_one (l := (TAT.opM a).flatten.map _)]
  · change 1 * reverseOf _ (fun n => decide (n ∈ []) && _) _ * _ * 1 * 1 = _
    simp only [List.not_mem_nil, decide_false, Bool.false_and, reverseOf_false, mul_one, one_mul]
    rw [h.opNames, h.names]
    rfl
  · intro x hx
    obtain ⟨n, _, rfl⟩ := List.mem_map.1 hx
    simp [reverseOf, flipped_single]

theorem Back.opEdges (h : Back t r a garbage split) (garbage' : ℕ → Bool) :
    opEdges garbage' r (splitArgs r split ap ex) =
      (TAT.opM a).flatten.map (opFine r (splitArgs r split ap ex)) := by
  unfold TAT.opEdges
  rw [h.opM]
  apply List.ext_getElem
  · rw [List.length_map, List.length_zipIdx, List.length_map, List.length_map]
  · intro i h1 h2
    simp only [List.getElem_map, List.getElem_zipIdx, List.map_singleton, groupEdge]
    unfold opReversed reversedEdge reverseOne
    simp [splitArgs]

/-- The arrow of a group whose members agree. -/
theorem groupEdge_arrow {g : List ν} {e : ν → Edge σ} (hf : TatSym.isFermi σ = true)
    (h : ∀ n ∈ g, ∀ n' ∈ g, arrowValid (e n) = true → arrowValid (e n') = true →
      (e n).arrow = (e n').arrow) (b : Bool) {n : ν} (hn : n ∈ g) (hv : arrowValid (e n) = true) :
    firstArrow (g.map e) = some (e n).arrow ∧ (groupEdge b (g.map e)).arrow = (e n).arrow := by
  have h1 : firstArrow (g.map e) = some (e n).arrow := by
    unfold firstArrow
    cases hfind : (g.map e).find? arrowValid with
    | none =>
      rw [List.find?_eq_none] at hfind
      exact absurd hv (hfind _ (List.mem_map_of_mem hn))
    | some e' =>
      have h2 := List.mem_of_find?_eq_some hfind
      have h3 := List.find?_some hfind
      obtain ⟨n', hn', rfl⟩ := List.mem_map.1 h2
      rw [Option.map_some, h n' hn' n hn h3 hv]
  refine ⟨h1, ?_⟩
  match g, hn, h1 with
  | [m], hn, _ =>
    rw [List.mem_singleton] at hn
    subst hn
    rfl
  | m :: m' :: g', _, h1 =>
    simp only [List.map_cons] at h1 ⊢
    simp only [groupEdge, hf, if_true, h1, Option.getD_some]

end back

/-- What merging and splitting back does. -/
theorem merge_split_back [InvolutiveNeg α] [Zero α] (env₁ env₂ env₃ : Env σ α) {t : Tensor ν σ α}
    (ht : WF t) {merge : List (ν × List ν)} (hm : MergeOk t.names merge) (ap : Bool)
    (em er : List ν)
    (harrow : TatSym.isFermi σ = true → ∀ m ∈ mergeExisting t.names merge, ∀ n ∈ m.2, ∀ n' ∈ m.2,
      arrowValid (edgeOf t n) = true → arrowValid (edgeOf t n') = true →
      (edgeOf t n).arrow = (edgeOf t n').arrow) :
    ∃ r u v, mergeEdge env₁ t merge ap em er = .ok r ∧
      splitEdge env₂ r (splitBack t (mergeExisting t.names merge)) ap em = .ok u ∧
      t.names.Perm u.names ∧ transpose env₃ t u.names = .ok v ∧ SameTensor v u := by
  have h := hm.merging ht ap em er
  have hM' := hm.existing ht.nodup
  obtain ⟨r, h1, h2, h3, h4, h5, h6⟩ := merging_spec env₁ h
  have hb : Back t r (mergeArgs t merge ap em er) env₁.garbage
      (splitBack t (mergeExisting t.names merge)) := by
    refine ⟨h, h3, h2, h4, ?_, splitBack_find t _, ?_, hM'.sub⟩
    · unfold splitExisting
      rw [List.filter_eq_self]
      intro x hx
      obtain ⟨m, hm', rfl⟩ := List.mem_map.1 hx
      rw [h2]
      exact decide_eq_true ((hM'.mem_target m.1).2 (.inr ⟨m, hm', rfl⟩))
    · intro x hx
      obtain ⟨m, hm', rfl⟩ := List.mem_map.1 hx
      exact ⟨m, hm', rfl⟩
  obtain ⟨u, u1, u2, u3, u4, u5, _⟩ := edgeOperator_spec env₂ (hb.ok (ap := ap) (ex := em))
  have hun : u.names = (opM (mergeArgs t merge ap em er)).flatten := u2.trans hb.newNames
  have hperm : t.names.Perm u.names := hun ▸ h.perm
  obtain ⟨v, v1, v2, v3, v4, v5, v6⟩ := C16_transpose env₃ ht hperm
  have hfm : ∀ n ∈ u.names, (opFine r (splitArgs r (splitBack t (mergeExisting t.names merge)) ap em) n).map
      = mapOf t n := fun n hn => hb.opMap n (hun ▸ hn)
  have hue : u.core.edges = u.names.map
      (opFine r (splitArgs r (splitBack t (mergeExisting t.names merge)) ap em)) := by
    rw [u4, hb.opEdges, ← hun]
    have hp := ht.pruned
    rw [edges_named ht] at hp
    exact prunedEdges_perm ht.nodup hperm
      (fun n hn => (hfm n (hperm.mem_iff.1 hn)).symm) hp
  have hvp : ∀ p, ValidPos u p ↔ ValidPos t p := fun p =>
    validPos_of_edges ht u3 hperm hue fun n hn => hfm n (hperm.mem_iff.1 hn)
  -- within a group nothing is flipped
  have hgroup : TatSym.isFermi σ = true → ∀ g ∈ opM (mergeArgs t merge ap em er), ∀ n ∈ g, ∀ n' ∈ g,
      arrowValid (edgeOf t n) = true → arrowValid (edgeOf t n') = true →
      (edgeOf t n).arrow = (edgeOf t n').arrow := by
    intro hf g hg n hn n' hn' hv hv'
    have hg' : g ∈ mergeGroups (mergeExisting t.names merge)
      (mergeTarget t.names (mergeExisting t.names merge)) := hg
    rw [mergeGroups_eq] at hg'
    obtain ⟨x, _, rfl⟩ := List.mem_map.1 hg'
    unfold groupOf at hn hn'
    cases hfx : OMap.find? (mergeExisting t.names merge) x with
    | none =>
      rw [hfx] at hn hn'
      simp only [Option.getD_none, List.mem_singleton] at hn hn'
      rw [hn, hn']
    | some g' =>
      rw [hfx] at hn hn'
      simp only [Option.getD_some] at hn hn'
      exact harrow hf _ (OMap.mem_of_find? hfx) n hn n' hn' hv hv'
  refine ⟨r, u, v, h1, u1, hperm, v1, sameTensor_ext v3 u3 v2 ?_ fun p hp => ?_⟩
  · rw [edges_named v3, v2, hue, forall2_map_self]
    intro n hn
    rw [v4 n hn]
    refine ⟨(hfm n hn).symm, fun hf hv => ?_⟩
    rw [hun] at hn
    obtain ⟨g, hg, hng⟩ := List.mem_flatten.1 hn
    obtain ⟨i, hi, rfl⟩ := List.mem_iff_getElem.1 hg
    rw [(hb.fineAt i hi n hng).2, (h.edgeAt env₁.garbage h4 i _ hi).2]
    exact ((groupEdge_arrow hf (hgroup hf _ hg) _ hng hv).2).symm
  · have hpt := (v5 p).1 hp
    rw [v6 p hpt]
    have hfp : FineOk (opMap r (splitArgs r (splitBack t (mergeExisting t.names merge)) ap em))
        (opM (mergeArgs t merge ap em er)).flatten p :=
      (fineOk_congr hb.opMap).2 (h.fineM.1 hpt)
    have hS := hb.opS (ap := ap) (ex := em)
    have hin : opIn r (splitArgs r (splitBack t (mergeExisting t.names merge)) ap em) p := by
      unfold opIn
      rw [hb.opCut, hS]
      exact (h.coarse_keys env₁.garbage h4 (h.fineM.1 hpt).keyOk).1
    have hc : coarseIdx (opMap r (splitArgs r (splitBack t (mergeExisting t.names merge)) ap em))
        (opM (mergeArgs t merge ap em er)) p = coarseIdx (mapOf t) (opM (mergeArgs t merge ap em er)) p := by
      unfold coarseIdx
      apply List.map_congr_left
      intro g hg
      unfold groupIdx
      rw [List.map_congr_left fun n hn => hb.opMap n (List.mem_flatten.2 ⟨g, hg, hn⟩),
        List.map_congr_left fun n hn => congrArg (fun m => dimM m (p n).1)
          (hb.opMap n (List.mem_flatten.2 ⟨g, hg, hn⟩))]
    have := u5 p (by rw [hS]; exact hfp) hin
    rw [hS, hb.opM, coarseKey_singles, coarseIdx_singles (by
      intro n hn
      rw [hb.opMap n hn]
      exact h.sortedM n hn), hc, h6 p hpt, hb.opSign, ← hun] at this
    unfold elem at this ⊢
    rw [this, Option.map_map]
    congr 1
    funext x
    simp only [Function.comp]
    have hflip : TatSym.isFermi σ = true → ((opM (mergeArgs t merge ap em er)).map fun g =>
        reverseOf (oddAt p) (fun n => flipped (edgeOf t) g n &&
          marked (mergeArgs t merge ap em er).applyParity
            (mergeArgs t merge ap em er).excludeReverseMerge n) g).prod = 1 := by
      intro hf
      apply List.prod_eq_one
      intro y hy
      obtain ⟨g, hg, rfl⟩ := List.mem_map.1 hy
      unfold reverseOf
      apply List.prod_eq_one
      intro z hz
      obtain ⟨n, hn, rfl⟩ := List.mem_map.1 hz
      have : flipped (edgeOf t) g n = false := by
        unfold flipped
        by_cases hv : arrowValid (edgeOf t n) = true
        · rw [(groupEdge_arrow hf (hgroup hf _ hg) false hn hv).1]
          simp
        · simp [hv]
      simp [this]
    unfold mergeSign transposeSign
    by_cases hf : TatSym.isFermi σ = true
    · rw [if_pos hf, if_pos hf, if_pos hf, hflip hf, mul_one, hun]
      have hG := groupsOf_sq (oddAt p) (opM (mergeArgs t merge ap em er))
        ((mergeArgs t merge ap em er).newNames.map (marked ap em))
      have hG' := isSign_of_sq hG
      change _ = applySign _ (applySign (_ * groupsOf _ _ (List.map (marked ap em) _)) x)
      rw [applySign_mul hG' ((isSign_exchangeOf _ _ _).mul hG')]
      congr 1
      rw [mul_comm, mul_assoc, hG, mul_one]
    · rw [if_neg hf, if_neg hf, if_neg hf, applySign_one]
      rfl

/-! ## examples -/

/-- Merging edges 2 and 0 (which have the same arrow) with the sign of the group. -/
example : MergeOk sampleFermi.names [(5, [2, 0, 8])] :=
  ⟨by decide, by decide, by decide⟩

example : mergeEdge env0 sampleFermi [(5, [2, 0, 8])] true = .ok
    ⟨[5, 1], [⟨false, [(⟨0⟩, 2), (⟨1⟩, 3)]⟩, ⟨true, [(⟨-1⟩, 1), (⟨0⟩, 1)]⟩],
      [([⟨0⟩, ⟨0⟩], [5, 3]), ([⟨1⟩, ⟨-1⟩], [4, -1, -2])]⟩ := by decide +kernel

example : ∀ m ∈ mergeExisting sampleFermi.names [(5, [2, 0, 8])], ∀ n ∈ m.2, ∀ n' ∈ m.2,
    arrowValid (edgeOf sampleFermi n) = true → arrowValid (edgeOf sampleFermi n') = true →
    (edgeOf sampleFermi n).arrow = (edgeOf sampleFermi n').arrow := by decide

/-- A position of the merged tensor. -/
example : mergedPos sampleFermi [(5, [2, 0])] (fun n => if n = 2 then (⟨1⟩, 1) else
    if n = 1 then (⟨-1⟩, 0) else (⟨0⟩, 0)) 5 = (⟨1⟩, 2) := by decide

end TAT
