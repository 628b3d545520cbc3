import Verif.EdgeOp.Stage

/-!
# `edge_operator` as a whole
-/

set_option linter.unusedSectionVars false

namespace TAT

variable {ν σ α : Type}

section lemmas
variable [TatSym σ]

theorem dimOf_eq (e : Edge σ) (s : σ) : dimOf e s = dimM e.map s := rfl

theorem mergedDim_single {m : List (σ × ℕ)} (hm : OMap.Sorted m) (s : σ) :
    mergedDim [m] s = dimM m s := by
  have hn := hm.nodup
  clear hm
  have hc : combos [m] = m.map fun x => ([x.1], x.2) := by
    unfold combos choices
    simp [choices, Function.comp_def, List.map_flatMap]
    induction m with
    | nil => rfl
    | cons x m ih => simp_all [OMap.keys]
  unfold mergedDim sameTotal dimM
  rw [hc, List.filter_map, List.map_map]
  induction m with
  | nil => rfl
  | cons x m ih =>
    rw [OMap.keys_cons, List.nodup_cons] at hn
    have hc' : combos [m] = m.map fun x => ([x.1], x.2) := by
      unfold combos choices
      simp [choices, Function.comp_def, List.map_flatMap]
      clear ih hc hn
      induction m with
      | nil => rfl
      | cons x m ih => simp_all
    have ih := ih hn.2 hc'
    by_cases hx : x.1 = s
    · have h0 : OMap.find? m s = none := OMap.find?_eq_none.2 (hx ▸ hn.1)
      rw [h0] at ih
      simp only [Option.getD_none] at ih
      simp [hx, OMap.find?]
      simpa [Function.comp_def] using ih
    · have hx' : ¬ s = x.1 := fun h => hx h.symm
      simp only [OMap.find?, hx', if_false]
      rw [← ih]
      simp [hx, Function.comp_def]

theorem groupEdge_map {garbage : Bool} {es : List (Edge σ)} (h : ∀ e ∈ es, OMap.Sorted e.map) :
    OMap.Sorted (groupEdge garbage es).map ∧
    (∀ s, s ∈ OMap.keys (groupEdge garbage es).map ↔
      ∃ k, List.Forall₂ (fun e s => s ∈ OMap.keys e.map) es k ∧ k.sum = s) ∧
    (∀ s, dimOf (groupEdge garbage es) s = mergedDim (es.map Edge.map) s) := by
  have hs : ∀ m ∈ es.map Edge.map, OMap.Sorted m := by
    intro m hm
    obtain ⟨e, he, rfl⟩ := List.mem_map.1 hm
    exact h e he
  by_cases h1 : ∃ e, es = [e]
  · obtain ⟨e, rfl⟩ := h1
    have he := h e (by simp)
    refine ⟨he, fun s => ?_, fun s => ?_⟩
    · constructor
      · intro hk; exact ⟨[s], .cons hk .nil, by simp⟩
      · rintro ⟨k, hk, rfl⟩
        cases hk with
        | cons a b => cases b; rw [List.sum_singleton]; exact a
    · rw [List.map_singleton, mergedDim_single he]; rfl
  · have hg : groupEdge garbage es = ⟨if TatSym.isFermi σ then (firstArrow es).getD garbage
        else false, (mergeGroup (es.map Edge.map)).1⟩ := by
      unfold groupEdge
      split
      · exact absurd ⟨_, rfl⟩ h1
      · rfl
    rw [hg]
    obtain ⟨a1, a2, a3⟩ := mergeGroup_map hs
    refine ⟨a1, fun s => ?_, a3⟩
    rw [a2 s]
    simp only [List.forall₂_map_left_iff]

theorem dimOf_filter {e : Edge σ} {f : σ × ℕ → Bool} (h : OMap.Sorted e.map) {s : σ}
    (hs : s ∈ OMap.keys (e.map.filter f)) :
    (OMap.find? (e.map.filter f) s).getD 0 = dimOf e s := by
  obtain ⟨d, hd⟩ := Option.isSome_iff_exists.1 (OMap.find?_isSome.2 hs)
  have := List.mem_of_mem_filter (OMap.mem_of_find? hd)
  unfold dimOf
  rw [hd, OMap.find?_of_mem h.nodup this]

/-- On symmetries that survive, pruning keeps the dimensions. -/
theorem dims_pruned {edges : List (Edge σ)} (hs : ∀ e ∈ edges, OMap.Sorted e.map) {i : ℕ}
    (hi : i < (prunedEdges edges).length) {s : σ} (hk : s ∈ OMap.keys (prunedEdges edges)[i].map) :
    dimOf (prunedEdges edges)[i] s = dimOf (edges[i]'(by simpa [prunedEdges] using hi)) s := by
  have hi' : i < edges.length := by simpa [prunedEdges] using hi
  simp only [prunedEdges, List.getElem_mapIdx] at hk ⊢
  exact dimOf_filter (hs _ (List.getElem_mem hi')) hk

theorem forall2_getElem {β γ : Type} {R : β → γ → Prop} {l : List β} {l' : List γ} :
    List.Forall₂ R l l' ↔ l.length = l'.length ∧
      ∀ (i : ℕ) (h : i < l.length) (h' : i < l'.length), R l[i] l'[i] := by
  constructor
  · intro h
    refine ⟨h.length_eq, ?_⟩
    induction h with
    | nil => intro i h; simp at h
    | cons a _ ih =>
      intro i hi hi'
      cases i with
      | zero => exact a
      | succ i => exact ih i (by simpa using hi) (by simpa using hi')
  · rintro ⟨hl, h⟩
    induction l generalizing l' with
    | nil => cases l' with
      | nil => exact .nil
      | cons _ _ => simp at hl
    | cons x l ih =>
      cases l' with
      | nil => simp at hl
      | cons y l' =>
        exact .cons (h 0 (by simp) (by simp)) (ih (by simpa using hl)
          fun i h1 h2 => h (i + 1) (by simpa using h1) (by simpa using h2))

/-- Keys allowed by the given edges are allowed by the pruned ones, with the same dimensions. -/
theorem pruned_keys {edges : List (Edge σ)} (hs : ∀ e ∈ edges, OMap.Sorted e.map) {k : List σ}
    (hk : List.Forall₂ (fun e s => s ∈ OMap.keys e.map) edges k) (h0 : k.sum = 0) :
    List.Forall₂ (fun e s => s ∈ OMap.keys e.map) (prunedEdges edges) k ∧
    dimsOf (prunedEdges edges) k = dimsOf edges k := by
  have hsm : ∀ m ∈ edges.map Edge.map, OMap.Sorted m := by
    intro m hm
    obtain ⟨e, he, rfl⟩ := List.mem_map.1 hm
    exact hs e he
  have h1 : k ∈ (blockShapes ((prunedEdges edges).map Edge.map)).map Prod.fst := by
    rw [prunedEdges_maps, blockShapes_pruned _ hsm]
    exact mem_blockShapes_keys.2 ⟨hk, h0⟩
  have h2 := (mem_blockShapes_keys.1 h1).1
  refine ⟨h2, ?_⟩
  have h3 := forall2_getElem.1 h2
  unfold dimsOf
  apply List.ext_getElem
  · simp [prunedEdges]
  · intro i a b
    have hi : i < (prunedEdges edges).length := by simp at a; omega
    have hi' : i < k.length := by simp at a; omega
    simp only [List.getElem_zipWith]
    exact dims_pruned hs hi (h3.2 i hi hi')

theorem pruned_length (edges : List (Edge σ)) : (prunedEdges edges).length = edges.length := by
  simp [prunedEdges]

end lemmas

section zero

theorem genList_zero [Zero α] (l : List α) :
    genList (fun (_ : Unit) => ((0 : α), ())) l () = (l.map fun _ => 0, ()) := by
  induction l with
  | nil => rfl
  | cons x l ih => simp [genList, ih]

theorem genBlocks_zero [Zero α] (l : List (List σ × List α)) :
    genBlocks (fun (_ : Unit) => ((0 : α), ())) l () =
      (l.map fun b => (b.1, b.2.map fun _ => 0), ()) := by
  induction l with
  | nil => rfl
  | cons x l ih => simp [genBlocks, ih, genList_zero]

theorem zero_eq [Zero α] (t : Tensor ν σ α) : zero t = mapTensor (fun _ => 0) t := by
  unfold zero setWith mapTensor
  rw [genBlocks_zero]

end zero

/-! ## the parts of an operation -/

section parts
variable [LinearOrder ν] [TatSym σ]

/-- Names before splitting. -/
def opNames (t : Tensor ν σ α) (a : EdgeArgs ν σ) : List ν := t.names.map (renameOne a.rename)

/-- Edges before splitting (cut). -/
def opCut (t : Tensor ν σ α) (a : EdgeArgs ν σ) : List (Edge σ) :=
  edgeBeforeSplit a.cut t.names t.core.edges

/-- Groups of fine names on the source side. -/
def opS (t : Tensor ν σ α) (a : EdgeArgs ν σ) : List (List ν) := splitGroups a.split (opNames t a)

/-- Groups of fine names on the destination side. -/
def opM (a : EdgeArgs ν σ) : List (List ν) := mergeGroups a.merge a.newNames

/-- The fine edge of a name, before reversing. -/
def opFine (t : Tensor ν σ α) (a : EdgeArgs ν σ) : ν → Edge σ :=
  edgeNamed (fineEdges a.split ((opNames t a).zip (opCut t a)))

/-- The map of a fine edge. -/
def opMap (t : Tensor ν σ α) (a : EdgeArgs ν σ) (n : ν) : List (σ × ℕ) := (opFine t a n).map

/-- The fine edge of a name, after reversing. -/
def opReversed (t : Tensor ν σ α) (a : EdgeArgs ν σ) : ν → Edge σ :=
  reversedEdge a.reversed (opFine t a)

/-- The edges of the result (before unused symmetries are dropped). -/
def opEdges (garbage : ℕ → Bool) (t : Tensor ν σ α) (a : EdgeArgs ν σ) : List (Edge σ) :=
  ((opM a).zipIdx 0).map fun x => groupEdge (garbage x.2) (x.1.map (opReversed t a))

/-- The fine position lies in the source: every coarse symmetry exists in the (cut) source edge. -/
def opIn (t : Tensor ν σ α) (a : EdgeArgs ν σ) (p : ν → σ × ℕ) : Prop :=
  List.Forall₂ (fun e s => s ∈ OMap.keys e.map) (opCut t a) (coarseKey (opS t a) p)

/-- The sign of an element. -/
def opParity (t : Tensor ν σ α) (a : EdgeArgs ν σ) (p : ν → σ × ℕ) : Bool :=
  if TatSym.isFermi σ then
    let before := (keyOf (opS t a).flatten p).map TatSym.fermi
    let after := (keyOf (opM a).flatten p).map TatSym.fermi
    getTransposeParity before ((opS t a).flatten.map fun n => (opM a).flatten.idxOf n)
    ^^ getReverseParity before (reverseFlags a.reversed (opS t a).flatten)
      (marks a.applyParity a.excludeReverse (opS t a).flatten)
    ^^ getSplitMergeParity before (flagsOf (opS t a))
      (marks a.applyParity a.excludeSplit (opNames t a))
    ^^ getReverseParity after ((opM a).flatMap fun g => groupFlags (g.map (opReversed t a)))
      (marks a.applyParity a.excludeReverseMerge (opM a).flatten)
    ^^ getSplitMergeParity after (flagsOf (opM a))
      (marks a.applyParity a.excludeMerge a.newNames)
  else false

/-- The conditions under which `edge_operator` is expected to work. -/
structure OpOk (t : Tensor ν σ α) (a : EdgeArgs ν σ) : Prop where
  wf : Shaped t
  /-- without a merge the edges have no symmetries which no block has -/
  pruned : a.merge = [] → prunedEdges t.core.edges = t.core.edges
  /-- the fine names are distinct -/
  nodup : (opS t a).flatten.Nodup
  /-- the merge groups use every fine name exactly once -/
  perm : (opS t a).flatten.Perm (opM a).flatten
  newNodup : a.newNames.Nodup
  /-- the given parts are maps -/
  parts : ∀ x ∈ a.split, ∀ y ∈ x.2, OMap.Sorted y.2
  /-- the parts of an edge fit into it -/
  fits : ∀ x ∈ (opNames t a).zip (opCut t a), ∀ parts, OMap.find? a.split x.1 = some parts →
    (∀ s ∈ OMap.keys x.2.map, mergedDim (parts.map Prod.snd) s ≤ dimOf x.2 s) ∧
    (parts.length ≤ 1 → ∀ p, KeyOk (opMap t a) (opS t a).flatten p →
      (∀ y ∈ (opNames t a).zip (opCut t a), ∀ parts', OMap.find? a.split y.1 = some parts' →
        1 < parts'.length → (keyOf (parts'.map Prod.fst) p).sum ∈ OMap.keys y.2.map) →
      (keyOf (parts.map Prod.fst) p).sum ∈ OMap.keys x.2.map)
  /-- a cut without split or reversal does not remove symmetries -/
  cutKeys : a.split = [] → (TatSym.isFermi σ = true → a.reversed = []) →
    List.Forall₂ (fun e' e => OMap.keys e'.map = OMap.keys e.map) (opCut t a) t.core.edges

/-- How an edge and its group of fine names belong together. -/
def SplitRel (split : List (ν × List (ν × List (σ × ℕ)))) (fe : ν → Edge σ) (x : ν × Edge σ)
    (g : List ν) : Prop :=
  (OMap.find? split x.1 = none ∧ g = [x.1] ∧ g.map fe = [x.2]) ∨
  (∃ parts, OMap.find? split x.1 = some parts ∧ g = parts.map Prod.fst ∧
    g.map fe = parts.map fun q => ⟨x.2.arrow, q.2⟩)

theorem edgeNamed_of_mem {edges : List (ν × Edge σ)} (hn : (edges.map Prod.fst).Nodup)
    {x : ν × Edge σ} (hx : x ∈ edges) : edgeNamed edges x.1 = x.2 := by
  have := edgeNamed_map hn
  rw [List.map_map] at this
  exact List.map_inj_left.1 this x hx

theorem splitRel_aux (split : List (ν × List (ν × List (σ × ℕ)))) (fe : ν → Edge σ)
    (names : List ν) (edges : List (Edge σ)) (hl : names.length = edges.length)
    (hfe : ∀ x ∈ fineEdges split (names.zip edges), fe x.1 = x.2) :
    List.Forall₂ (SplitRel split fe) (names.zip edges) (splitGroups split names) := by
  induction names generalizing edges with
  | nil => cases edges <;> exact .nil
  | cons n ns ih =>
    cases edges with
    | nil => simp at hl
    | cons e es =>
      unfold splitGroups fineEdges at *
      rw [List.zip_cons_cons, List.flatMap_cons] at hfe
      refine .cons ?_ (ih es (by simpa using hl) fun x hx => hfe x (List.mem_append_right _ hx))
      cases hf : OMap.find? split n with
      | none =>
        dsimp only
        rw [hf]
        refine Or.inl ⟨hf, rfl, ?_⟩
        have := hfe (n, e) (List.mem_append_left _ (by simp [hf]))
        simpa using this
      | some parts =>
        dsimp only
        rw [hf]
        refine Or.inr ⟨parts, hf, rfl, ?_⟩
        rw [List.map_map]
        refine List.map_congr_left fun q hq => ?_
        exact hfe (q.1, ⟨e.arrow, q.2⟩) (List.mem_append_left _ (by
          simp only [hf]; exact List.mem_map.2 ⟨q, hq, rfl⟩))

variable {t : Tensor ν σ α} {a : EdgeArgs ν σ}

theorem opNames_length (t : Tensor ν σ α) (a : EdgeArgs ν σ) :
    (opNames t a).length = t.names.length := by simp [opNames]

theorem OpOk.cutSub (h : OpOk t a) : List.Forall₂ SubEdge (opCut t a) t.core.edges :=
  edgeBeforeSplit_sub a.cut t.names t.core.edges h.wf.rank h.wf.sorted

theorem OpOk.lenCut (h : OpOk t a) : (opNames t a).length = (opCut t a).length := by
  rw [opNames_length, h.wf.rank, h.cutSub.length_eq]

theorem OpOk.fineNodup (h : OpOk t a) :
    ((fineEdges a.split ((opNames t a).zip (opCut t a))).map Prod.fst).Nodup := by
  rw [← splitGroups_flatten _ _ _ h.lenCut]; exact h.nodup

theorem OpOk.rel (h : OpOk t a) :
    List.Forall₂ (SplitRel a.split (opFine t a)) ((opNames t a).zip (opCut t a)) (opS t a) :=
  splitRel_aux a.split _ _ _ h.lenCut fun _ hx => edgeNamed_of_mem h.fineNodup hx

theorem OpOk.sorted (h : OpOk t a) : ∀ n ∈ (opS t a).flatten, OMap.Sorted (opMap t a n) := by
  intro n hn
  unfold opS at hn
  rw [splitGroups_flatten _ _ _ h.lenCut] at hn
  obtain ⟨x, hx, rfl⟩ := List.mem_map.1 hn
  unfold opMap opFine
  rw [edgeNamed_of_mem h.fineNodup hx]
  obtain ⟨y, hy, hxy⟩ := List.mem_flatMap.1 hx
  cases hf : OMap.find? a.split y.1 with
  | none =>
    simp only [hf, List.mem_singleton] at hxy
    subst hxy
    have hy2 := (List.of_mem_zip hy).2
    obtain ⟨i, hi, he⟩ := List.mem_iff_getElem.1 hy2
    have := (forall2_getElem.1 h.cutSub).2 i hi (by rw [← h.cutSub.length_eq]; exact hi)
    rw [he] at this
    exact this.sorted
  | some parts =>
    simp only [hf] at hxy
    obtain ⟨q, hq, rfl⟩ := List.mem_map.1 hxy
    exact h.parts (y.1, parts) (OMap.mem_of_find? hf) q hq

theorem OpOk.mem_iff (h : OpOk t a) (n : ν) : n ∈ (opS t a).flatten ↔ n ∈ (opM a).flatten :=
  h.perm.mem_iff

theorem opReversed_map (t : Tensor ν σ α) (a : EdgeArgs ν σ) (n : ν) :
    (opReversed t a n).map = opMap t a n := by
  unfold opReversed reversedEdge reverseOne opMap
  split
  · split <;> rfl
  · rfl

theorem opGroup_maps (t : Tensor ν σ α) (a : EdgeArgs ν σ) (g : List ν) :
    (g.map (opReversed t a)).map Edge.map = g.map (opMap t a) := by
  rw [List.map_map]
  exact List.map_congr_left fun n _ => opReversed_map t a n

theorem OpOk.sortedM (h : OpOk t a) {g : List ν} (hg : g ∈ opM a) :
    ∀ e ∈ g.map (opReversed t a), OMap.Sorted e.map := by
  intro e he
  obtain ⟨n, hn, rfl⟩ := List.mem_map.1 he
  rw [opReversed_map]
  exact h.sorted n ((h.mem_iff n).2 (List.mem_flatten.2 ⟨g, hg, hn⟩))

theorem opEdges_getElem (garbage : ℕ → Bool) (t : Tensor ν σ α) (a : EdgeArgs ν σ) (i : ℕ)
    (hi : i < (opEdges garbage t a).length) :
    (opEdges garbage t a)[i] = groupEdge (garbage i)
      (((opM a)[i]'(by simpa [opEdges] using hi)).map (opReversed t a)) := by
  simp [opEdges]

theorem OpOk.edgesSorted (h : OpOk t a) (garbage : ℕ → Bool) :
    ∀ e ∈ opEdges garbage t a, OMap.Sorted e.map := by
  intro e he
  obtain ⟨i, hi, rfl⟩ := List.mem_iff_getElem.1 he
  rw [opEdges_getElem]
  exact (groupEdge_map (h.sortedM (List.getElem_mem _))).1

theorem opEdges_length (garbage : ℕ → Bool) (t : Tensor ν σ α) (a : EdgeArgs ν σ) :
    (opEdges garbage t a).length = a.newNames.length := by
  simp [opEdges, opM, mergeGroups]

/-- A fine key gives an allowed block of the result. -/
theorem OpOk.destKey (h : OpOk t a) (garbage : ℕ → Bool) {p : ν → σ × ℕ}
    (hp : ∀ n ∈ (opM a).flatten, (p n).1 ∈ OMap.keys (opMap t a n)) :
    List.Forall₂ (fun e s => s ∈ OMap.keys e.map) (opEdges garbage t a) (coarseKey (opM a) p) := by
  refine forall2_getElem.2 ⟨by simp [opEdges, coarseKey], fun i h1 h2 => ?_⟩
  have hi : i < (opM a).length := by simpa [opEdges] using h1
  rw [opEdges_getElem, (groupEdge_map (h.sortedM (List.getElem_mem hi))).2.1]
  refine ⟨keyOf (opM a)[i] p, ?_, by simp [coarseKey]⟩
  unfold keyOf
  rw [forall2_map_self]
  intro n hn
  rw [opReversed_map]
  exact hp n (List.mem_flatten.2 ⟨_, List.getElem_mem hi, hn⟩)

theorem OpOk.destDim (h : OpOk t a) (garbage : ℕ → Bool) (p : ν → σ × ℕ) :
    dimsOf (opEdges garbage t a) (coarseKey (opM a) p) =
      (opM a).map fun g => mergedDim (g.map (opMap t a)) (keyOf g p).sum := by
  unfold dimsOf
  apply List.ext_getElem
  · simp [opEdges, coarseKey]
  · intro i h1 h2
    have hi : i < (opM a).length := by simpa using h2
    simp only [List.getElem_zipWith, List.getElem_map, coarseKey]
    rw [opEdges_getElem, (groupEdge_map (h.sortedM (List.getElem_mem hi))).2.2, opGroup_maps]

/-! ## the source side -/

theorem OpOk.lenS (h : OpOk t a) : (opS t a).length = t.names.length := by
  simp [opS, splitGroups, opNames]

theorem OpOk.relAt (h : OpOk t a) (i : ℕ) (hi : i < (opS t a).length) :
    SplitRel a.split (opFine t a)
      ((opNames t a)[i]'(by rw [opNames_length, ← h.lenS]; exact hi),
        (opCut t a)[i]'(by rw [← h.lenCut, opNames_length, ← h.lenS]; exact hi)) (opS t a)[i] := by
  have := (forall2_getElem.1 h.rel).2 i (by
    rw [List.length_zip, ← h.lenCut, opNames_length, ← h.lenS, Nat.min_self]; exact hi) hi
  simpa only [List.getElem_zip] using this

theorem OpOk.zip_mem (h : OpOk t a) (i : ℕ) (hi : i < (opS t a).length) :
    ((opNames t a)[i]'(by rw [opNames_length, ← h.lenS]; exact hi),
      (opCut t a)[i]'(by rw [← h.lenCut, opNames_length, ← h.lenS]; exact hi)) ∈
      (opNames t a).zip (opCut t a) := by
  refine List.mem_iff_getElem.2 ⟨i, ?_, List.getElem_zip⟩
  rw [List.length_zip, ← h.lenCut, opNames_length, ← h.lenS]
  omega

theorem opMap_group (t : Tensor ν σ α) (a : EdgeArgs ν σ) (g : List ν) :
    g.map (opMap t a) = (g.map (opFine t a)).map Edge.map := by
  rw [List.map_map]; rfl

/-- Symmetries in the cut edges exist in the source. -/
theorem OpOk.sourceKeys (h : OpOk t a) {p : ν → σ × ℕ} (hp : opIn t a p) :
    List.Forall₂ (fun e s => s ∈ OMap.keys e.map) t.core.edges (coarseKey (opS t a) p) := by
  have h1 := forall2_getElem.1 h.cutSub
  have h2 := forall2_getElem.1 hp
  refine forall2_getElem.2 ⟨by omega, fun i hi hi' => ?_⟩
  exact ((h1.2 i (by omega) hi).dim _ (h2.2 i (by omega) hi')).1

theorem OpOk.sourceDims (h : OpOk t a) {p : ν → σ × ℕ} (hp : opIn t a p) :
    List.Forall₂ (fun e g => mergedDim (g.map (opMap t a)) (keyOf g p).sum ≤
      dimOf e (keyOf g p).sum) t.core.edges (opS t a) := by
  have h1 := forall2_getElem.1 h.cutSub
  have h2 := forall2_getElem.1 hp
  have hl : (coarseKey (opS t a) p).length = (opS t a).length := by simp [coarseKey]
  refine forall2_getElem.2 ⟨by rw [h.lenS, h.wf.rank], fun i hi hi' => ?_⟩
  have hc : i < (opCut t a).length := by omega
  have hs := h1.2 i hc hi
  have hk := h2.2 i hc (by omega)
  simp only [coarseKey, List.getElem_map] at hk
  refine le_trans ?_ (hs.dim _ hk).2
  have hr := h.relAt i hi'
  rw [opMap_group]
  rcases hr with ⟨_, _, r2⟩ | ⟨parts, r0, _, r2⟩
  · rw [r2, List.map_singleton, mergedDim_single hs.sorted]; exact le_refl _
  · rw [r2, List.map_map]
    exact (h.fits _ (h.zip_mem i hi') parts r0).1 _ hk

theorem OpOk.sourceBlock (h : OpOk t a) {p : ν → σ × ℕ}
    (hk : KeyOk (opMap t a) (opS t a).flatten p) (hp : opIn t a p) :
    ∃ data, OMap.find? t.core.blocks (coarseKey (opS t a) p) = some data ∧
    data.length = (dimsOf t.core.edges (coarseKey (opS t a) p)).prod := by
  have : coarseKey (opS t a) p ∈ OMap.keys t.core.blocks :=
    h.wf.mem_keys.2 ⟨h.sourceKeys hp, by rw [coarseKey_sum]; exact hk.2⟩
  obtain ⟨data, hd⟩ := Option.isSome_iff_exists.1 (OMap.find?_isSome.2 this)
  exact ⟨data, hd, h.wf.length (OMap.mem_of_find? hd)⟩

theorem keyOf_length (names : List ν) (p : ν → σ × ℕ) : (keyOf names p).length = names.length := by
  simp [keyOf]

theorem groupEntry_ne (offset : List (List (List σ × (σ × ℕ)))) (k : ℕ) {syms : List σ}
    (h : syms.length ≠ 1) :
    groupEntry offset k syms = OMap.find? (offset.getD k []) syms := by
  unfold groupEntry
  split
  · simp at h
  · rfl

theorem OpOk.splitMaps (h : OpOk t a) :
    ((splitStage a.split (opNames t a) (opCut t a)).edges).map Edge.map =
      (opS t a).flatten.map (opMap t a) := by
  obtain ⟨_, h2, _⟩ := splitStage_eq a.split (opNames t a) (opCut t a) h.lenCut
  rw [h2, ← edgeNamed_map h.fineNodup, ← splitGroups_flatten _ _ _ h.lenCut, List.map_map]
  rfl

/-- The table of the source side. -/
theorem OpOk.source (h : OpOk t a) :
    IsTable (opMap t a) (opS t a) (opIn t a)
      (if !a.split.isEmpty || (TatSym.isFermi σ && !a.reversed.isEmpty) then
        locateAll (splitStage a.split (opNames t a) (opCut t a)).offset t.names.length
          (splitStage a.split (opNames t a) (opCut t a)).flag
          (splitStage a.split (opNames t a) (opCut t a)).edges
      else locateBlocks t.names.length t.core.blocks) := by
  obtain ⟨_, _, h3⟩ := splitStage_eq a.split (opNames t a) (opCut t a) h.lenCut
  by_cases hsp : a.split = []
  · -- no split: every group is a single name
    have hS : opS t a = (opNames t a).map fun n => [n] := by
      unfold opS; rw [hsp]; rfl
    have hfl : (opS t a).flatten = opNames t a := by rw [hS, flatten_singletons]
    have hck : ∀ p : ν → σ × ℕ, coarseKey (opS t a) p = keyOf (opNames t a) p := by
      intro p
      rw [hS]; simp [coarseKey, keyOf, Function.comp_def]
    have hfe : (opNames t a).map (opFine t a) = opCut t a := by
      unfold opFine
      rw [hsp, fineEdges_nil]
      have := edgeNamed_map (edges := (opNames t a).zip (opCut t a)) (by
        have := h.fineNodup
        rwa [hsp, fineEdges_nil] at this)
      rw [List.map_fst_zip (by rw [h.lenCut]), List.map_snd_zip (by rw [h.lenCut])] at this
      exact this
    have hin : ∀ p, KeyOk (opMap t a) (opNames t a) p → opIn t a p := by
      intro p hp
      unfold opIn
      rw [hck, ← hfe]
      unfold keyOf
      rw [forall2_map_self]
      exact hp.1
    by_cases hr : (TatSym.isFermi σ && !a.reversed.isEmpty) = true
    · rw [if_pos (by simp only [hr, Bool.or_true]), h3]
      rw [← h.lenS]
      refine locateAll_table h.nodup _ _ h.splitMaps (opIn t a) ?_ ?_
      · intro p hp _ x hx
        have hx' : x.1 ∈ opS t a := (List.mem_zipIdx hx).2.2 ▸ List.getElem_mem _
        have hx'' := hx'
        rw [hS] at hx''
        obtain ⟨n, hn, hxn⟩ := List.mem_map.1 hx''
        rw [← hxn]
        have : n ∈ (opS t a).flatten := List.mem_flatten.2 ⟨x.1, hx', by rw [← hxn]; simp⟩
        simp only [keyOf, List.map_singleton, groupEntry, List.sum_singleton]
        rw [mergeOffset_single (h.sorted n this)]
      · intro p hp hno
        rw [hfl] at hp
        exact absurd (hin p hp) hno
    · have hr' : (TatSym.isFermi σ && !a.reversed.isEmpty) = false := by simpa using hr
      rw [if_neg (by simp [hsp, hr'])]
      have hck := h.cutKeys hsp (by
        intro hf
        have := hr'
        simp only [hf, Bool.true_and, Bool.not_eq_false'] at this
        exact List.isEmpty_iff.1 this)
      have hk2 := forall2_getElem.1 hck
      rw [hS, ← opNames_length t a]
      refine locateBlocks_table (hfl ▸ h.nodup) (fun n hn => h.sorted n (by rw [hfl]; exact hn)) _
        (fun k => ?_) (opIn t a) hin
      have hmap : (opNames t a).map (opMap t a) = (opCut t a).map Edge.map := by
        rw [← hfe, List.map_map]; rfl
      rw [hmap, mem_blockShapes_keys, h.wf.mem_keys]
      refine and_congr_left fun _ => ?_
      rw [forall2_getElem, forall2_getElem]
      constructor
      · rintro ⟨hl, hh⟩
        refine ⟨by omega, fun i a1 a2 => ?_⟩
        rw [hk2.2 i a1 (by omega)]
        exact hh i (by omega) a2
      · rintro ⟨hl, hh⟩
        refine ⟨by omega, fun i a1 a2 => ?_⟩
        rw [← hk2.2 i (by omega) a1]
        exact hh i (by omega) a2
  · have hne : a.split.isEmpty = false := by
      cases hs : a.split with
      | nil => exact absurd hs hsp
      | cons _ _ => rfl
    rw [if_pos (by simp [hne]), h3, ← h.lenS]
    have hoff : (splitStage a.split (opNames t a) (opCut t a)).offset =
        List.zipWith (fun n (e : Edge σ) =>
          match OMap.find? a.split n with
          | some parts => splitOffset e.map (parts.map Prod.snd)
          | none => []) (opNames t a) (opCut t a) := by
      unfold splitStage
      rw [if_neg (by simp [hne])]
      exact (splitLoop_eq a.split 0 _ _ h.lenCut).2.2.2
    -- the entry of one group
    have hent : ∀ p, KeyOk (opMap t a) (opS t a).flatten p → ∀ i (hi : i < (opS t a).length),
        ((∃ parts, OMap.find? a.split ((opNames t a)[i]'(by rw [opNames_length, ← h.lenS]; exact hi)) =
            some parts ∧ parts.length ≤ 1) → (keyOf (opS t a)[i] p).sum ∈
            OMap.keys ((opCut t a)[i]'(by rw [← h.lenCut, opNames_length, ← h.lenS]; exact hi)).map) →
        groupEntry (splitStage a.split (opNames t a) (opCut t a)).offset i
          (keyOf (opS t a)[i] p) =
        if (keyOf (opS t a)[i] p).sum ∈
            OMap.keys ((opCut t a)[i]'(by rw [← h.lenCut, opNames_length, ← h.lenS]; exact hi)).map
        then some ((keyOf (opS t a)[i] p).sum,
          mergeOffset ((opS t a)[i].map (opMap t a)) (keyOf (opS t a)[i] p))
        else none := by
      intro p hp i hi hone
      have hin : ∀ n ∈ (opS t a)[i], n ∈ (opS t a).flatten := fun n hn =>
        List.mem_flatten.2 ⟨_, List.getElem_mem hi, hn⟩
      have hi1 : i < (opNames t a).length := by rw [opNames_length, ← h.lenS]; exact hi
      have hi2 : i < (opCut t a).length := by rw [← h.lenCut]; exact hi1
      have hkeys := group_keys (fm := opMap t a) (g := (opS t a)[i]) (p := p)
        fun n hn => hp.1 n (hin n hn)
      have hget : (splitStage a.split (opNames t a) (opCut t a)).offset.getD i [] =
          match OMap.find? a.split (opNames t a)[i] with
          | some parts => splitOffset (opCut t a)[i].map (parts.map Prod.snd)
          | none => [] := by
        rw [hoff, List.getD_eq_getElem _ _ (by simp; omega), List.getElem_zipWith]
      rcases h.relAt i hi with ⟨r0, r1, r2⟩ | ⟨parts, r0, r1, r2⟩
      · -- not split
        have hm : (opS t a)[i].map (opMap t a) = [(opCut t a)[i].map] := by
          rw [opMap_group, r2]; rfl
        rw [hm] at hkeys ⊢
        rw [r1] at hkeys ⊢
        simp only [keyOf, List.map_singleton, groupEntry, List.sum_singleton] at hkeys ⊢
        cases hkeys with
        | cons hk _ =>
          rw [if_pos hk, mergeOffset_single]
          exact ((forall2_getElem.1 h.cutSub).2 i hi2 (by
            rw [← h.cutSub.length_eq]; exact hi2)).sorted
      · have hm : (opS t a)[i].map (opMap t a) = parts.map Prod.snd := by
          rw [opMap_group, r2, List.map_map]; rfl
        have hps : ∀ m ∈ parts.map Prod.snd, OMap.Sorted m := by
          intro m hm
          obtain ⟨q, hq, rfl⟩ := List.mem_map.1 hm
          exact h.parts _ (OMap.mem_of_find? r0) q hq
        have hlen : (keyOf (opS t a)[i] p).length = parts.length := by
          rw [keyOf_length, r1, List.length_map]
        rw [hm] at hkeys ⊢
        by_cases h1 : parts.length ≤ 1
        · rw [if_pos (hone ⟨parts, r0, h1⟩)]
          match parts, h1, hkeys, hlen, hps, r0 with
          | [], _, hkeys, _, _, r0 =>
            cases hk : keyOf (opS t a)[i] p with
            | cons x l => rw [hk] at hkeys; cases hkeys
            | nil =>
              rw [groupEntry_ne _ _ (by simp), hget, r0]
              change OMap.find? (splitOffset _ []) [] = _
              rw [splitOffset_nil]
              simp [OMap.find?, mergeOffset, sameTotal, prefixSize, combos, choices]
          | [q], _, hkeys, _, hps, r0 =>
            cases hk : keyOf (opS t a)[i] p with
            | nil => rw [hk] at hkeys; cases hkeys
            | cons x l =>
              rw [hk] at hkeys
              simp only [List.map_singleton] at hkeys hps ⊢
              cases hkeys with
              | cons _ b =>
                cases b
                rw [mergeOffset_single (hps q.2 (by simp)), List.sum_singleton]
                rfl
          | _ :: _ :: _, h1, _, _, _, _ => simp at h1
        · rw [groupEntry_ne _ _ (by rw [hlen]; omega), hget, r0]
          dsimp only
          rw [splitOffset_find (by intro hc; rw [List.map_eq_nil_iff] at hc; simp [hc] at h1) hps
            hkeys]
    refine locateAll_table h.nodup _ _ h.splitMaps (opIn t a) ?_ ?_
    · intro p hp hok x hx
      obtain ⟨_, hx2, hx3⟩ := List.mem_zipIdx hx
      simp only [Nat.sub_zero] at hx3
      have hi : x.2 < (opS t a).length := by omega
      have hk : (keyOf (opS t a)[x.2] p).sum ∈
          OMap.keys ((opCut t a)[x.2]'(by rw [← h.lenCut, opNames_length, ← h.lenS]; exact hi)).map := by
        have := (forall2_getElem.1 hok).2 x.2
          (by rw [← h.lenCut, opNames_length, ← h.lenS]; exact hi) (by simpa [coarseKey] using hi)
        simpa only [coarseKey, List.getElem_map] using this
      rw [hx3, hent p hp x.2 hi fun _ => hk, if_pos hk]
    · intro p hp hno
      by_contra hall
      apply hno
      refine forall2_getElem.2 ⟨by rw [← h.lenCut, opNames_length, ← h.lenS]; simp [coarseKey],
        fun i h1 h2 => ?_⟩
      have hi : i < (opS t a).length := by simpa [coarseKey] using h2
      -- if every group of two or more parts has an entry, the others have their symmetries too
      have hmany : ∀ y ∈ (opNames t a).zip (opCut t a), ∀ parts', OMap.find? a.split y.1 = some parts' →
          1 < parts'.length → (keyOf (parts'.map Prod.fst) p).sum ∈ OMap.keys y.2.map := by
        intro y hy parts' hf hl
        obtain ⟨j, hj, rfl⟩ := List.mem_iff_getElem.1 hy
        have hj1 : j < (opNames t a).length := by simp at hj; omega
        have hj2 : j < (opS t a).length := by rw [h.lenS, ← opNames_length t a]; exact hj1
        simp only [List.getElem_zip] at hf ⊢
        by_contra hk
        apply hall
        rcases h.relAt j hj2 with ⟨r0, r1, r2⟩ | ⟨parts, r0, r1, r2⟩
        · rw [r0] at hf; cases hf
        · obtain rfl : parts = parts' := by
            have := r0.symm.trans hf
            rwa [Option.some.injEq] at this
          refine ⟨((opS t a)[j], j), List.mem_zipIdx_iff_getElem?.2 (by simp [hj2]), ?_⟩
          rw [hent p hp j hj2 ?_, if_neg (by rw [r1]; exact hk)]
          rintro ⟨q, hq, hq1⟩
          rw [hf, Option.some.injEq] at hq
          subst hq
          omega
      have hone : (∃ parts, OMap.find? a.split ((opNames t a)[i]'(by
            rw [opNames_length, ← h.lenS]; exact hi)) = some parts ∧ parts.length ≤ 1) →
          (keyOf (opS t a)[i] p).sum ∈ OMap.keys ((opCut t a)[i]'h1).map := by
        rintro ⟨parts', hf, hl⟩
        rcases h.relAt i hi with ⟨r0, r1, r2⟩ | ⟨parts, r0, r1, r2⟩
        · rw [r0] at hf; cases hf
        · have hfit := (h.fits _ (h.zip_mem i hi) parts r0).2
          obtain rfl : parts = parts' := by
            have := r0.symm.trans hf
            rwa [Option.some.injEq] at this
          rw [r1]
          exact hfit hl p hp hmany
      by_contra hk
      apply hall
      refine ⟨((opS t a)[i], i), List.mem_zipIdx_iff_getElem?.2 (by simp [hi]), ?_⟩
      rw [hent p hp i hi hone, if_neg]
      simpa only [coarseKey, List.getElem_map] using hk

end parts

end TAT
