import Verif.Tensor.Spec

/-!
# Lemmas about tensors, addressing and element maps
-/

namespace TAT

variable {ν σ α : Type}

theorem horner_aux (dims idx : List ℕ) (hl : dims.length = idx.length) (acc : ℕ) :
    (List.range dims.length).foldl (fun offset j => offset * dims.getD j 0 + idx.getD j 0) acc =
      acc * dims.prod + rowMajor dims idx := by
  induction dims generalizing idx acc with
  | nil => simp [rowMajor]
  | cons d ds ih =>
    cases idx with
    | nil => simp at hl
    | cons i is =>
      rw [List.length_cons, List.range_succ_eq_map, List.foldl_cons, List.foldl_map]
      have := ih is (by simpa using hl) (acc * d + i)
      simp only [List.getD_cons_zero, Nat.succ_eq_add_one, List.getD_cons_succ] at *
      rw [this, rowMajor, List.prod_cons]
      ring

theorem horner_eq {dims idx : List ℕ} (hl : dims.length = idx.length) :
    horner dims idx = rowMajor dims idx := by
  unfold horner
  rw [horner_aux dims idx hl]; simp

section wf
variable [TatSym σ]

theorem Shaped.sortedMaps {t : Tensor ν σ α} (h : Shaped t) :
    ∀ m ∈ t.core.edges.map Edge.map, OMap.Sorted m := by
  intro m hm
  obtain ⟨e, he, rfl⟩ := List.mem_map.1 hm
  exact h.sorted e he

theorem WF.sortedMaps {t : Tensor ν σ α} (h : WF t) :
    ∀ m ∈ t.core.edges.map Edge.map, OMap.Sorted m :=
  h.shaped.sortedMaps

theorem Shaped.keys {t : Tensor ν σ α} (h : Shaped t) :
    OMap.keys t.core.blocks = (blockShapes (t.core.edges.map Edge.map)).map Prod.fst := by
  rw [← h.blocks, List.map_map]; rfl

theorem WF.keys {t : Tensor ν σ α} (h : WF t) :
    OMap.keys t.core.blocks = (blockShapes (t.core.edges.map Edge.map)).map Prod.fst :=
  h.shaped.keys

theorem Shaped.blocksSorted {t : Tensor ν σ α} (h : Shaped t) : OMap.Sorted t.core.blocks := by
  have h1 := blockShapes_sorted h.sortedMaps
  have h2 := h.keys
  unfold OMap.Sorted at *
  unfold OMap.keys at h2
  rw [h2]; exact h1

theorem WF.blocksSorted {t : Tensor ν σ α} (h : WF t) : OMap.Sorted t.core.blocks :=
  h.shaped.blocksSorted

theorem mem_blockShapes_keys {edges : List (Edge σ)} {k : List σ} :
    k ∈ (blockShapes (edges.map Edge.map)).map Prod.fst ↔
      List.Forall₂ (fun e s => s ∈ OMap.keys e.map) edges k ∧ k.sum = 0 := by
  simp only [List.mem_map, mem_blockShapes, forall2_keys]
  constructor
  · rintro ⟨b, ⟨c, h1, h2, rfl⟩, rfl⟩
    exact ⟨⟨c, h1, rfl⟩, h2⟩
  · rintro ⟨⟨c, h1, rfl⟩, h2⟩
    exact ⟨_, ⟨c, h1, h2, rfl⟩, rfl⟩

theorem Shaped.mem_keys {t : Tensor ν σ α} (h : Shaped t) {k : List σ} :
    k ∈ OMap.keys t.core.blocks ↔
      List.Forall₂ (fun e s => s ∈ OMap.keys e.map) t.core.edges k ∧ k.sum = 0 := by
  rw [h.keys, mem_blockShapes_keys]

theorem WF.mem_keys {t : Tensor ν σ α} (h : WF t) {k : List σ} :
    k ∈ OMap.keys t.core.blocks ↔
      List.Forall₂ (fun e s => s ∈ OMap.keys e.map) t.core.edges k ∧ k.sum = 0 :=
  h.shaped.mem_keys

theorem Shaped.length {t : Tensor ν σ α} (h : Shaped t) {k : List σ} {data : List α}
    (hk : (k, data) ∈ t.core.blocks) : data.length = (dimsOf t.core.edges k).prod := by
  have : (k, data.length) ∈ blockShapes (t.core.edges.map Edge.map) := by
    rw [← h.blocks]
    exact List.mem_map.2 ⟨(k, data), hk, rfl⟩
  obtain ⟨c, h1, _, h3⟩ := mem_blockShapes.1 this
  simp only [Prod.mk.injEq] at h3
  rw [h3.2, h3.1, prod_dims h.sorted h1]
  rfl

theorem WF.length {t : Tensor ν σ α} (h : WF t) {k : List σ} {data : List α}
    (hk : (k, data) ∈ t.core.blocks) : data.length = (dimsOf t.core.edges k).prod :=
  h.shaped.length hk

theorem dimOf_pos {e : Edge σ} {s : σ} (h : 0 < dimOf e s) : s ∈ OMap.keys e.map := by
  unfold dimOf at h
  rw [← OMap.find?_isSome]
  cases hf : OMap.find? e.map s with
  | none => simp [hf] at h
  | some _ => rfl

theorem ValidPos.keys {t : Tensor ν σ α} {p : ν → σ × ℕ} (hv : ValidPos t p) :
    List.Forall₂ (fun e s => s ∈ OMap.keys e.map) t.core.edges (keyOf t.names p) := by
  have h1 := hv.1
  have : keyOf t.names p = (t.names.map p).map Prod.fst := by simp [keyOf]
  rw [this, List.forall₂_map_right_iff]
  refine List.Forall₂.imp ?_ h1
  intro e x hx
  exact dimOf_pos (by omega)

theorem ValidPos.inBox {t : Tensor ν σ α} {p : ν → σ × ℕ} (hv : ValidPos t p) :
    InBox (dimsOf t.core.edges (keyOf t.names p)) (idxOf t.names p) := by
  have h1 := hv.1
  have e1 : keyOf t.names p = (t.names.map p).map Prod.fst := by simp [keyOf]
  have e2 : idxOf t.names p = (t.names.map p).map Prod.snd := by simp [idxOf]
  rw [e1, e2]
  clear e1 e2 hv
  unfold dimsOf InBox
  generalize t.core.edges = edges at *
  generalize t.names.map p = l at *
  induction h1 with
  | nil => exact List.Forall₂.nil
  | cons h _ ih => exact List.Forall₂.cons h ih

theorem Shaped.valid_block {t : Tensor ν σ α} (h : Shaped t) {p : ν → σ × ℕ} (hv : ValidPos t p) :
    ∃ data, OMap.find? t.core.blocks (keyOf t.names p) = some data ∧
      data.length = (dimsOf t.core.edges (keyOf t.names p)).prod := by
  have : keyOf t.names p ∈ OMap.keys t.core.blocks := h.mem_keys.2 ⟨hv.keys, hv.2⟩
  obtain ⟨data, hd⟩ := Option.isSome_iff_exists.1 (OMap.find?_isSome.2 this)
  exact ⟨data, hd, h.length (OMap.mem_of_find? hd)⟩

theorem WF.valid_block {t : Tensor ν σ α} (h : WF t) {p : ν → σ × ℕ} (hv : ValidPos t p) :
    ∃ data, OMap.find? t.core.blocks (keyOf t.names p) = some data ∧
      data.length = (dimsOf t.core.edges (keyOf t.names p)).prod :=
  h.shaped.valid_block hv

theorem Shaped.elem_isSome {t : Tensor ν σ α} (h : Shaped t) {p : ν → σ × ℕ} (hv : ValidPos t p) :
    (elem t p).isSome := by
  obtain ⟨data, hd, hl⟩ := h.valid_block hv
  unfold elem elemAt
  rw [hd]
  simp only [Option.bind_some]
  rw [List.getElem?_eq_getElem (by rw [hl]; exact rowMajor_lt hv.inBox)]
  rfl

theorem WF.elem_isSome {t : Tensor ν σ α} (h : WF t) {p : ν → σ × ℕ} (hv : ValidPos t p) :
    (elem t p).isSome :=
  h.shaped.elem_isSome hv

end wf

section addr
variable [TatSym σ] [LinearOrder ν]

theorem loop_eq (position : List (ν × (σ × ℕ))) (names : List ν) (edges : List (Edge σ))
    (hc : ∀ n ∈ names, n ∈ OMap.keys position)
    (hv : List.Forall₂ (fun e x => x.2 < dimOf e x.1) edges (names.map (posOf position))) :
    getBlockAndOffsetLoop position names edges =
      .ok (keyOf names (posOf position), idxOf names (posOf position),
        dimsOf edges (keyOf names (posOf position))) := by
  induction names generalizing edges with
  | nil => cases hv; rfl
  | cons n ns ih =>
    cases hv with
    | @cons e _ es _ h1 h2 =>
      have hn := hc n (by simp)
      obtain ⟨x, hx⟩ := Option.isSome_iff_exists.1 (OMap.find?_isSome.2 hn)
      have hpos : posOf position n = x := by simp [posOf, hx]
      have hk : x.1 ∈ OMap.keys e.map := dimOf_pos (by rw [hpos] at h1; omega)
      obtain ⟨d, hd⟩ := Option.isSome_iff_exists.1 (OMap.find?_isSome.2 hk)
      simp only [getBlockAndOffsetLoop, hx, hd]
      rw [ih es (fun m hm => hc m (by simp [hm])) h2]
      simp [Outcome.bind, keyOf, idxOf, dimsOf, hpos, dimOf, hd]

theorem noSym_map (h : TatSym.isNoSym σ = true) {e : Edge σ} (hs : OMap.Sorted e.map) {s : σ}
    (hk : s ∈ OMap.keys e.map) : e.map = [(s, dimOf e s)] := by
  cases hm : e.map with
  | nil => rw [hm] at hk; simp [OMap.keys] at hk
  | cons x m =>
    cases m with
    | nil =>
      have : x.1 = s := TatSym.noSym_eq h _ _
      subst this
      simp [dimOf, hm, OMap.find?]
    | cons y m =>
      exfalso
      rw [hm] at hs
      unfold OMap.Sorted at hs
      rw [List.map_cons, List.map_cons, List.pairwise_cons] at hs
      exact (ne_of_lt (hs.1 y.1 (by simp))) (TatSym.noSym_eq h _ _)

theorem offsetLoop_eq (hns : TatSym.isNoSym σ = true) (position : List (ν × (σ × ℕ)))
    (names : List ν) (edges : List (Edge σ)) (hs : ∀ e ∈ edges, OMap.Sorted e.map)
    (hc : ∀ n ∈ names, n ∈ OMap.keys position)
    (hv : List.Forall₂ (fun e x => x.2 < dimOf e x.1) edges (names.map (posOf position))) :
    getOffsetLoop position names edges =
      .ok (idxOf names (posOf position), dimsOf edges (keyOf names (posOf position))) := by
  induction names generalizing edges with
  | nil => cases hv; rfl
  | cons n ns ih =>
    cases hv with
    | @cons e _ es _ h1 h2 =>
      have hn := hc n (by simp)
      obtain ⟨x, hx⟩ := Option.isSome_iff_exists.1 (OMap.find?_isSome.2 hn)
      have hpos : posOf position n = x := by simp [posOf, hx]
      have hk : x.1 ∈ OMap.keys e.map := dimOf_pos (by rw [hpos] at h1; omega)
      have hm := noSym_map hns (hs e (by simp)) hk
      simp only [getOffsetLoop, hx, hm]
      rw [ih es (fun e' he' => hs e' (by simp [he'])) (fun m hm => hc m (by simp [hm])) h2]
      simp [Outcome.bind, keyOf, idxOf, dimsOf, hpos]

theorem forall2_noSym_keys (hns : TatSym.isNoSym σ = true) (k k' : List σ)
    (h : k.length = k'.length) : k = k' := by
  apply List.ext_getElem h
  intro i _ _
  exact TatSym.noSym_eq hns _ _

theorem address_eq {t : Tensor ν σ α} (h : WF t) {position : List (ν × (σ × ℕ))}
    (hc : Covers t position) (hv : ValidPos t (posOf position)) :
    address t position = .ok (keyOf t.names (posOf position),
      rowMajor (dimsOf t.core.edges (keyOf t.names (posOf position)))
        (idxOf t.names (posOf position))) := by
  have hlen : (dimsOf t.core.edges (keyOf t.names (posOf position))).length =
      (idxOf t.names (posOf position)).length := hv.inBox.length
  obtain ⟨data, hd, _⟩ := h.valid_block hv
  unfold address
  by_cases hns : TatSym.isNoSym σ = true
  · rw [if_pos hns, offsetLoop_eq hns position t.names t.core.edges h.sorted hc hv.1]
    simp only [Outcome.bind]
    have hmem := OMap.mem_of_find? hd
    cases hb : t.core.blocks with
    | nil => rw [hb] at hmem; simp at hmem
    | cons b bs =>
      have hbk : b.1 ∈ OMap.keys t.core.blocks := by rw [hb]; simp
      have hl1 := (h.mem_keys.1 hbk).1.length_eq
      have hl2 := hv.keys.length_eq
      have : b.1 = keyOf t.names (posOf position) :=
        forall2_noSym_keys hns _ _ (by omega)
      simp only [this, horner_eq hlen]
  · rw [if_neg hns, loop_eq position t.names t.core.edges hc hv.1]
    simp only [Outcome.bind, hd, horner_eq hlen]

theorem constAt_eq {t : Tensor ν σ α} (h : WF t) {position : List (ν × (σ × ℕ))}
    (hc : Covers t position) (hv : ValidPos t (posOf position)) :
    ∃ v, elem t (posOf position) = some v ∧ constAt t position = .ok v := by
  obtain ⟨data, hd, hl⟩ := h.valid_block hv
  have hlt := rowMajor_lt hv.inBox
  rw [← hl] at hlt
  refine ⟨data[rowMajor (dimsOf t.core.edges (keyOf t.names (posOf position)))
        (idxOf t.names (posOf position))], ?_, ?_⟩
  · unfold elem elemAt
    rw [hd, Option.bind_some, List.getElem?_eq_getElem hlt]
  · unfold constAt
    rw [address_eq h hc hv]
    simp only [Outcome.bind, hd, List.getElem?_eq_getElem hlt]

end addr

/-! ## element maps -/

theorem mapBlocks_fold [TatSym σ] {β : Type} (f : α → β) (pre : List (List σ × List α))
    (l : List (List σ × List α)) (dst : List (List σ × List β))
    (hk : OMap.keys dst = OMap.keys (pre ++ l)) (hs : OMap.Sorted (pre ++ l))
    (hd : ∀ k d, (k, d) ∈ l → ∃ d', OMap.find? dst k = some d' ∧ d'.length = d.length)
    (hp : ∀ k d, (k, d) ∈ pre → OMap.find? dst k = some (d.map f)) :
    l.foldlM (mapBlock f) dst = .ok ((pre ++ l).map fun b => (b.1, b.2.map f)) := by
  induction l generalizing pre dst with
  | nil =>
    simp only [List.foldlM_nil, List.append_nil] at *
    rw [Outcome.pure_eq]
    congr 1
    apply OMap.ext
    · unfold OMap.Sorted at *; unfold OMap.keys at hk; rw [hk]; exact hs
    · unfold OMap.Sorted at *; rw [List.map_map]; exact hs
    · intro k
      by_cases hkm : k ∈ OMap.keys dst
      · rw [hk] at hkm
        obtain ⟨⟨k', d⟩, hb, rfl⟩ := List.mem_map.1 hkm
        rw [hp k' d hb, OMap.find?_map_val pre (fun _ d => d.map f),
          OMap.find?_of_mem hs.nodup hb]; rfl
      · rw [OMap.find?_eq_none.2 hkm]
        rw [hk] at hkm
        symm
        rw [OMap.find?_eq_none]
        intro hc
        apply hkm
        unfold OMap.keys at *
        rw [List.map_map] at hc
        exact hc
  | cons b l ih =>
    obtain ⟨k, d⟩ := b
    obtain ⟨d', h1, h2⟩ := hd k d (by simp)
    have hnd := hs.nodup
    unfold OMap.keys at hnd
    rw [List.map_append, List.map_cons, List.nodup_append] at hnd
    rw [List.foldlM_cons]
    simp only [mapBlock, h1, stdTransform]
    rw [if_neg (by omega), List.drop_eq_nil_of_le (by omega), List.append_nil]
    simp only [Outcome.bind, Outcome.ok_bind]
    rw [ih (pre ++ [(k, d)])]
    · simp
    · have hmem : k ∈ OMap.keys dst := OMap.find?_isSome.1 (by rw [h1]; rfl)
      have hsd : OMap.Sorted dst := by
        unfold OMap.Sorted; unfold OMap.keys at hk; rw [hk]; exact hs
      rw [List.append_assoc, List.singleton_append, ← hk]
      apply eq_of_mem_iff_sorted (hsd.set _ _) hsd
      intro x
      have := OMap.mem_keys_set (m := dst) (k := k) (k' := x) (v := d.map f)
      unfold OMap.keys at this hmem
      rw [this]
      constructor
      · rintro (rfl | h)
        · exact hmem
        · exact h
      · exact Or.inr
    · rw [List.append_assoc]; exact hs
    · intro k' d0 hmem
      obtain ⟨d1, h3, h4⟩ := hd k' d0 (by simp [hmem])
      refine ⟨d1, ?_, h4⟩
      rw [OMap.find?_set, if_neg]
      · exact h3
      · rintro rfl
        have := (List.nodup_cons.1 hnd.2.1).1
        exact this (List.mem_map.2 ⟨(k', d0), hmem, rfl⟩)
    · intro k' d0 hmem
      rw [OMap.find?_set]
      rcases List.mem_append.1 hmem with h | h
      · rw [if_neg]
        · exact hp k' d0 h
        · rintro rfl
          exact hnd.2.2 k' (List.mem_map.2 ⟨_, h, rfl⟩) k' (by simp) rfl
      · simp only [List.mem_singleton, Prod.mk.injEq] at h
        rw [if_pos h.1, h.2]

theorem checkValidName_ok [DecidableEq ν] (names : List ν) (rank : ℕ) :
    checkValidName names rank = .ok () ↔ names.length = rank ∧ names.Nodup := by
  unfold checkValidName
  by_cases hl : names.length = rank
  · rw [if_neg (by simpa using hl)]
    by_cases hn : names.Nodup
    · rw [if_neg]
      · simp [hl, hn]
      · intro hany
        simp only [List.any_eq_true, List.mem_range, List.mem_range'_1, decide_eq_true_eq] at hany
        obtain ⟨i, hi, j, hj, heq⟩ := hany
        have hi' : i < names.length := by omega
        have hj' : j < names.length := by omega
        rw [List.getElem?_eq_getElem hi', List.getElem?_eq_getElem hj', Option.some.injEq] at heq
        have := (List.Nodup.getElem_inj_iff hn).1 heq
        omega
    · rw [if_pos]
      · simp [hn]
      · rw [List.nodup_iff_pairwise_ne, List.pairwise_iff_getElem] at hn
        push Not at hn
        obtain ⟨i, j, hi, hj, hij, heq⟩ := hn
        simp only [List.any_eq_true, List.mem_range, List.mem_range'_1, decide_eq_true_eq]
        refine ⟨i, by omega, j, by omega, ?_⟩
        rw [List.getElem?_eq_getElem hi, List.getElem?_eq_getElem hj, heq]
  · rw [if_pos hl]
    simp [hl]

theorem checkValidName_error [DecidableEq ν] (names : List ν) (rank : ℕ)
    (h : ¬ (names.length = rank ∧ names.Nodup)) : (checkValidName names rank).isError = true := by
  have := mt (checkValidName_ok names rank).1 h
  unfold checkValidName at *
  split
  · rfl
  · split
    · rfl
    · simp_all

/-- A tensor constructed from names and (ascending) edges is well formed. -/
theorem mkTensor_eq [DecidableEq ν] [TatSym σ] (junk : List σ → ℕ → α) (names : List ν)
    (edges : List (Edge σ)) (r : Bool) (hs : ∀ e ∈ edges, OMap.Sorted e.map)
    (hl : names.length = edges.length) (hn : names.Nodup) :
    mkTensor junk names edges r =
      .ok ⟨names, prunedEdges (arrowed edges r), freshBlocks junk (edges.map Edge.map)⟩ := by
  unfold mkTensor
  rw [newCore_eq junk edges r hs]
  simp only [Outcome.bind]
  have hlen : (prunedEdges (arrowed edges r)).length = edges.length := by
    have := congrArg List.length (arrowed_maps edges r)
    simpa [prunedEdges] using this
  rw [hlen, (checkValidName_ok names edges.length).2 ⟨hl, hn⟩]

theorem arrowed_sorted [TatSym σ] {edges : List (Edge σ)} {r : Bool}
    (hs : ∀ e ∈ edges, OMap.Sorted e.map) : ∀ e ∈ arrowed edges r, OMap.Sorted e.map := by
  intro e he
  have : e.map ∈ (arrowed edges r).map Edge.map := List.mem_map_of_mem he
  rw [arrowed_maps] at this
  obtain ⟨e', he', heq⟩ := List.mem_map.1 this
  rw [← heq]; exact hs e' he'

theorem prunedEdges_sorted [TatSym σ] {edges : List (Edge σ)}
    (hs : ∀ e ∈ edges, OMap.Sorted e.map) : ∀ e ∈ prunedEdges edges, OMap.Sorted e.map := by
  intro e he
  obtain ⟨i, hi, rfl⟩ := List.mem_mapIdx.1 he
  exact (hs _ (List.getElem_mem hi)).filter _

theorem wf_fresh [TatSym σ] (junk : List σ → ℕ → α) (names : List ν)
    (edges : List (Edge σ)) (r : Bool) (hs : ∀ e ∈ edges, OMap.Sorted e.map)
    (hl : names.length = edges.length) (hn : names.Nodup) :
    WF (⟨names, prunedEdges (arrowed edges r), freshBlocks junk (edges.map Edge.map)⟩ :
      Tensor ν σ α) where
  rank := by
    have := congrArg List.length (arrowed_maps edges r)
    simp only [List.length_map] at this
    simp [prunedEdges, this, hl]
  nodup := hn
  sorted := prunedEdges_sorted (arrowed_sorted hs)
  blocks := by
    have hsm : ∀ m ∈ edges.map Edge.map, OMap.Sorted m := by
      intro m hm
      obtain ⟨e, he, rfl⟩ := List.mem_map.1 hm
      exact hs e he
    rw [prunedEdges_maps, arrowed_maps, blockShapes_pruned _ hsm]
    simp [freshBlocks, Function.comp_def]
  pruned := prunedEdges_idem _ (arrowed_sorted hs)

/-- Constructing a tensor from the names and edges of a well formed one. -/
theorem sameShape_eq [DecidableEq ν] [TatSym σ] {β : Type} (junk : List σ → ℕ → β)
    {t : Tensor ν σ α} (h : WF t) :
    sameShape junk t =
      .ok ⟨t.names, t.core.edges, freshBlocks junk (t.core.edges.map Edge.map)⟩ := by
  unfold sameShape
  rw [mkTensor_eq junk t.names t.core.edges false h.sorted h.rank h.nodup]
  have : arrowed t.core.edges false = t.core.edges := by simp [arrowed]
  rw [this, h.pruned]

/-- Apply `f` to every element. -/
def mapTensor {β : Type} (f : α → β) (t : Tensor ν σ α) : Tensor ν σ β :=
  ⟨t.names, t.core.edges, t.core.blocks.map fun b => (b.1, b.2.map f)⟩

theorem mapTensor_wf [TatSym σ] {β : Type} (f : α → β) {t : Tensor ν σ α} (h : WF t) :
    WF (mapTensor f t) where
  rank := h.rank
  nodup := h.nodup
  sorted := h.sorted
  blocks := by
    have := h.blocks
    simpa [mapTensor, Function.comp_def] using this
  pruned := h.pruned

theorem elem_mapTensor [TatSym σ] {β : Type} (f : α → β) (t : Tensor ν σ α) (p : ν → σ × ℕ) :
    elem (mapTensor f t) p = (elem t p).map f := by
  unfold elem elemAt mapTensor
  simp only
  rw [OMap.find?_map_val t.core.blocks (fun _ d => d.map f)]
  cases OMap.find? t.core.blocks (keyOf t.names p) with
  | none => rfl
  | some d => simp

theorem tensorMap_eq [DecidableEq ν] [TatSym σ] {β : Type} (junk : List σ → ℕ → β) (f : α → β)
    {t : Tensor ν σ α} (h : WF t) : tensorMap junk f t = .ok (mapTensor f t) := by
  unfold tensorMap
  rw [sameShape_eq junk h]
  simp only [Outcome.bind]
  have hs := h.blocksSorted
  have hk : OMap.keys (freshBlocks junk (t.core.edges.map Edge.map)) =
      OMap.keys t.core.blocks := by
    rw [h.keys]
    unfold OMap.keys freshBlocks
    rw [List.map_map]; rfl
  rw [mapBlocks_fold f [] t.core.blocks _ (by simpa using hk) (by simpa using hs) _ (by simp)]
  · simp [mapTensor]
  · intro k d hmem
    have h1 : (k, d.length) ∈ blockShapes (t.core.edges.map Edge.map) := by
      rw [← h.blocks]; exact List.mem_map.2 ⟨(k, d), hmem, rfl⟩
    refine ⟨(List.range d.length).map (junk k), ?_, by simp⟩
    apply OMap.find?_of_mem (freshBlocks_sorted junk h.sortedMaps).nodup
    exact List.mem_map.2 ⟨(k, d.length), h1, rfl⟩

end TAT
