import Verif.Contract.Errors
import Verif.Tensor.Blocks

/-!
# Leaving out symmetries of edges

The tensor with some symmetries of its edges left out, and why `edge_operator` with a cut is the
same as `edge_operator` of that tensor.
-/

namespace TAT

variable {ν σ α : Type}

/-! ## maps -/

theorem OMap.find?_filter_key {κ β : Type} [LinearOrder κ] (m : List (κ × β)) (q : κ → Bool) (k : κ) :
    OMap.find? (m.filter fun x => q x.1) k = if q k then OMap.find? m k else none := by
  induction m with
  | nil => simp [OMap.find?]
  | cons x m ih =>
    obtain ⟨k', v⟩ := x
    rw [List.filter_cons]
    by_cases hk : k = k'
    · subst hk
      by_cases hq : q k = true
      · simp [hq, OMap.find?]
      · simp only [hq, Bool.false_eq_true, if_false] at ih ⊢
        exact ih
    · by_cases hq : q k' = true
      · rw [if_pos hq]
        simp only [OMap.find?, if_neg hk]
        exact ih
      · rw [if_neg hq]
        simp only [OMap.find?, if_neg hk]
        exact ih

theorem OMap.mem_keys_filter_key {κ β : Type} [LinearOrder κ] (m : List (κ × β)) (q : κ → Bool)
    (k : κ) : k ∈ OMap.keys (m.filter fun x => q x.1) ↔ q k = true ∧ k ∈ OMap.keys m := by
  rw [← OMap.find?_isSome, OMap.find?_filter_key, ← OMap.find?_isSome]
  by_cases h : q k = true <;> simp [h]

/-! ## blocks -/

section blocks
variable [TatSym σ]

omit [TatSym σ] in
theorem choices_filter_key (keep : ν → σ → Bool) (names : List ν) (maps : List (List (σ × ℕ)))
    (hl : names.length = maps.length) :
    choices (List.zipWith (fun n m => m.filter fun x : σ × ℕ => keep n x.1) names maps) =
      (choices maps).filter fun c => (names.zip (c.map Prod.fst)).all fun x => keep x.1 x.2 := by
  induction names generalizing maps with
  | nil =>
    cases maps with
    | nil => rfl
    | cons m ms => simp at hl
  | cons n ns ih =>
    cases maps with
    | nil => simp at hl
    | cons m ms =>
      rw [List.zipWith_cons_cons]
      unfold choices
      rw [ih ms (by simpa using hl), List.filter_flatMap]
      clear hl ih
      induction m with
      | nil => rfl
      | cons x m ihm =>
        rw [List.filter_cons, List.flatMap_cons, ← ihm, List.filter_map]
        by_cases hk : keep n x.1 = true
        · rw [if_pos hk, List.flatMap_cons]
          congr 2
          refine List.filter_congr fun c _ => ?_
          simp [hk]
        · rw [if_neg hk]
          have : ∀ l : List (List (σ × ℕ)), l.filter ((fun c =>
              ((n :: ns).zip (c.map Prod.fst)).all fun x => keep x.1 x.2) ∘ fun c => x :: c) = [] :=
            fun l => List.filter_eq_nil_iff.2 (by intro c _; simp [hk])
          rw [this, List.map_nil, List.nil_append]

theorem blockShapes_filter (keep : ν → σ → Bool) (names : List ν) (maps : List (List (σ × ℕ)))
    (hl : names.length = maps.length) :
    blockShapes (List.zipWith (fun n m => m.filter fun x : σ × ℕ => keep n x.1) names maps) =
      (blockShapes maps).filter fun b => (names.zip b.1).all fun x => keep x.1 x.2 := by
  unfold blockShapes
  rw [choices_filter_key keep names maps hl, List.filter_map, List.filter_filter, List.filter_filter]
  congr 1
  refine List.filter_congr fun c _ => ?_
  simp only [Function.comp]
  exact Bool.and_comm _ _

end blocks

/-! ## the restricted tensor -/

section restricted
variable [LinearOrder ν] [TatSym σ]

/-- The tensor with only those symmetries on its edges that are to be kept. -/
def restrictBy (keep : ν → σ → Bool) (t : Tensor ν σ α) : Tensor ν σ α :=
  ⟨t.names, ⟨List.zipWith (fun n (e : Edge σ) => ⟨e.arrow, e.map.filter fun x => keep n x.1⟩) t.names
      t.core.edges,
    t.core.blocks.filter fun b => (t.names.zip b.1).all fun x => keep x.1 x.2⟩⟩

variable {keep : ν → σ → Bool} {t : Tensor ν σ α}

omit [LinearOrder ν] [TatSym σ] in
theorem restrictBy_names : (restrictBy keep t).names = t.names := rfl

omit [LinearOrder ν] in
theorem restrictBy_shaped (h : Shaped t) : Shaped (restrictBy keep t) where
  rank := by simp [restrictBy, h.rank]
  nodup := h.nodup
  sorted := by
    intro e he
    obtain ⟨i, hi, rfl⟩ := List.mem_iff_getElem.1 he
    simp only [restrictBy, List.getElem_zipWith]
    exact (h.sorted _ (List.getElem_mem _)).filter _
  blocks := by
    have hm : (restrictBy keep t).core.edges.map Edge.map =
        List.zipWith (fun n m => m.filter fun x : σ × ℕ => keep n x.1) t.names
          (t.core.edges.map Edge.map) := by
      unfold restrictBy
      rw [List.map_zipWith, List.zipWith_map_right]
    rw [hm, blockShapes_filter keep _ _ (by rw [List.length_map, h.rank]), ← h.blocks,
      List.filter_map]
    rfl

theorem restrictBy_edges (h : Shaped t) : (restrictBy keep t).core.edges =
    t.names.map fun n => ⟨(edgeOf t n).arrow, (mapOf t n).filter fun x => keep n x.1⟩ := by
  have := edges_named' h
  unfold restrictBy
  dsimp only
  rw [this, List.zipWith_map_right, List.zipWith_self]
  rfl

theorem restrictBy_edgeOf (h : Shaped t) {n : ν} (hn : n ∈ t.names) :
    edgeOf (restrictBy keep t) n =
      ⟨(edgeOf t n).arrow, (mapOf t n).filter fun x => keep n x.1⟩ :=
  edgeOf_unique' (restrictBy_shaped h) (restrictBy_edges h) n hn

theorem restrictBy_mapOf (h : Shaped t) {n : ν} (hn : n ∈ t.names) :
    mapOf (restrictBy keep t) n = (mapOf t n).filter fun x => keep n x.1 := by
  unfold mapOf
  rw [restrictBy_edgeOf h hn]
  rfl

theorem restrictBy_edgeOf_keep (h : Shaped t) {n : ν} (hn : n ∈ t.names)
    (hk : ∀ s, keep n s = true) : edgeOf (restrictBy keep t) n = edgeOf t n := by
  rw [restrictBy_edgeOf h hn]
  have : (mapOf t n).filter (fun x => keep n x.1) = mapOf t n :=
    List.filter_eq_self.2 fun x _ => hk x.1
  rw [this]
  rfl

theorem restrictBy_all (h : Shaped t)
    (hk : ∀ n ∈ t.names, ∀ s ∈ OMap.keys (mapOf t n), keep n s = true) : restrictBy keep t = t := by
  have he : (restrictBy keep t).core.edges = t.core.edges := by
    rw [restrictBy_edges h]
    conv_rhs => rw [edges_named' h]
    refine List.map_congr_left fun n hn => ?_
    have : (mapOf t n).filter (fun x => keep n x.1) = mapOf t n :=
      List.filter_eq_self.2 fun x hx => hk n hn x.1 (List.mem_map_of_mem hx)
    rw [this]
    rfl
  have hb : (restrictBy keep t).core.blocks = t.core.blocks := by
    unfold restrictBy
    dsimp only
    refine List.filter_eq_self.2 fun b hb => ?_
    have hkey : b.1 ∈ OMap.keys t.core.blocks := List.mem_map_of_mem hb
    obtain ⟨p, hp⟩ := exists_key' h hkey
    rw [← hp] at hkey ⊢
    have hin := ((mem_keys_named' h p).1 hkey).1
    rw [List.all_eq_true]
    intro x hx
    unfold keyOf at hx
    rw [List.zip_map_right, List.mem_map] at hx
    obtain ⟨y, hy, rfl⟩ := hx
    obtain ⟨h1, h2⟩ := List.of_mem_zip hy
    have : y.1 = y.2 := by
      obtain ⟨i, hi, rfl⟩ := List.mem_iff_getElem.1 hy
      simp
    dsimp only [Prod.map]
    rw [this]
    exact hk _ h2 _ (hin _ h2)
  unfold restrictBy at he hb ⊢
  dsimp only at he hb
  rw [he, hb]

omit [LinearOrder ν] [TatSym σ] in
theorem zip_keyOf_all (names : List ν) (p : ν → σ × ℕ) :
    ((names.zip (keyOf names p)).all fun x => keep x.1 x.2) = true ↔
      ∀ n ∈ names, keep n (p n).1 = true := by
  unfold keyOf
  induction names with
  | nil => simp
  | cons n ns ih => simp only [List.map_cons, List.zip_cons_cons, List.all_cons, Bool.and_eq_true, ih,
      List.mem_cons, forall_eq_or_imp]

omit [LinearOrder ν] in
theorem restrictBy_find (k : List σ) : OMap.find? (restrictBy keep t).core.blocks k =
    if (t.names.zip k).all (fun x => keep x.1 x.2) then OMap.find? t.core.blocks k else none :=
  OMap.find?_filter_key t.core.blocks (fun k => (t.names.zip k).all fun x => keep x.1 x.2) k

theorem restrictBy_key (h : Shaped t) (p : ν → σ × ℕ) :
    KeyOk (mapOf (restrictBy keep t)) t.names p ↔
      KeyOk (mapOf t) t.names p ∧ ∀ n ∈ t.names, keep n (p n).1 = true := by
  unfold KeyOk
  constructor
  · rintro ⟨h1, h2⟩
    have : ∀ n ∈ t.names, keep n (p n).1 = true ∧ (p n).1 ∈ OMap.keys (mapOf t n) := by
      intro n hn
      have := h1 n hn
      rwa [restrictBy_mapOf h hn, OMap.mem_keys_filter_key _ (keep n)] at this
    exact ⟨⟨fun n hn => (this n hn).2, h2⟩, fun n hn => (this n hn).1⟩
  · rintro ⟨⟨h1, h2⟩, h3⟩
    refine ⟨fun n hn => ?_, h2⟩
    rw [restrictBy_mapOf h hn, OMap.mem_keys_filter_key _ (keep n)]
    exact ⟨h3 n hn, h1 n hn⟩

theorem restrictBy_dim (h : Shaped t) {n : ν} (hn : n ∈ t.names) (s : σ) :
    dimM (mapOf (restrictBy keep t) n) s = if keep n s then dimM (mapOf t n) s else 0 := by
  unfold dimM
  rw [restrictBy_mapOf h hn, OMap.find?_filter_key _ (keep n)]
  split <;> rfl

/-- The elements of the restricted tensor are those of the tensor where all symmetries are kept. -/
theorem restrictBy_amp [Zero α] (h : Shaped t) (p : ν → σ × ℕ) :
    amp (restrictBy keep t) p =
      if ∀ n ∈ t.names, keep n (p n).1 = true then amp t p else 0 := by
  have h' := restrictBy_shaped (keep := keep) h
  by_cases hk : ∀ n ∈ t.names, keep n (p n).1 = true
  · rw [if_pos hk]
    have hv : ValidPos (restrictBy keep t) p ↔ ValidPos t p := by
      rw [validPos_iff' h', validPos_iff' h, restrictBy_names]
      unfold FineOk
      refine and_congr_left fun _ => forall₂_congr fun n hn => ?_
      rw [restrictBy_dim h hn, if_pos (hk n hn)]
    by_cases hvt : ValidPos t p
    · have hvr := hv.2 hvt
      have he : elem (restrictBy keep t) p = elem t p := by
        rw [elem_named' h', elem_named' h, restrictBy_names, restrictBy_find,
          if_pos ((zip_keyOf_all _ _).2 hk)]
        have : (t.names.map fun n => dimM (mapOf (restrictBy keep t) n) (p n).1) =
            t.names.map fun n => dimM (mapOf t n) (p n).1 :=
          List.map_congr_left fun n hn => by rw [restrictBy_dim h hn, if_pos (hk n hn)]
        rw [this]
      have a1 := amp_valid' h' hvr
      have a2 := amp_valid' h hvt
      rw [he] at a1
      exact Option.some.inj (a1.symm.trans a2)
    · rw [amp_zero' h hvt, amp_zero' h' (mt hv.1 hvt)]
  · rw [if_neg hk]
    refine amp_zero' h' fun hv => hk fun n hn => ?_
    rw [validPos_iff' h'] at hv
    have := hv.1 n hn
    rw [restrictBy_dim h hn] at this
    by_contra hc
    rw [if_neg hc] at this
    omega

/-! ## edge_operator with a cut -/

omit [LinearOrder ν] in
theorem lookupDims_congr (names : List ν) {e e' : ν → Edge σ} (p : ν → σ × ℕ)
    (h : ∀ n ∈ names, OMap.find? (e n).map (p n).1 = OMap.find? (e' n).map (p n).1) :
    lookupDims (names.map e) (keyOf names p) = lookupDims (names.map e') (keyOf names p) := by
  induction names with
  | nil => rfl
  | cons n ns ih =>
    unfold keyOf at ih ⊢
    simp only [List.map_cons, lookupDims]
    rw [h n List.mem_cons_self, ih fun m hm => h m (List.mem_cons_of_mem _ hm)]

/-- `edge_operator` with a cut and with edges to reverse is `edge_operator` of the tensor without the
symmetries cut away. -/
theorem edgeOperator_restrict [Neg α] [Zero α] (env : Env σ α) (h : Shaped t) {a : EdgeArgs ν σ}
    (hm : a.merge ≠ []) (hf : TatSym.isFermi σ = true) (hrev : a.reversed ≠ [])
    (g : Gather (restrictBy keep t) { a with cut := [] })
    (hcut : edgeBeforeSplit a.cut t.names t.core.edges = (restrictBy keep t).core.edges) :
    edgeOperator env t a = edgeOperator env (restrictBy keep t) { a with cut := [] } := by
  have hr : a.rename = [] := g.rename
  have hs : a.split = [] := g.split
  have hm' : a.merge.isEmpty = false := by simpa using hm
  have hrev' : a.reversed.isEmpty = false := by simpa using hrev
  have hsrc := g.ok.source
  unfold edgeOperator
  have hE : edgeBeforeSplit ([] : List (ν × List (σ × ℕ))) (restrictBy keep t).names
      (restrictBy keep t).core.edges = (restrictBy keep t).core.edges := rfl
  dsimp only at hsrc ⊢
  rw [hcut, hE, restrictBy_names]
  simp only [hm', Bool.and_false, Bool.false_and, Bool.false_eq_true, if_false]
  split
  · rfl
  · congr 1
    funext d2s
    congr 1
    funext core
    congr 1
    funext _
    congr 1
    have hc : (!a.split.isEmpty || TatSym.isFermi σ && !a.reversed.isEmpty) = true := by
      simp [hf, hrev']
    have hN : opNames (restrictBy keep t) { a with cut := [] } = nameBeforeSplit a.rename t.names := by
      rw [g.names, hr]; rfl
    have hC : opCut (restrictBy keep t) { a with cut := [] } = (restrictBy keep t).core.edges := g.opCut
    rw [hN, hC, restrictBy_names] at hsrc
    simp only [if_pos hc] at hsrc ⊢
    refine foldlM_congr (fun x hx s => ?_) _
    obtain ⟨p, hp, -, hxe⟩ := hsrc.mem x hx
    rw [g.opMap, g.opS, flatten_singletons] at hp
    rw [g.opMap, g.opS, flatten_singletons, coarseKey_singles] at hxe
    rw [restrictBy_names] at hp hxe
    obtain ⟨hp1, hp2⟩ := (restrictBy_key h p).1 hp
    have hb : OMap.find? t.core.blocks x.2.1 = OMap.find? (restrictBy keep t).core.blocks x.2.1 := by
      rw [hxe]
      dsimp only
      rw [restrictBy_find, if_pos ((zip_keyOf_all _ _).2 hp2)]
    have hd : lookupDims t.core.edges x.2.1 = lookupDims (restrictBy keep t).core.edges x.2.1 := by
      rw [hxe, restrictBy_edges h, edges_named' h]
      refine lookupDims_congr _ p fun n hn => ?_
      dsimp only
      rw [OMap.find?_filter_key _ (keep n), if_pos (hp2 n hn)]
      rfl
    unfold copyBlock
    dsimp only [blockParity]
    rw [hb, hd]

end restricted

end TAT
