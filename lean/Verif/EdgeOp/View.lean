import Verif.EdgeOp.Whole

/-!
# Tensors seen through names, and consequences of the main theorem
-/

set_option linter.unusedSectionVars false

namespace TAT

variable {ν σ α : Type}

section view
variable [LinearOrder ν] [TatSym σ]

/-- The edge of a tensor with a given name. -/
def edgeOf (t : Tensor ν σ α) : ν → Edge σ := edgeNamed (t.names.zip t.core.edges)

/-- The map of the edge with a given name. -/
def mapOf (t : Tensor ν σ α) (n : ν) : List (σ × ℕ) := (edgeOf t n).map

theorem edges_named' {t : Tensor ν σ α} (h : Shaped t) :
    t.core.edges = t.names.map (edgeOf t) := by
  have := edgeNamed_map (edges := t.names.zip t.core.edges)
    (by rw [List.map_fst_zip (by rw [h.rank])]; exact h.nodup)
  rw [List.map_fst_zip (by rw [h.rank]), List.map_snd_zip (by rw [h.rank])] at this
  exact this.symm

theorem edges_named {t : Tensor ν σ α} (h : WF t) :
    t.core.edges = t.names.map (edgeOf t) :=
  edges_named' h.shaped

theorem edgeOf_unique' {t : Tensor ν σ α} (h : Shaped t) {e : ν → Edge σ}
    (he : t.core.edges = t.names.map e) : ∀ n ∈ t.names, edgeOf t n = e n := by
  have := edges_named' h
  rw [he] at this
  exact fun n hn => (List.map_inj_left.1 this n hn).symm

theorem edgeOf_unique {t : Tensor ν σ α} (h : WF t) {e : ν → Edge σ}
    (he : t.core.edges = t.names.map e) : ∀ n ∈ t.names, edgeOf t n = e n :=
  edgeOf_unique' h.shaped he

theorem maps_named' {t : Tensor ν σ α} (h : Shaped t) :
    t.core.edges.map Edge.map = t.names.map (mapOf t) := by
  rw [edges_named' h, List.map_map]; rfl

theorem maps_named {t : Tensor ν σ α} (h : WF t) :
    t.core.edges.map Edge.map = t.names.map (mapOf t) :=
  maps_named' h.shaped

theorem mapOf_sorted' {t : Tensor ν σ α} (h : Shaped t) : ∀ n ∈ t.names, OMap.Sorted (mapOf t n) := by
  intro n hn
  have : edgeOf t n ∈ t.core.edges := by
    rw [edges_named' h]; exact List.mem_map_of_mem hn
  exact h.sorted _ this

theorem mapOf_sorted {t : Tensor ν σ α} (h : WF t) : ∀ n ∈ t.names, OMap.Sorted (mapOf t n) :=
  mapOf_sorted' h.shaped

theorem validPos_iff' {t : Tensor ν σ α} (h : Shaped t) {p : ν → σ × ℕ} :
    ValidPos t p ↔ FineOk (mapOf t) t.names p := by
  unfold ValidPos FineOk
  rw [edges_named' h, forall2_map_self]
  rfl

theorem validPos_iff {t : Tensor ν σ α} (h : WF t) {p : ν → σ × ℕ} :
    ValidPos t p ↔ FineOk (mapOf t) t.names p :=
  validPos_iff' h.shaped

/-- Two well formed tensors with equal names, edges and elements are equal. -/
theorem tensor_ext {t r : Tensor ν σ α} (ht : WF t) (hr : WF r) (hn : t.names = r.names)
    (he : t.core.edges = r.core.edges) (hv : ∀ p, ValidPos t p → elem t p = elem r p) : t = r := by
  have hk : OMap.keys t.core.blocks = OMap.keys r.core.blocks := by rw [ht.keys, hr.keys, he]
  have hb : t.core.blocks = r.core.blocks := by
    refine OMap.ext ht.blocksSorted hr.blocksSorted fun k => ?_
    by_cases hin : k ∈ OMap.keys t.core.blocks
    · obtain ⟨hkeys, h0⟩ := ht.mem_keys.1 hin
      obtain ⟨d, hd, hl⟩ := ht.block_of_keys hkeys h0
      obtain ⟨d', hd', hl'⟩ := hr.block_of_keys (he ▸ hkeys) h0
      rw [hd, hd', Option.some.injEq]
      rw [← he] at hl'
      refine List.ext_getElem (by rw [hl, hl']) fun i h1 h2 => ?_
      have hlen : k.length = t.names.length := by rw [ht.rank, hkeys.length_eq]
      have hbox := inBox_unravel (dims := dimsOf t.core.edges k) (n := i) (by rw [← hl]; exact h1)
      have hrow := rowMajor_unravel (dims := dimsOf t.core.edges k) (n := i) (by rw [← hl]; exact h1)
      generalize unravel (dimsOf t.core.edges k) i = idx at hbox hrow
      have hil : idx.length = t.names.length := by
        rw [← hbox.length]; simp [dimsOf, ht.rank, hkeys.length_eq]
      let p : ν → σ × ℕ := fun n => (k.getD (t.names.idxOf n) 0, idx.getD (t.names.idxOf n) 0)
      have hp1 : keyOf t.names p = k := by
        unfold keyOf
        apply List.ext_getElem
        · simp [hlen]
        · intro j a1 a2
          simp only [List.getElem_map, p]
          rw [ht.nodup.idxOf_getElem j (by omega), List.getD_eq_getElem _ _ a2]
      have hp2 : idxOf t.names p = idx := by
        unfold idxOf
        apply List.ext_getElem
        · simp [hil]
        · intro j a1 a2
          simp only [List.getElem_map, p]
          rw [ht.nodup.idxOf_getElem j (by omega), List.getD_eq_getElem _ _ a2]
      have hvp : ValidPos t p := by
        refine ⟨?_, by rw [hp1]; exact h0⟩
        have hf := forall2_getElem.1 hbox
        refine forall2_getElem.2 ⟨by rw [List.length_map, ht.rank], fun j a1 a2 => ?_⟩
        have b1 : j < t.names.length := by simpa using a2
        have hj := hf.2 j (by simp [dimsOf]; omega) (by omega)
        simp only [dimsOf, List.getElem_zipWith] at hj
        simp only [List.getElem_map, p]
        rw [ht.nodup.idxOf_getElem j b1, List.getD_eq_getElem _ _ (by omega),
          List.getD_eq_getElem _ _ (by omega)]
        exact hj
      have := hv p hvp
      unfold elem elemAt at this
      rw [← hn, hp1, hp2, ← he, hd, hd', hrow] at this
      simp only [Option.bind_some] at this
      rwa [List.getElem?_eq_getElem h1, List.getElem?_eq_getElem h2, Option.some.injEq] at this
    · have hin' : k ∉ OMap.keys r.core.blocks := hk ▸ hin
      rw [OMap.find?_eq_none.2 hin, OMap.find?_eq_none.2 hin']
  cases t with
  | mk tn tc =>
    cases r with
    | mk rn rc =>
      cases tc; cases rc
      simp only at hn he hb
      subst hn he hb
      rfl

/-- When every symmetry of every edge takes part in an allowed block, nothing is pruned. -/
theorem prunedEdges_eq_iff {names : List ν} (hn : names.Nodup) (e : ν → Edge σ) :
    prunedEdges (names.map e) = names.map e ↔
      ∀ n ∈ names, ∀ s ∈ OMap.keys (e n).map, ∃ p, KeyOk (fun n => (e n).map) names p ∧
        (p n).1 = s := by
  have hused : ∀ i (hi : i < names.length) s, usedAt ((names.map e).map Edge.map) i s = true ↔
      ∃ p, KeyOk (fun n => (e n).map) names p ∧ (p names[i]).1 = s := by
    intro i hi s
    unfold usedAt
    rw [List.any_eq_true]
    have hm : (names.map e).map Edge.map = names.map fun n => (e n).map := by
      rw [List.map_map]; rfl
    rw [hm]
    constructor
    · rintro ⟨b, hb, hs⟩
      have hb' := List.mem_map_of_mem (f := Prod.fst) hb
      have hl := mem_blocks_length hb'
      obtain ⟨p, hp⟩ := exists_pos hn (k := b.1) (by simpa using hl)
      rw [← hp] at hb'
      refine ⟨p, mem_blocks_iff.1 hb', ?_⟩
      rw [decide_eq_true_eq] at hs
      rw [← hp] at hs
      simp only [keyOf, List.getElem?_map, List.getElem?_eq_getElem hi, Option.map_some,
        Option.some.injEq] at hs
      exact hs
    · rintro ⟨p, hp, hs⟩
      obtain ⟨b, hb, hbk⟩ := List.mem_map.1 (mem_blocks_iff.2 hp)
      refine ⟨b, hb, ?_⟩
      rw [decide_eq_true_eq, hbk]
      simp only [keyOf, List.getElem?_map, List.getElem?_eq_getElem hi, Option.map_some, hs]
  constructor
  · intro h n hmem s hs
    obtain ⟨i, hi, rfl⟩ := List.mem_iff_getElem.1 hmem
    have hh := congrArg (fun l => l[i]?) h
    simp only [prunedEdges] at hh
    rw [List.getElem?_eq_getElem (by simpa using hi), List.getElem?_eq_getElem (by simpa using hi),
      Option.some.injEq, List.getElem_mapIdx, List.getElem_map] at hh
    have hh := congrArg Edge.map hh
    dsimp only at hh
    rw [List.filter_eq_self] at hh
    obtain ⟨y, hy, rfl⟩ := List.mem_map.1 hs
    exact (hused i hi y.1).1 (hh y hy)
  · intro h
    unfold prunedEdges
    apply List.ext_getElem
    · simp
    · intro i h1 h2
      have hi : i < names.length := by simpa using h2
      rw [List.getElem_mapIdx, List.getElem_map]
      have : (e names[i]).map.filter (fun p => usedAt ((names.map e).map Edge.map) i p.1) =
          (e names[i]).map := by
        rw [List.filter_eq_self]
        intro y hy
        exact (hused i hi y.1).2 (h _ (List.getElem_mem hi) y.1 (List.mem_map_of_mem hy))
      rw [this]

theorem KeyOk.perm {fm : ν → List (σ × ℕ)} {A B : List ν} (hp : A.Perm B) {p : ν → σ × ℕ}
    (h : KeyOk fm A p) : KeyOk fm B p :=
  ⟨fun n hn => h.1 n (hp.mem_iff.2 hn), by rw [← h.2]; exact ((hp.map _).sum_eq).symm⟩

theorem FineOk.perm {fm : ν → List (σ × ℕ)} {A B : List ν} (hp : A.Perm B) {p : ν → σ × ℕ}
    (h : FineOk fm A p) : FineOk fm B p :=
  ⟨fun n hn => h.1 n (hp.mem_iff.2 hn), by rw [← h.2]; exact ((hp.map _).sum_eq).symm⟩

theorem fineOk_congr {fm fm' : ν → List (σ × ℕ)} {A : List ν} (h : ∀ n ∈ A, fm n = fm' n)
    {p : ν → σ × ℕ} : FineOk fm A p ↔ FineOk fm' A p := by
  unfold FineOk
  refine and_congr_left fun _ => ⟨fun hh n hn => ?_, fun hh n hn => ?_⟩
  · rw [← h n hn]; exact hh n hn
  · rw [h n hn]; exact hh n hn

theorem keyOk_congr {fm fm' : ν → List (σ × ℕ)} {A : List ν} (h : ∀ n ∈ A, fm n = fm' n)
    {p : ν → σ × ℕ} : KeyOk fm A p ↔ KeyOk fm' A p := by
  unfold KeyOk
  refine and_congr_left fun _ => ⟨fun hh n hn => ?_, fun hh n hn => ?_⟩
  · rw [← h n hn]; exact hh n hn
  · rw [h n hn]; exact hh n hn

/-- Pruning does not depend on the order of the edges, nor on the arrows. -/
theorem prunedEdges_perm {A B : List ν} (hA : A.Nodup) (hp : A.Perm B) {e e' : ν → Edge σ}
    (hm : ∀ n ∈ A, (e n).map = (e' n).map)
    (h : prunedEdges (A.map e) = A.map e) : prunedEdges (B.map e') = B.map e' := by
  rw [prunedEdges_eq_iff hA] at h
  rw [prunedEdges_eq_iff (hp.nodup_iff.1 hA)]
  intro n hn s hs
  have hnA := hp.mem_iff.2 hn
  rw [← hm n hnA] at hs
  obtain ⟨p, hk, hs'⟩ := h n hnA s hs
  exact ⟨p, ((keyOk_congr hm).1 hk).perm hp, hs'⟩

/-! ## single names as groups -/

theorem coarseKey_singles (names : List ν) (p : ν → σ × ℕ) :
    coarseKey (names.map fun n => [n]) p = keyOf names p := by
  simp [coarseKey, keyOf, Function.comp_def]

theorem groupIdx_single {fm : ν → List (σ × ℕ)} {n : ν} (h : OMap.Sorted (fm n)) (p : ν → σ × ℕ) :
    groupIdx fm [n] p = (p n).2 := by
  unfold groupIdx
  simp only [List.map_singleton, keyOf, idxOf]
  rw [mergeOffset_single h]
  simp [rowMajor]

theorem coarseIdx_singles {fm : ν → List (σ × ℕ)} {names : List ν}
    (h : ∀ n ∈ names, OMap.Sorted (fm n)) (p : ν → σ × ℕ) :
    coarseIdx fm (names.map fun n => [n]) p = idxOf names p := by
  unfold coarseIdx idxOf
  rw [List.map_map]
  exact List.map_congr_left fun n hn => groupIdx_single (h n hn) p

/-! ## the shortcut -/

/-- The shortcut is only taken when all names but the first agree. -/
theorem isSameVector_tail {A B : List ν} (h : isSameVector A B = true) :
    A.length = B.length ∧ A.tail = B.tail := by
  unfold isSameVector at h
  split at h
  · simp at h
  · rename_i hl
    have hl' : A.length = B.length := by simpa using hl
    refine ⟨hl', ?_⟩
    rw [List.all_eq_true] at h
    apply List.ext_getElem
    · simp [hl']
    · intro i h1 h2
      have hi : i + 1 < A.length := by simp at h1; omega
      have := h (i + 1) (by rw [List.mem_range'_1]; omega)
      rw [decide_eq_true_eq, List.getElem?_eq_getElem hi,
        List.getElem?_eq_getElem (by omega), Option.some.injEq] at this
      simpa using this

theorem eq_of_tail_perm {A B : List ν} (ht : A.tail = B.tail) (hp : A.Perm B) : A = B := by
  cases A with
  | nil => simp at hp; exact hp.symm
  | cons x l =>
    cases B with
    | nil => simp at hp
    | cons y l' =>
      simp only [List.tail_cons] at ht
      subst ht
      have hxy : x = y := by
        by_contra hne
        have h1 := hp.count_eq x
        simp only [List.count_cons_self, List.count_cons_of_ne (Ne.symm hne)] at h1
        omega
      rw [hxy]

end view

section spec
variable [LinearOrder ν] [TatSym σ] {t : Tensor ν σ α} {a : EdgeArgs ν σ}

theorem opShortcut_args (h : opShortcut t a = true) :
    isSameVector (opNames t a) a.newNames = true ∧ a.split = [] ∧ a.reversed = [] ∧ a.merge = [] ∧
      a.cut = [] := by
  unfold opShortcut at h
  simp only [Bool.and_eq_true, List.isEmpty_iff] at h
  tauto

/-- When the shortcut is taken consistently, the names are unchanged. -/
theorem OpOk.shortcut (h : OpOk t a) (hs : opShortcut t a = true) : opNames t a = a.newNames := by
  obtain ⟨h1, h2, _, h4, _⟩ := opShortcut_args hs
  have hp := h.perm
  unfold opS opM at hp
  rw [h2, h4, splitGroups_nil, mergeGroups_nil, flatten_singletons, flatten_singletons] at hp
  exact eq_of_tail_perm (isSameVector_tail h1).2 hp

/-- Without split every edge is its own group. -/
theorem opS_noSplit (h : a.split = []) : opS t a = (opNames t a).map fun n => [n] := by
  unfold opS; rw [h]; rfl

theorem opM_noMerge {a : EdgeArgs ν σ} (h : a.merge = []) :
    opM a = a.newNames.map fun n => [n] := by
  unfold opM; rw [h]; rfl

theorem OpOk.fine_noSplit (h : OpOk t a) (hs : a.split = []) :
    (opNames t a).map (opFine t a) = opCut t a := by
  unfold opFine
  rw [hs, fineEdges_nil]
  have := edgeNamed_map (edges := (opNames t a).zip (opCut t a)) (by
    have := h.fineNodup
    rwa [hs, fineEdges_nil] at this)
  rw [List.map_fst_zip (by rw [h.lenCut]), List.map_snd_zip (by rw [h.lenCut])] at this
  exact this

theorem OpOk.in_noSplit (h : OpOk t a) (hs : a.split = []) {p : ν → σ × ℕ}
    (hp : KeyOk (opMap t a) (opS t a).flatten p) : opIn t a p := by
  unfold opIn
  rw [opS_noSplit hs, coarseKey_singles, ← h.fine_noSplit hs]
  unfold keyOf
  rw [forall2_map_self]
  intro n hn
  refine hp.1 n ?_
  rw [opS_noSplit hs, flatten_singletons]
  exact hn

end spec

end TAT
