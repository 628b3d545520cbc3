import Verif.Contract.Elements

/-!
# Tensors without symmetry that have their block
-/

set_option linter.unusedSectionVars false

namespace TAT

variable {ν σ α : Type} [LinearOrder ν] [TatSym σ]

theorem sym_zero (hns : TatSym.isNoSym σ = true) (s : σ) : s = 0 := TatSym.noSym_eq hns s 0

theorem unit_map (hns : TatSym.isNoSym σ = true) {m : List (σ × ℕ)} (hs : OMap.Sorted m)
    (hk : (0 : σ) ∈ OMap.keys m) : m = [(0, dimM m 0)] :=
  noSym_map hns (e := ⟨false, m⟩) hs hk

/-- The dimension of an edge of a tensor without symmetry. -/
def dimN (t : Tensor ν σ α) (n : ν) : ℕ := dimM (mapOf t n) 0

theorem solid_keys' (hns : TatSym.isNoSym σ = true) {t : Tensor ν σ α} (h : Shaped t)
    (hb : t.core.blocks ≠ []) : ∀ n ∈ t.names, (0 : σ) ∈ OMap.keys (mapOf t n) := by
  obtain ⟨b, rest, hb⟩ := List.exists_cons_of_ne_nil hb
  have hk : b.1 ∈ OMap.keys t.core.blocks := by rw [hb]; simp [OMap.keys]
  obtain ⟨p, hp⟩ := exists_key' h hk
  rw [← hp, mem_keys_named' h] at hk
  intro n hn
  have := hk.1 n hn
  rwa [sym_zero hns (p n).1] at this

theorem solid_keys (hns : TatSym.isNoSym σ = true) {t : Tensor ν σ α} (h : WF t)
    (hb : t.core.blocks ≠ []) : ∀ n ∈ t.names, (0 : σ) ∈ OMap.keys (mapOf t n) :=
  solid_keys' hns h.shaped hb

theorem solid_of_keys (hns : TatSym.isNoSym σ = true) {t : Tensor ν σ α} (h : WF t)
    (hk : ∀ n ∈ t.names, (0 : σ) ∈ OMap.keys (mapOf t n)) : t.core.blocks ≠ [] := by
  have : keyOf t.names (fun _ => ((0 : σ), 0)) ∈ OMap.keys t.core.blocks :=
    (mem_keys_named h _).2 ⟨hk, sym_zero hns _⟩
  intro hb
  rw [hb] at this
  simp [OMap.keys] at this

theorem solid_block (hns : TatSym.isNoSym σ = true) {t : Tensor ν σ α} (h : WF t)
    (hb : t.core.blocks ≠ []) : ∃ k d, t.core.blocks = [(k, d)] ∧
      d.length = (t.names.map (dimN t)).prod ∧
      ∀ p, elem t p = d[rowMajor (t.names.map (dimN t)) (idxOf t.names p)]? := by
  obtain ⟨b, rest, hb⟩ := List.exists_cons_of_ne_nil hb
  have hlen : ∀ k ∈ OMap.keys t.core.blocks, k.length = t.names.length := by
    intro k hk
    obtain ⟨p, rfl⟩ := exists_key h hk
    simp [keyOf]
  have hrest : rest = [] := by
    cases rest with
    | nil => rfl
    | cons c rest =>
      have hs := h.blocksSorted.nodup
      have e := forall2_noSym_keys hns b.1 c.1 (by
        rw [hlen b.1 (by rw [hb]; simp [OMap.keys]), hlen c.1 (by rw [hb]; simp [OMap.keys])])
      rw [hb] at hs
      simp [OMap.keys, e] at hs
  subst hrest
  have hk : ∀ p : ν → σ × ℕ, keyOf t.names p = b.1 := fun p => forall2_noSym_keys hns _ _ (by
    rw [hlen b.1 (by rw [hb]; simp [OMap.keys])]; simp [keyOf])
  have hd : ∀ p : ν → σ × ℕ, (t.names.map fun n => dimM (mapOf t n) (p n).1) =
      t.names.map (dimN t) := fun p => List.map_congr_left fun n _ => by
    unfold dimN; rw [sym_zero hns (p n).1]
  have hf : ∀ p : ν → σ × ℕ, OMap.find? t.core.blocks (keyOf t.names p) = some b.2 := by
    intro p
    rw [hb, hk p]
    simp [OMap.find?]
  refine ⟨b.1, b.2, hb, ?_, fun p => ?_⟩
  · rw [length_named h (hf fun _ => (0, 0)), hd]
  · rw [elem_named h, hf p, hd]; rfl

theorem choices_unit {β γ : Type} (f : γ → β) (l : List γ) :
    choices (l.map fun n => [f n]) = [l.map f] := by
  induction l with
  | nil => rfl
  | cons n l ih => rw [List.map_cons, choices, ih]; rfl

theorem sameTotal_unit (hns : TatSym.isNoSym σ = true) {fm : ν → List (σ × ℕ)} {g : List ν}
    (h : ∀ n ∈ g, fm n = [(0, dimM (fm n) 0)]) (s : σ) :
    sameTotal (g.map fm) s = [(g.map fun _ => 0, (g.map fun n => dimM (fm n) 0).prod)] := by
  have : g.map fm = g.map fun n => [((0 : σ), dimM (fm n) 0)] := List.map_congr_left h
  unfold sameTotal combos
  rw [this, choices_unit]
  simp only [List.map_cons, List.map_nil, List.map_map]
  rw [List.filter_cons, if_pos (decide_eq_true ((sym_zero hns _).trans (sym_zero hns s).symm))]
  rfl

theorem mergedDim_unit (hns : TatSym.isNoSym σ = true) {fm : ν → List (σ × ℕ)} {g : List ν}
    (h : ∀ n ∈ g, fm n = [(0, dimM (fm n) 0)]) (s : σ) :
    mergedDim (g.map fm) s = (g.map fun n => dimM (fm n) 0).prod := by
  unfold mergedDim
  rw [sameTotal_unit hns h]
  simp

theorem groupIdx_unit (hns : TatSym.isNoSym σ = true) {fm : ν → List (σ × ℕ)} {g : List ν}
    (h : ∀ n ∈ g, fm n = [(0, dimM (fm n) 0)]) (p : ν → σ × ℕ) :
    groupIdx fm g p = rowMajor (g.map fun n => dimM (fm n) 0) (idxOf g p) := by
  unfold groupIdx mergeOffset prefixSize
  have hk : keyOf g p = g.map fun _ => 0 := List.map_congr_left fun n _ => sym_zero hns _
  have hd : (g.map fun n => dimM (fm n) (p n).1) = g.map fun n => dimM (fm n) 0 :=
    List.map_congr_left fun n _ => by rw [sym_zero hns (p n).1]
  rw [sameTotal_unit hns h, hk, hd]
  simp

/-- The size of a group of edges. -/
def sizeN (t : Tensor ν σ α) (g : List ν) : ℕ := (g.map (dimN t)).prod

/-- The number of an index of a group of edges. -/
def numN (t : Tensor ν σ α) (g : List ν) (p : ν → σ × ℕ) : ℕ :=
  rowMajor (g.map (dimN t)) (idxOf g p)

theorem numN_lt (hns : TatSym.isNoSym σ = true) {t : Tensor ν σ α} (h : WF t) {g : List ν}
    (hg : ∀ n ∈ g, n ∈ t.names) {p : ν → σ × ℕ} (hv : ∀ n ∈ g, (p n).2 < dimM (mapOf t n) (p n).1) :
    numN t g p < sizeN t g := by
  refine rowMajor_lt ?_
  unfold InBox idxOf
  rw [List.forall₂_map_left_iff, List.forall₂_map_right_iff]
  exact List.forall₂_same.2 fun n hn => by
    have := hv n hn
    rwa [sym_zero hns (p n).1] at this

theorem gather_unit [CommRing α] (hns : TatSym.isNoSym σ = true) (env : Env σ α)
    {t : Tensor ν σ α} {a : EdgeArgs ν σ} (h : Gather t a) (hb : t.core.blocks ≠ []) :
    ∃ r k d, edgeOperator env t a = .ok r ∧
      r.core.edges.map Edge.map = (opM a).map (fun g => [((0 : σ), sizeN t g)]) ∧
      r.core.blocks = [(k, d)] ∧ d.length = ((opM a).map (sizeN t)).prod ∧
      ∀ p, ValidPos t p → d[rowMajor ((opM a).map (sizeN t)) ((opM a).map fun g => numN t g p)]? =
        elem t p := by
  obtain ⟨r, e1, e2, e3, e4, e5⟩ := gather_spec env h
  have hk0 := solid_keys' hns h.wf hb
  have hmem : ∀ g ∈ opM a, ∀ n ∈ g, n ∈ t.names := fun g hg n hn =>
    h.perm.mem_iff.2 (List.mem_flatten.2 ⟨g, hg, hn⟩)
  have hu : ∀ g ∈ opM a, ∀ n ∈ g, mapOf t n = [(0, dimM (mapOf t n) 0)] := fun g hg n hn =>
    unit_map hns (mapOf_sorted' h.wf n (hmem g hg n hn)) (hk0 n (hmem g hg n hn))
  have hkey : KeyOk (mapOf t) (opM a).flatten fun _ => ((0 : σ), 0) :=
    ⟨fun n hn => hk0 n (h.perm.mem_iff.2 hn), sym_zero hns _⟩
  have hk := h.coarse_keys env.garbage hkey
  rw [← e4] at hk
  have hlen : r.core.edges.length = (opM a).length := by
    rw [e4, pruned_length, opEdges_length, ← opM_length]
  have hz : ∀ (i : ℕ) (hi : i < r.core.edges.length), (0 : σ) ∈ OMap.keys r.core.edges[i].map := by
    intro i hi
    have hi2 : i < (coarseKey (opM a) fun _ => ((0 : σ), 0)).length := by
      rw [← hk.length_eq]; exact hi
    have := List.Forall₂.get hk hi hi2
    simp only [List.get_eq_getElem] at this
    rwa [sym_zero hns ((coarseKey (opM a) fun _ => ((0 : σ), 0))[i])] at this
  have hmaps : r.core.edges.map Edge.map = (opM a).map (fun g => [((0 : σ), sizeN t g)]) := by
    apply List.ext_getElem (by simp [hlen])
    intro i hi hi'
    rw [List.length_map] at hi hi'
    rw [List.getElem_map, List.getElem_map]
    have hm := noSym_map hns (e3.sorted _ (List.getElem_mem hi)) (hz i hi)
    rw [(h.edgeAt env.garbage e4 i hi hi').1 0 (hz i hi),
      mergedDim_unit hns (hu _ (List.getElem_mem hi'))] at hm
    exact hm
  have hrb : r.core.blocks ≠ [] := by
    have : (coarseKey (opM a) fun _ => ((0 : σ), 0)) ∈ OMap.keys r.core.blocks :=
      e3.mem_keys.2 ⟨hk, sym_zero hns _⟩
    intro hb
    rw [hb] at this
    simp [OMap.keys] at this
  have hrN : r.names.map (dimN r) = (opM a).map (sizeN t) := by
    have h1 := maps_named e3
    rw [hmaps] at h1
    have : (r.names.map (mapOf r)).map (fun m => dimM m 0) =
        ((opM a).map (fun g => [((0 : σ), sizeN t g)])).map fun m => dimM m 0 := by rw [h1]
    rw [List.map_map, List.map_map] at this
    refine Eq.trans ?_ (this.trans ?_)
    · rfl
    · exact List.map_congr_left fun g _ => by simp [dimM, OMap.find?]
  obtain ⟨k, d, hd1, hd2, hd3⟩ := solid_block hns e3 hrb
  refine ⟨r, k, d, e1, hmaps, hd1, by rw [hd2, hrN], fun p hv => ?_⟩
  have h5 := e5 p hv
  have hc : coarseIdx (mapOf t) (opM a) p = (opM a).map fun g => numN t g p := by
    unfold coarseIdx
    exact List.map_congr_left fun g hg => groupIdx_unit hns (hu g hg) p
  have hs : opSign t a p = 1 := by
    unfold opSign
    rw [if_neg (by rw [TatSym.noSym_bose hns]; simp)]
  have hid : (elem t p).map (applySign (opSign t a p)) = elem t p := by
    rw [hs]
    cases elem t p <;> simp [applySign]
  rw [hid, hc] at h5
  rw [← h5]
  obtain ⟨q, hq⟩ := exists_pos (ν := ν) (k := coarseKey (opM a) p) e3.nodup (by
    rw [e2, ← opM_length]; simp [coarseKey])
  unfold elemAt
  have hkk : k = coarseKey (opM a) p := by
    refine forall2_noSym_keys hns _ _ ?_
    have : k ∈ OMap.keys r.core.blocks := by rw [hd1]; simp [OMap.keys]
    obtain ⟨q', rfl⟩ := exists_key e3 this
    rw [← hq]; simp [keyOf]
  have hdims : dimsOf r.core.edges (coarseKey (opM a) p) = (opM a).map (sizeN t) := by
    rw [← hq, dimsOf_named e3, ← hrN]
    exact List.map_congr_left fun n _ => by unfold dimN; rw [sym_zero hns (q n).1]
  rw [hd1, hkk, hdims]
  simp [OMap.find?]

end TAT
