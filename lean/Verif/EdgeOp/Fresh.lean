import Verif.EdgeOp.View

/-!
# Freshly made tensors by name
-/

set_option linter.unusedSectionVars false

namespace TAT

variable {ν σ α β : Type} [LinearOrder ν] [TatSym σ]

/-- What is known of the tensor made from `names` and the edges `e`. -/
structure Fresh (names : List ν) (e : ν → Edge σ) (r : Tensor ν σ α) : Prop where
  namesEq : r.names = names
  edges : r.core.edges = prunedEdges (names.map e)
  wf : WF r
  keys : ∀ p, keyOf names p ∈ OMap.keys r.core.blocks ↔ KeyOk (fun n => (e n).map) names p
  dims : ∀ p, KeyOk (fun n => (e n).map) names p →
    dimsOf r.core.edges (keyOf names p) = names.map fun n => dimM (e n).map (p n).1

theorem mkTensor_fresh (junk : List σ → ℕ → α) {names : List ν} (hn : names.Nodup) (e : ν → Edge σ)
    (hs : ∀ n ∈ names, OMap.Sorted (e n).map) :
    ∃ r, mkTensor junk names (names.map e) = .ok r ∧ Fresh names e r := by
  have hs' : ∀ x ∈ names.map e, OMap.Sorted x.map := by
    intro x hx
    obtain ⟨n, hn, rfl⟩ := List.mem_map.1 hx
    exact hs n hn
  have ha : arrowed (names.map e) false = names.map e := by simp [arrowed]
  have h1 := mkTensor_eq junk names (names.map e) false hs' (by simp) hn
  have h2 := wf_fresh junk names (names.map e) false hs' (by simp) hn
  rw [ha] at h1 h2
  refine ⟨_, h1, rfl, rfl, h2, fun p => ?_, fun p hp => ?_⟩
  · have : (names.map e).map Edge.map = names.map fun n => (e n).map := by
      rw [List.map_map]; rfl
    unfold OMap.keys freshBlocks
    rw [List.map_map, this]
    exact mem_blocks_iff
  · have hk : List.Forall₂ (fun (e : Edge σ) s => s ∈ OMap.keys e.map) (names.map e)
        (keyOf names p) := by
      unfold keyOf
      rw [forall2_map_self]
      exact hp.1
    rw [(pruned_keys hs' hk hp.2).2]
    unfold dimsOf keyOf
    rw [List.zipWith_map, List.zipWith_self]
    rfl

/-- Replace the data of every block. -/
def withBlocks (r : Tensor ν σ α) (f : List σ → List α → List β) : Tensor ν σ β :=
  ⟨r.names, r.core.edges, r.core.blocks.map fun c => (c.1, f c.1 c.2)⟩

theorem withBlocks_wf {r : Tensor ν σ α} (h : WF r) {f : List σ → List α → List β}
    (hl : ∀ c ∈ r.core.blocks, (f c.1 c.2).length = c.2.length) : WF (withBlocks r f) where
  rank := h.rank
  nodup := h.nodup
  sorted := h.sorted
  blocks := by
    refine Eq.trans ?_ h.blocks
    unfold withBlocks
    rw [List.map_map]
    exact List.map_congr_left fun c hc => by simp [hl c hc]
  pruned := h.pruned

theorem find?_withBlocks (r : Tensor ν σ α) (f : List σ → List α → List β) (k : List σ) :
    OMap.find? (withBlocks r f).core.blocks k = (OMap.find? r.core.blocks k).map (f k) :=
  OMap.find?_map_val r.core.blocks f k

/-- Dimensions of a block by name. -/
theorem dimsOf_named' {t : Tensor ν σ α} (h : Shaped t) (p : ν → σ × ℕ) :
    dimsOf t.core.edges (keyOf t.names p) = t.names.map fun n => dimM (mapOf t n) (p n).1 := by
  unfold dimsOf keyOf
  rw [edges_named' h, List.zipWith_map, List.zipWith_self]
  rfl

theorem dimsOf_named {t : Tensor ν σ α} (h : WF t) (p : ν → σ × ℕ) :
    dimsOf t.core.edges (keyOf t.names p) = t.names.map fun n => dimM (mapOf t n) (p n).1 :=
  dimsOf_named' h.shaped p

theorem mem_keys_named' {t : Tensor ν σ α} (h : Shaped t) (p : ν → σ × ℕ) :
    keyOf t.names p ∈ OMap.keys t.core.blocks ↔ KeyOk (mapOf t) t.names p := by
  rw [h.keys, maps_named' h]
  exact mem_blocks_iff

theorem mem_keys_named {t : Tensor ν σ α} (h : WF t) (p : ν → σ × ℕ) :
    keyOf t.names p ∈ OMap.keys t.core.blocks ↔ KeyOk (mapOf t) t.names p :=
  mem_keys_named' h.shaped p

/-- Every block key is the key of a position. -/
theorem exists_key' {t : Tensor ν σ α} (h : Shaped t) {k : List σ} (hk : k ∈ OMap.keys t.core.blocks) :
    ∃ p : ν → σ × ℕ, keyOf t.names p = k := by
  have := (h.mem_keys.1 hk).1.length_eq
  exact exists_pos h.nodup (by rw [h.rank, this])

theorem exists_key {t : Tensor ν σ α} (h : WF t) {k : List σ} (hk : k ∈ OMap.keys t.core.blocks) :
    ∃ p : ν → σ × ℕ, keyOf t.names p = k :=
  exists_key' h.shaped hk

theorem Fresh.dim {names : List ν} {e : ν → Edge σ} {r : Tensor ν σ α} (h : Fresh names e r)
    {p : ν → σ × ℕ} (hp : KeyOk (fun n => (e n).map) names p) :
    ∀ n ∈ names, dimM (mapOf r n) (p n).1 = dimM (e n).map (p n).1 := by
  have h1 := h.dims p hp
  have h2 := dimsOf_named h.wf p
  rw [h.namesEq, h1] at h2
  exact fun n hn => (List.map_inj_left.1 h2 n hn).symm

/-- The valid positions of a fresh tensor. -/
theorem Fresh.valid {names : List ν} {e : ν → Edge σ} {r : Tensor ν σ α} (h : Fresh names e r)
    (p : ν → σ × ℕ) : ValidPos r p ↔ FineOk (fun n => (e n).map) names p := by
  rw [validPos_iff h.wf, h.namesEq]
  constructor
  · intro hp
    have hk := (h.keys p).1 (by
      have := (mem_keys_named h.wf p).2 (by rw [h.namesEq]; exact hp.keyOk)
      rwa [h.namesEq] at this)
    exact ⟨fun n hn => h.dim hk n hn ▸ hp.1 n hn, hp.2⟩
  · intro hp
    exact ⟨fun n hn => (h.dim hp.keyOk n hn).symm ▸ hp.1 n hn, hp.2⟩

theorem Fresh.length {names : List ν} {e : ν → Edge σ} {r : Tensor ν σ α} (h : Fresh names e r)
    {p : ν → σ × ℕ} {d : List α} (hd : OMap.find? r.core.blocks (keyOf names p) = some d) :
    d.length = (names.map fun n => dimM (e n).map (p n).1).prod := by
  rw [h.wf.length (OMap.mem_of_find? hd), h.dims p]
  exact (h.keys p).1 (OMap.find?_isSome.1 (by rw [hd]; rfl))

/-- The length of a block by name. -/
theorem length_named' {t : Tensor ν σ α} (h : Shaped t) {p : ν → σ × ℕ} {d : List α}
    (hd : OMap.find? t.core.blocks (keyOf t.names p) = some d) :
    d.length = (t.names.map fun n => dimM (mapOf t n) (p n).1).prod := by
  rw [h.length (OMap.mem_of_find? hd), dimsOf_named' h]

theorem length_named {t : Tensor ν σ α} (h : WF t) {p : ν → σ × ℕ} {d : List α}
    (hd : OMap.find? t.core.blocks (keyOf t.names p) = some d) :
    d.length = (t.names.map fun n => dimM (mapOf t n) (p n).1).prod :=
  length_named' h.shaped hd

/-- The element at a position by name. -/
theorem elem_named' {t : Tensor ν σ α} (h : Shaped t) (p : ν → σ × ℕ) :
    elem t p = (OMap.find? t.core.blocks (keyOf t.names p)).bind fun d =>
      d[rowMajor (t.names.map fun n => dimM (mapOf t n) (p n).1) (idxOf t.names p)]? := by
  unfold elem elemAt
  rw [dimsOf_named' h]

theorem elem_named {t : Tensor ν σ α} (h : WF t) (p : ν → σ × ℕ) :
    elem t p = (OMap.find? t.core.blocks (keyOf t.names p)).bind fun d =>
      d[rowMajor (t.names.map fun n => dimM (mapOf t n) (p n).1) (idxOf t.names p)]? :=
  elem_named' h.shaped p

end TAT
