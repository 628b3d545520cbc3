import Verif.Scalar.Lemmas

/-!
# Properties of element-wise arithmetic (C24, C25)
-/

set_option linter.unusedSectionVars false

namespace TAT

variable {ν σ α β γ : Type} [LinearOrder ν] [TatSym σ]

/-! ## specification -/

/-- The result of an operation at one position: a missing element counts as zero, and where both
are missing the result is zero. -/
def combineElem [Zero γ] (op : γ → γ → γ) : Option γ → Option γ → γ
  | none, none => 0
  | x, y => op (x.getD 0) (y.getD 0)

/-! ## aligned operands -/

/-- The data of one block of the result. -/
def joinData [Zero γ] (ca : α → γ) (cb : β → γ) (op : γ → γ → γ)
    (a : List (List σ × List α)) (b : List (List σ × List β)) (k : List σ) (d : List γ) : List γ :=
  match OMap.find? a k, OMap.find? b k with
  | some x, some y => List.zipWith (fun u v => op (ca u) (cb v)) x y
  | some x, none => x.map fun u => op (ca u) 0
  | none, some y => y.map fun v => op 0 (cb v)
  | none, none => d.map fun _ => 0

theorem scalarBlock_ok [Zero γ] (ca : α → γ) (cb : β → γ) (op : γ → γ → γ)
    {a : List (List σ × List α)} {b : List (List σ × List β)} {c : List σ × List γ}
    (ha : ∀ x, OMap.find? a c.1 = some x → c.2.length = x.length)
    (hb : ∀ y, OMap.find? b c.1 = some y → c.2.length = y.length) :
    scalarBlock ca cb op a b c = .ok (c.1, joinData ca cb op a b c.1 c.2) ∧
    (joinData ca cb op a b c.1 c.2).length = c.2.length := by
  unfold scalarBlock joinData
  cases hx : OMap.find? a c.1 with
  | none =>
    cases hy : OMap.find? b c.1 with
    | none => simp
    | some y =>
      simp only [mapVec_ok _ (hb y hy)]
      exact ⟨rfl, by simp [hb y hy]⟩
  | some x =>
    cases hy : OMap.find? b c.1 with
    | none =>
      simp only [mapVec_ok _ (ha x hx)]
      exact ⟨rfl, by simp [ha x hx]⟩
    | some y =>
      simp only [zipVec_ok _ (ha x hx) (hb y hy)]
      exact ⟨rfl, by simp [← ha x hx, ← hb y hy]⟩

theorem unionMap_self {m : List (σ × ℕ)} (h : OMap.Sorted m) : unionMap m m = m :=
  OMap.ext (unionMap_sorted _ _ h) h fun s => by rw [find?_unionMap]; simp

theorem mem_keys_union {m m' : List (σ × ℕ)} {s : σ} :
    s ∈ OMap.keys (unionMap m m') ↔ s ∈ OMap.keys m ∨ s ∈ OMap.keys m' := by
  rw [← OMap.find?_isSome, ← OMap.find?_isSome, ← OMap.find?_isSome, find?_unionMap]
  cases OMap.find? m s <;> simp

theorem dimM_union_left {m m' : List (σ × ℕ)} {s : σ} (h : s ∈ OMap.keys m) :
    dimM (unionMap m m') s = dimM m s := by
  obtain ⟨d, hd⟩ := Option.isSome_iff_exists.1 (OMap.find?_isSome.2 h)
  unfold dimM
  rw [find?_unionMap, hd]; rfl

theorem dimM_union_right {m m' : List (σ × ℕ)} (hc : Compatible m m') {s : σ}
    (h : s ∈ OMap.keys m') : dimM (unionMap m m') s = dimM m' s := by
  obtain ⟨d, hd⟩ := Option.isSome_iff_exists.1 (OMap.find?_isSome.2 h)
  unfold dimM
  rw [find?_unionMap, hd]
  cases hf : OMap.find? m s with
  | none => rfl
  | some d' => simp [hc s d' d hf hd]

theorem lt_dimM_union {m m' : List (σ × ℕ)} (hc : Compatible m m') {s : σ} {i : ℕ} :
    i < dimM (unionMap m m') s ↔ i < dimM m s ∨ i < dimM m' s := by
  unfold dimM
  rw [find?_unionMap]
  cases hf : OMap.find? m s with
  | none => simp
  | some d =>
    cases hf' : OMap.find? m' s with
    | none => simp
    | some d' => simp [hc s d d' hf hf']

/-- The union of the edges with one name. -/
def unionOf (t₁ : Tensor ν σ α) (u : Tensor ν σ β) (n : ν) : Edge σ :=
  ⟨(edgeOf t₁ n).arrow, unionMap (mapOf t₁ n) (mapOf u n)⟩

section aligned
variable {t₁ : Tensor ν σ α} {u : Tensor ν σ β}

theorem resultEdges_ok (h1 : WF t₁) (h2 : WF u) (hn : u.names = t₁.names)
    (hc : ∀ n ∈ t₁.names, Compatible (mapOf t₁ n) (mapOf u n)) :
    (if edgesEq t₁.core.edges u.core.edges then .ok t₁.core.edges
      else unionEdges t₁.core.edges u.core.edges) = .ok (t₁.names.map (unionOf t₁ u)) := by
  split
  · rename_i he
    rw [edgesEq_iff, edges_named h1, edges_named h2, hn, forall2_map_self] at he
    congr 1
    rw [edges_named h1]
    refine List.map_congr_left fun n hm => ?_
    have := (edgeEq_iff _ _).1 (he n hm)
    have hs : unionMap (edgeOf t₁ n).map (edgeOf t₁ n).map = (edgeOf t₁ n).map :=
      unionMap_self (mapOf_sorted h1 n hm)
    unfold unionOf mapOf
    rw [← this.1, hs]
  · rw [unionEdges_ok h2.sorted]
    · rw [edges_named h1, edges_named h2, hn, List.zipWith_map, List.zipWith_self]
      rfl
    · rw [edges_named h1, edges_named h2, hn, forall2_map_self]
      exact hc

/-- The block of the first operand at a key of the result. -/
theorem keyOk_left (h1 : WF t₁) {p : ν → σ × ℕ} {x : List α}
    (hx : OMap.find? t₁.core.blocks (keyOf t₁.names p) = some x) :
    (t₁.names.map fun n => dimM (unionOf t₁ u n).map (p n).1) =
      t₁.names.map fun n => dimM (mapOf t₁ n) (p n).1 := by
  have := ((mem_keys_named h1 p).1 (OMap.find?_isSome.1 (by rw [hx]; rfl))).1
  exact List.map_congr_left fun n hm => dimM_union_left (this n hm)

theorem keyOk_right (h2 : WF u) (hn : u.names = t₁.names)
    (hc : ∀ n ∈ t₁.names, Compatible (mapOf t₁ n) (mapOf u n)) {p : ν → σ × ℕ} {y : List β}
    (hy : OMap.find? u.core.blocks (keyOf t₁.names p) = some y) :
    (t₁.names.map fun n => dimM (unionOf t₁ u n).map (p n).1) =
      t₁.names.map fun n => dimM (mapOf u n) (p n).1 := by
  have := ((mem_keys_named h2 p).1 (OMap.find?_isSome.1 (by rw [hn, hy]; rfl))).1
  rw [hn] at this
  exact List.map_congr_left fun n hm => dimM_union_right (hc n hm) (this n hm)

theorem scalarOp_aligned [Neg β] [Zero β] [Zero γ] (env : Env σ β) (junk : List σ → ℕ → γ)
    (ca : α → γ) (cb : β → γ) (op : γ → γ → γ) {t₂ : Tensor ν σ β}
    (hr : t₁.names.length = t₂.names.length) (ha : alignedWith env t₁.names t₂ = .ok u)
    (h1 : WF t₁) (h2 : WF u) (hn : u.names = t₁.names)
    (hc : ∀ n ∈ t₁.names, Compatible (mapOf t₁ n) (mapOf u n)) :
    ∃ r, scalarOp env junk ca cb op t₁ t₂ = .ok r ∧ WF r ∧ r.names = t₁.names ∧
      r.core.edges = prunedEdges (t₁.names.map (unionOf t₁ u)) ∧
      (∀ p, ValidPos r p ↔ FineOk (fun n => (unionOf t₁ u n).map) t₁.names p) ∧
      ∀ p, ValidPos r p →
        elem r p = some (combineElem op ((elem t₁ p).map ca) ((elem u p).map cb)) := by
  obtain ⟨r, hm, hf⟩ := mkTensor_fresh junk h1.nodup (unionOf t₁ u) fun n hn =>
    unionMap_sorted _ _ (mapOf_sorted h1 n hn)
  have hlen : ∀ c ∈ r.core.blocks,
      (∀ x, OMap.find? t₁.core.blocks c.1 = some x → c.2.length = x.length) ∧
      (∀ y, OMap.find? u.core.blocks c.1 = some y → c.2.length = y.length) := by
    intro c hcm
    have hfd := OMap.find?_of_mem hf.wf.blocksSorted.nodup hcm
    obtain ⟨p, hp⟩ := exists_key hf.wf (OMap.find?_isSome.1 (by rw [hfd]; rfl))
    rw [hf.namesEq] at hp
    rw [← hp] at hfd ⊢
    refine ⟨fun x hx => ?_, fun y hy => ?_⟩
    · rw [hf.length hfd, length_named h1 hx, keyOk_left h1 hx]
    · rw [hf.length hfd, length_named h2 (hn ▸ hy), keyOk_right h2 hn hc hy, hn]
  have hwf : WF (withBlocks r (joinData ca cb op t₁.core.blocks u.core.blocks)) :=
    withBlocks_wf hf.wf fun c hcm =>
      (scalarBlock_ok ca cb op (hlen c hcm).1 (hlen c hcm).2).2
  have hv : ∀ p, ValidPos (withBlocks r (joinData ca cb op t₁.core.blocks u.core.blocks)) p ↔
      FineOk (fun n => (unionOf t₁ u n).map) t₁.names p := hf.valid
  refine ⟨withBlocks r (joinData ca cb op t₁.core.blocks u.core.blocks), ?_, hwf, hf.namesEq,
    hf.edges, hv, fun p hp => ?_⟩
  · unfold scalarOp
    rw [if_neg (by simpa using hr), ha]
    change ((if edgesEq t₁.core.edges u.core.edges then .ok t₁.core.edges
      else unionEdges t₁.core.edges u.core.edges) : Outcome _).bind _ = _
    rw [resultEdges_ok h1 h2 hn hc]
    change (mkTensor junk t₁.names (t₁.names.map (unionOf t₁ u))).bind _ = _
    rw [hm]
    change Outcome.bind (r.core.blocks.mapM
      (scalarBlock ca cb op t₁.core.blocks u.core.blocks)) _ = _
    rw [mapM_ok fun c hcm => (scalarBlock_ok ca cb op (hlen c hcm).1 (hlen c hcm).2).1]
    rfl
  · have hfo := (hv p).1 hp
    obtain ⟨d, hd⟩ := Option.isSome_iff_exists.1 (OMap.find?_isSome.2 ((hf.keys p).2 hfo.keyOk))
    have hi : rowMajor (t₁.names.map fun n => dimM (unionOf t₁ u n).map (p n).1)
        (idxOf t₁.names p) < d.length := by
      rw [hf.length hd]
      exact rowMajor_lt (FineOk.inBox hfo.1)
    have he : elem (withBlocks r (joinData ca cb op t₁.core.blocks u.core.blocks)) p =
        (joinData ca cb op t₁.core.blocks u.core.blocks (keyOf t₁.names p) d)[rowMajor
          (t₁.names.map fun n => dimM (unionOf t₁ u n).map (p n).1) (idxOf t₁.names p)]? := by
      unfold elem elemAt
      rw [find?_withBlocks]
      change (Option.map _ (OMap.find? r.core.blocks (keyOf r.names p))).bind _ = _
      rw [hf.namesEq, hd]
      simp only [Option.map_some, Option.bind_some]
      have : (withBlocks r (joinData ca cb op t₁.core.blocks u.core.blocks)).core.edges =
        r.core.edges := rfl
      have hnm : (withBlocks r (joinData ca cb op t₁.core.blocks u.core.blocks)).names =
        t₁.names := hf.namesEq
      rw [this, hnm, hf.dims p hfo.keyOk]
    have hl := hlen _ (OMap.mem_of_find? hd)
    rw [he]
    unfold joinData
    have hx : ∀ x, OMap.find? t₁.core.blocks (keyOf t₁.names p) = some x →
        elem t₁ p = x[rowMajor (t₁.names.map fun n => dimM (unionOf t₁ u n).map (p n).1)
          (idxOf t₁.names p)]? := by
      intro x hx
      rw [elem_named h1, hx, keyOk_left h1 hx]; rfl
    have hy : ∀ y, OMap.find? u.core.blocks (keyOf t₁.names p) = some y →
        elem u p = y[rowMajor (t₁.names.map fun n => dimM (unionOf t₁ u n).map (p n).1)
          (idxOf t₁.names p)]? := by
      intro y hy
      rw [elem_named h2, hn, hy, keyOk_right h2 hn hc hy]; rfl
    have hx0 : OMap.find? t₁.core.blocks (keyOf t₁.names p) = none → elem t₁ p = none := by
      intro h; rw [elem_named h1, h]; rfl
    have hy0 : OMap.find? u.core.blocks (keyOf t₁.names p) = none → elem u p = none := by
      intro h; rw [elem_named h2, hn, h]; rfl
    generalize rowMajor (t₁.names.map fun n => dimM (unionOf t₁ u n).map (p n).1)
          (idxOf t₁.names p) = i at hi hx hy
    cases hfx : OMap.find? t₁.core.blocks (keyOf t₁.names p) with
    | none =>
      rw [hx0 hfx]
      cases hfy : OMap.find? u.core.blocks (keyOf t₁.names p) with
      | none =>
        rw [hy0 hfy]
        simp [combineElem, hi]
      | some y =>
        have hi' : i < y.length := by rw [← hl.2 y hfy]; exact hi
        rw [hy y hfy]
        simp [hi', combineElem]
    | some x =>
      have hi' : i < x.length := by rw [← hl.1 x hfx]; exact hi
      rw [hx x hfx]
      cases hfy : OMap.find? u.core.blocks (keyOf t₁.names p) with
      | none =>
        rw [hy0 hfy]
        simp [hi', combineElem]
      | some y =>
        have hi'' : i < y.length := by rw [← hl.2 y hfy]; exact hi
        rw [hy y hfy]
        simp [hi', hi'', combineElem]

end aligned

/-! ## the operand in the order of the other -/

/-- The element at a valid position. -/
noncomputable def valueAt (t : Tensor ν σ α) (p : ν → σ × ℕ) : Option α :=
  open Classical in if ValidPos t p then elem t p else none

/-- Edges with one name have equal dimensions at common symmetries. -/
def CompatibleAt (t₁ : Tensor ν σ α) (t₂ : Tensor ν σ β) (n : ν) : Prop :=
  ∀ s, s ∈ OMap.keys (mapOf t₁ n) → s ∈ OMap.keys (mapOf t₂ n) →
    dimM (mapOf t₁ n) s = dimM (mapOf t₂ n) s

theorem compatible_iff {m m' : List (σ × ℕ)} : Compatible m m' ↔
    ∀ s, s ∈ OMap.keys m → s ∈ OMap.keys m' → dimM m s = dimM m' s := by
  constructor
  · intro h s h1 h2
    obtain ⟨d, hd⟩ := Option.isSome_iff_exists.1 (OMap.find?_isSome.2 h1)
    obtain ⟨d', hd'⟩ := Option.isSome_iff_exists.1 (OMap.find?_isSome.2 h2)
    unfold dimM
    rw [hd, hd', h s d d' hd hd']
  · intro h s d d' h1 h2
    have := h s (OMap.find?_isSome.1 (by rw [h1]; rfl)) (OMap.find?_isSome.1 (by rw [h2]; rfl))
    unfold dimM at this
    rw [h1, h2] at this
    exact this

theorem aligned_ok [Neg β] [Zero β] (env : Env σ β) {names : List ν} {t₂ : Tensor ν σ β}
    (h2 : WF t₂) (hp : t₂.names.Perm names) :
    ∃ u, alignedWith env names t₂ = .ok u ∧ u.names = names ∧ WF u ∧
      (∀ n ∈ names, edgeOf u n = edgeOf t₂ n) ∧ (∀ p, ValidPos u p ↔ ValidPos t₂ p) ∧
      ∀ p, ValidPos t₂ p →
        elem u p = (elem t₂ p).map (applySign (transposeSign t₂.names names p)) := by
  unfold alignedWith
  by_cases h : names = t₂.names
  · subst h
    refine ⟨t₂, by simp, rfl, h2, fun _ _ => rfl, fun _ => Iff.rfl, fun p _ => ?_⟩
    rw [transposeSign_refl]
    cases elem t₂ p <;> simp [applySign_one]
  · rw [if_pos h]
    exact C16_transpose env h2 hp

/-- The missing elements of an operand at a valid position of the result. -/
theorem elem_eq_valueAt {t : Tensor ν σ α} (h : WF t) {fm : ν → List (σ × ℕ)} {p : ν → σ × ℕ}
    (hp : FineOk fm t.names p)
    (hd : ∀ n ∈ t.names, (p n).1 ∈ OMap.keys (mapOf t n) →
      dimM (fm n) (p n).1 = dimM (mapOf t n) (p n).1) : elem t p = valueAt t p := by
  unfold valueAt
  split
  · rfl
  · rename_i hv
    rw [validPos_iff h] at hv
    rw [elem_named h]
    have : keyOf t.names p ∉ OMap.keys t.core.blocks := by
      intro hk
      rw [mem_keys_named h] at hk
      exact hv ⟨fun n hn => by rw [← hd n hn (hk.1 n hn)]; exact hp.1 n hn, hp.2⟩
    rw [OMap.find?_eq_none.2 this]
    rfl

/-! ## C24 -/

/-- **C24**: an operator on two tensors with the same names in any order and compatible edges
succeeds; the result has the edge order and arrows of the left operand, its valid positions are
those whose index is in range for one of the operands at every edge, and each element is the
operation of both elements (the right one with the sign of the transposition), a missing element
counting as zero. -/
theorem C24_binary [Neg β] [Zero β] [Zero γ] (env : Env σ β) (junk : List σ → ℕ → γ)
    (ca : α → γ) (cb : β → γ) (op : γ → γ → γ) {t₁ : Tensor ν σ α} {t₂ : Tensor ν σ β}
    (h1 : WF t₁) (h2 : WF t₂) (hp : t₂.names.Perm t₁.names)
    (hc : ∀ n ∈ t₁.names, CompatibleAt t₁ t₂ n) :
    ∃ r, scalarOp env junk ca cb op t₁ t₂ = .ok r ∧ WF r ∧ r.names = t₁.names ∧
      (∀ n ∈ t₁.names, (edgeOf r n).arrow = (edgeOf t₁ n).arrow) ∧
      (∀ p, ValidPos r p ↔
        (∀ n ∈ t₁.names, (p n).2 < dimM (mapOf t₁ n) (p n).1 ∨
          (p n).2 < dimM (mapOf t₂ n) (p n).1) ∧ (keyOf t₁.names p).sum = 0) ∧
      ∀ p, ValidPos r p → elem r p = some (combineElem op ((valueAt t₁ p).map ca)
        ((valueAt t₂ p).map fun x => cb (applySign (transposeSign t₂.names t₁.names p) x))) := by
  obtain ⟨u, ha, hn, hu, hed, hval, hel⟩ := aligned_ok env h2 hp
  have hmap : ∀ n ∈ t₁.names, mapOf u n = mapOf t₂ n := fun n hm => by
    unfold mapOf; rw [hed n hm]
  have hc' : ∀ n ∈ t₁.names, Compatible (mapOf t₁ n) (mapOf u n) := fun n hm => by
    rw [hmap n hm]; exact compatible_iff.2 (hc n hm)
  obtain ⟨r, hr, hwf, hrn, hre, hrv, hrel⟩ := scalarOp_aligned env junk ca cb op hp.length_eq.symm
    ha h1 hu hn hc'
  refine ⟨r, hr, hwf, hrn, fun n hm => ?_, fun p => ?_, fun p hv => ?_⟩
  · obtain ⟨i, hi, rfl⟩ := List.mem_iff_getElem.1 hm
    have hs := edges_named hwf
    rw [hre, hrn] at hs
    have hi' : i < (prunedEdges (t₁.names.map (unionOf t₁ u))).length := by
      rw [pruned_length, List.length_map]; exact hi
    have : (prunedEdges (t₁.names.map (unionOf t₁ u)))[i]'hi' = edgeOf r t₁.names[i] := by
      simp only [hs, List.getElem_map]
    rw [← this]
    simp only [prunedEdges, List.getElem_mapIdx, List.getElem_map]
    rfl
  · rw [hrv p]
    unfold FineOk
    apply and_congr_left'
    refine forall₂_congr fun n hm => ?_
    rw [← hmap n hm]
    exact lt_dimM_union (hc' n hm)
  · rw [hrel p hv]
    have hfo := (hrv p).1 hv
    have e1 : elem t₁ p = valueAt t₁ p :=
      elem_eq_valueAt h1 hfo fun n _ hk => dimM_union_left hk
    have e2 : elem u p = valueAt u p :=
      elem_eq_valueAt hu (by rw [hn]; exact hfo) fun n hm hk =>
        dimM_union_right (hc' n (hn ▸ hm)) hk
    rw [e1, e2]
    congr 2
    unfold valueAt
    by_cases hv2 : ValidPos t₂ p
    · rw [if_pos hv2, if_pos ((hval p).2 hv2), hel p hv2, Option.map_map]
      rfl
    · rw [if_neg hv2, if_neg fun h => hv2 ((hval p).1 h)]
      rfl

/-- **C24**: tensors of different rank are rejected. -/
theorem C24_rank [Neg β] [Zero β] [Zero γ] (env : Env σ β) (junk : List σ → ℕ → γ)
    (ca : α → γ) (cb : β → γ) (op : γ → γ → γ) {t₁ : Tensor ν σ α} {t₂ : Tensor ν σ β}
    (h : t₁.names.length ≠ t₂.names.length) :
    (scalarOp env junk ca cb op t₁ t₂).isError = true := by
  unfold scalarOp
  rw [if_pos h]
  rfl

/-- **C24**: edges of different dimension at a common symmetry are rejected. -/
theorem C24_incompatible [Neg β] [Zero β] [Zero γ] (env : Env σ β) (junk : List σ → ℕ → γ)
    (ca : α → γ) (cb : β → γ) (op : γ → γ → γ) {t₁ : Tensor ν σ α} {t₂ : Tensor ν σ β}
    (h1 : WF t₁) (h2 : WF t₂) (hp : t₂.names.Perm t₁.names) {n : ν} (hm : n ∈ t₁.names)
    (hc : ¬ CompatibleAt t₁ t₂ n) :
    (scalarOp env junk ca cb op t₁ t₂).isError = true := by
  obtain ⟨u, ha, hn, hu, hed, hval, hel⟩ := aligned_ok env h2 hp
  have hmap : mapOf u n = mapOf t₂ n := by unfold mapOf; rw [hed n hm]
  have hc' : ¬ Compatible (mapOf t₁ n) (mapOf u n) := by
    rw [hmap]; exact fun h => hc (compatible_iff.1 h)
  unfold scalarOp
  rw [if_neg (by simpa using hp.length_eq.symm), ha]
  change Outcome.isError (Outcome.bind (if edgesEq t₁.core.edges u.core.edges then
    .ok t₁.core.edges else unionEdges t₁.core.edges u.core.edges) _) = true
  refine isError_bind _ ?_
  rw [if_neg]
  · apply unionEdges_error hu.sorted
    · rw [← h1.rank, ← hu.rank, hn]
    · rw [edges_named h1, edges_named hu, hn, forall2_map_self]
      exact fun h => hc' (h n hm)
  · rw [edgesEq_iff, edges_named h1, edges_named hu, hn, forall2_map_self]
    intro h
    have := (edgeEq_iff _ _).1 (h n hm)
    apply hc'
    intro s d d' e1 e2
    unfold mapOf at e1 e2
    rw [this.1, e2] at e1
    exact (Option.some.inj e1).symm

/-- **C24**: an operator with a number acts on every element. -/
theorem C24_number (junk : List σ → ℕ → γ) (f : α → γ) {t : Tensor ν σ α} (h : WF t) :
    scalarNumber junk f t = .ok (mapTensor f t) ∧
    ∀ p, elem (mapTensor f t) p = (elem t p).map f := by
  refine ⟨?_, fun p => elem_mapTensor f t p⟩
  have hm : mkTensor junk t.names t.core.edges = _ := sameShape_eq junk h
  unfold scalarNumber
  rw [hm]
  change Outcome.bind ((freshBlocks junk (t.core.edges.map Edge.map)).mapM
    (numberBlock f t.core.blocks)) _ = _
  have hb : freshBlocks junk (t.core.edges.map Edge.map) =
      t.core.blocks.map fun c => (c.1, (List.range c.2.length).map (junk c.1)) := by
    unfold freshBlocks
    rw [← h.blocks, List.map_map]
    rfl
  rw [hb, List.mapM_map, mapM_ok (g := fun c => (c.1, c.2.map f))]
  · rfl
  · intro c hc
    have := OMap.find?_of_mem h.blocksSorted.nodup hc
    simp only [Function.comp_apply, numberBlock, this, List.length_map, List.length_range,
      mapVec_ok f rfl]
    rfl

/-! ## C25 -/

theorem inplace_aligned [Neg β] [Zero β] (env : Env σ β) (op : α → β → α)
    {t₁ : Tensor ν σ α} {t₂ u : Tensor ν σ β} (ha : alignedWith env t₁.names t₂ = .ok u)
    (h1 : WF t₁) (h2 : WF u) (hn : u.names = t₁.names)
    (he : ∀ n ∈ t₁.names, edgeEq (edgeOf t₁ n) (edgeOf u n) = true) :
    ∃ r, scalarInplace env op t₁ t₂ = .ok r ∧ WF r ∧ r.names = t₁.names ∧
      r.core.edges = t₁.core.edges ∧
      ∀ p, ValidPos t₁ p → ∃ x y, elem t₁ p = some x ∧ elem u p = some y ∧
        elem r p = some (op x y) := by
  have hmap : ∀ n ∈ t₁.names, mapOf t₁ n = mapOf u n := fun n hm =>
    ((edgeEq_iff _ _).1 (he n hm)).1
  have hmaps : t₁.core.edges.map Edge.map = u.core.edges.map Edge.map := by
    rw [maps_named h1, maps_named h2, hn]
    exact List.map_congr_left hmap
  have hkeys : OMap.keys t₁.core.blocks = OMap.keys u.core.blocks := by
    rw [h1.keys, h2.keys, hmaps]
  have hdims : ∀ p : ν → σ × ℕ, (t₁.names.map fun n => dimM (mapOf t₁ n) (p n).1) =
      t₁.names.map fun n => dimM (mapOf u n) (p n).1 := fun p =>
    List.map_congr_left fun n hm => by rw [hmap n hm]
  have hfd : ∀ c ∈ t₁.core.blocks, ∃ y, OMap.find? u.core.blocks c.1 = some y ∧
      c.2.length = y.length := by
    intro c hc
    have hf := OMap.find?_of_mem h1.blocksSorted.nodup hc
    have hk : c.1 ∈ OMap.keys t₁.core.blocks := OMap.find?_isSome.1 (by rw [hf]; rfl)
    obtain ⟨y, hy⟩ := Option.isSome_iff_exists.1 (OMap.find?_isSome.2 (hkeys ▸ hk))
    refine ⟨y, hy, ?_⟩
    obtain ⟨p, hp⟩ := exists_key h1 hk
    rw [← hp] at hf hy
    rw [length_named h1 hf, length_named h2 (hn ▸ hy), hn, hdims]
  let f : List σ → List α → List α := fun k d =>
    List.zipWith op d ((OMap.find? u.core.blocks k).getD [])
  have hwf : WF (withBlocks t₁ f) := by
    refine withBlocks_wf h1 fun c hc => ?_
    obtain ⟨y, hy, hl⟩ := hfd c hc
    simp only [f, hy, Option.getD_some, List.length_zipWith]
    omega
  refine ⟨withBlocks t₁ f, ?_, hwf, rfl, rfl, fun p hv => ?_⟩
  · unfold scalarInplace
    rw [ha]
    change (if (!edgesEq t₁.core.edges u.core.edges) = true then _ else _) = _
    have : edgesEq t₁.core.edges u.core.edges = true := by
      rw [edgesEq_iff, edges_named h1, edges_named h2, hn, forall2_map_self]
      exact he
    rw [this, if_neg (by simp), mapM_ok (g := fun c => (c.1, f c.1 c.2))]
    · rfl
    · intro c hc
      obtain ⟨y, hy, hl⟩ := hfd c hc
      simp only [inplaceBlock, hy, zipVec_ok op rfl hl, f, Option.getD_some]
      rfl
  · obtain ⟨d, hd, _⟩ := h1.valid_block hv
    obtain ⟨y, hy, hl⟩ := hfd _ (OMap.mem_of_find? hd)
    have hi : rowMajor (t₁.names.map fun n => dimM (mapOf t₁ n) (p n).1) (idxOf t₁.names p) <
        d.length := by
      rw [length_named h1 hd]
      exact rowMajor_lt (FineOk.inBox ((validPos_iff h1).1 hv).1)
    have e1 : elem t₁ p = d[rowMajor (t₁.names.map fun n => dimM (mapOf t₁ n) (p n).1)
        (idxOf t₁.names p)]? := by rw [elem_named h1, hd]; rfl
    have e2 : elem u p = y[rowMajor (t₁.names.map fun n => dimM (mapOf t₁ n) (p n).1)
        (idxOf t₁.names p)]? := by rw [elem_named h2, hn, hy, hdims]; rfl
    have e3 : elem (withBlocks t₁ f) p =
        (f (keyOf t₁.names p) d)[rowMajor (t₁.names.map fun n => dimM (mapOf t₁ n) (p n).1)
        (idxOf t₁.names p)]? := by
      unfold elem elemAt
      rw [find?_withBlocks]
      change (Option.map _ (OMap.find? t₁.core.blocks (keyOf t₁.names p))).bind _ = _
      rw [hd]
      simp only [Option.map_some, Option.bind_some]
      change (f (keyOf t₁.names p) d)[rowMajor (dimsOf t₁.core.edges (keyOf t₁.names p))
        (idxOf t₁.names p)]? = _
      rw [dimsOf_named h1]
    rw [e1, e2, e3]
    generalize rowMajor (t₁.names.map fun n => dimM (mapOf t₁ n) (p n).1) (idxOf t₁.names p) = i at hi
    have hi' : i < y.length := hl ▸ hi
    exact ⟨d[i], y[i], List.getElem?_eq_getElem hi, List.getElem?_eq_getElem hi',
      by simp [f, hy, hi, hi']⟩

/-- **C25**: `a op= b` on tensors with equal edges up to order gives what `a op b` gives. -/
theorem C25_inplace [Neg α] [Zero α] (env : Env σ α) (junk : List σ → ℕ → α)
    (op : α → α → α) {t₁ t₂ : Tensor ν σ α} (h1 : WF t₁) (h2 : WF t₂)
    (hp : t₂.names.Perm t₁.names)
    (he : ∀ n ∈ t₁.names, mapOf t₁ n = mapOf t₂ n ∧
      (TatSym.isFermi σ = true → (edgeOf t₁ n).arrow = (edgeOf t₂ n).arrow)) :
    ∃ r, scalarInplace env op t₁ t₂ = .ok r ∧ scalarOp env junk id id op t₁ t₂ = .ok r ∧ WF r ∧
      r.names = t₁.names ∧ r.core.edges = t₁.core.edges ∧
      ∀ p, ValidPos t₁ p → ∃ x y, elem t₁ p = some x ∧ elem t₂ p = some y ∧
        elem r p = some (op x (applySign (transposeSign t₂.names t₁.names p) y)) := by
  obtain ⟨u, ha, hn, hu, hed, hval, hel⟩ := aligned_ok env h2 hp
  have heq : ∀ n ∈ t₁.names, edgeEq (edgeOf t₁ n) (edgeOf u n) = true := fun n hm => by
    rw [hed n hm]; exact (edgeEq_iff _ _).2 (he n hm)
  have hmap : ∀ n ∈ t₁.names, mapOf t₁ n = mapOf u n := fun n hm =>
    ((edgeEq_iff _ _).1 (heq n hm)).1
  have hc : ∀ n ∈ t₁.names, Compatible (mapOf t₁ n) (mapOf u n) := fun n hm => by
    rw [← hmap n hm]
    exact compatible_iff.2 fun _ _ _ => rfl
  obtain ⟨r, hr, hwf, hrn, hre, hrel⟩ := inplace_aligned env op ha h1 hu hn heq
  obtain ⟨r', hr', hwf', hrn', hre', hrv', hrel'⟩ := scalarOp_aligned env junk id id op
    hp.length_eq.symm ha h1 hu hn hc
  have hedge : t₁.names.map (unionOf t₁ u) = t₁.core.edges := by
    rw [edges_named h1]
    refine List.map_congr_left fun n hm => ?_
    have hs := unionMap_self (mapOf_sorted h1 n hm)
    unfold unionOf
    rw [← hmap n hm, hs]
    rfl
  rw [hedge, h1.pruned] at hre'
  have hv1 : ∀ p, ValidPos r p ↔ ValidPos t₁ p := fun p => by
    unfold ValidPos; rw [hre, hrn]
  have hv2 : ∀ p, ValidPos r' p ↔ ValidPos t₁ p := fun p => by
    unfold ValidPos; rw [hre', hrn']
  have hrr : r = r' := by
    refine tensor_ext hwf hwf' (hrn.trans hrn'.symm) (hre.trans hre'.symm) fun p hv => ?_
    have hv' := (hv1 p).1 hv
    obtain ⟨x, y, e1, e2, e3⟩ := hrel p hv'
    rw [e3, hrel' p ((hv2 p).2 hv'), e1, e2]
    rfl
  subst hrr
  refine ⟨r, hr, hr', hwf, hrn, hre, fun p hv => ?_⟩
  obtain ⟨x, y, e1, e2, e3⟩ := hrel p hv
  have hv2 : ValidPos t₂ p := by
    rw [← hval p, validPos_iff hu, hn]
    rw [validPos_iff h1] at hv
    exact ⟨fun n hm => by rw [← hmap n hm]; exact hv.1 n hm, hv.2⟩
  obtain ⟨z, hz⟩ := Option.isSome_iff_exists.1 (h2.elem_isSome hv2)
  refine ⟨x, z, e1, hz, ?_⟩
  rw [hel p hv2, hz] at e2
  rw [e3, ← Option.some.inj e2]

/-- **C25**: both operands may be the same tensor. -/
theorem C25_alias [Neg α] [Zero α] (env : Env σ α) (op : α → α → α) {t : Tensor ν σ α} (h : WF t) :
    ∃ r, scalarInplace env op t t = .ok r ∧ WF r ∧ r.names = t.names ∧
      r.core.edges = t.core.edges ∧ ∀ p, ValidPos t p → ∃ x, elem t p = some x ∧
        elem r p = some (op x x) := by
  obtain ⟨r, h1, -, h2, h3, h4, h5⟩ := C25_inplace env (fun _ _ => 0) op h h (List.Perm.refl _)
    fun n _ => ⟨rfl, fun _ => rfl⟩
  refine ⟨r, h1, h2, h3, h4, fun p hv => ?_⟩
  obtain ⟨x, y, e1, e2, e3⟩ := h5 p hv
  rw [e1, Option.some.injEq] at e2
  subst e2
  exact ⟨x, e1, by rw [e3, transposeSign_refl, applySign_one]; rfl⟩

/-- **C25**: different edges are rejected. -/
theorem C25_inplace_different [Neg β] [Zero β] (env : Env σ β) (op : α → β → α)
    {t₁ : Tensor ν σ α} {t₂ : Tensor ν σ β} (h1 : WF t₁) (h2 : WF t₂)
    (hp : t₂.names.Perm t₁.names) {n : ν} (hm : n ∈ t₁.names)
    (he : mapOf t₁ n ≠ mapOf t₂ n ∨
      (TatSym.isFermi σ = true ∧ (edgeOf t₁ n).arrow ≠ (edgeOf t₂ n).arrow)) :
    (scalarInplace env op t₁ t₂).isError = true := by
  obtain ⟨u, ha, hn, hu, hed, -, -⟩ := aligned_ok env h2 hp
  unfold scalarInplace
  rw [ha]
  change (if (!edgesEq t₁.core.edges u.core.edges) = true then _ else _ : Outcome _).isError = _
  rw [if_pos]
  · rfl
  · rw [Bool.not_eq_true', ← Bool.not_eq_true, edgesEq_iff, edges_named h1, edges_named hu, hn,
      forall2_map_self]
    intro h
    have h' := (edgeEq_iff _ _).1 (h n hm)
    rw [hed n hm] at h'
    rcases he with he | he
    · exact he h'.1
    · exact he.2 (h'.2 he.1)

/-- **C25**: in-place operators with a number act on every element, as the out-of-place ones do. -/
theorem C25_number (junk : List σ → ℕ → α) (f : α → α) {t : Tensor ν σ α} (h : WF t) :
    .ok (scalarInplaceNumber f t) = scalarNumber junk f t ∧
    ∀ p, elem (scalarInplaceNumber f t) p = (elem t p).map f :=
  ⟨(C24_number junk f h).1.symm, (C24_number junk f h).2⟩

/-! ## concrete cases -/

/-- Edges in the other order, a symmetry less on one edge and one more on the other. -/
def samplePart : Tensor ℕ U1Symmetry ℤ :=
  ⟨[3, 7], [⟨false, [(⟨-2⟩, 1), (⟨0⟩, 1)]⟩, ⟨false, [(⟨0⟩, 2), (⟨2⟩, 1)]⟩],
    [([⟨-2⟩, ⟨2⟩], [100]), ([⟨0⟩, ⟨0⟩], [10, 20])]⟩

theorem samplePart_wf : WF samplePart := by
  refine ⟨by decide, by decide, by decide, by decide, by decide⟩

example : WF sampleU1 ∧ WF samplePart ∧ samplePart.names.Perm sampleU1.names ∧
    ∀ n ∈ sampleU1.names, CompatibleAt sampleU1 samplePart n := by
  refine ⟨sampleU1_wf, samplePart_wf, by decide, ?_⟩
  have : ∀ n ∈ sampleU1.names, ∀ s ∈ OMap.keys (mapOf sampleU1 n),
      s ∈ OMap.keys (mapOf samplePart n) →
        dimM (mapOf sampleU1 n) s = dimM (mapOf samplePart n) s := by decide +kernel
  exact this

example : scalarOp env0 (fun _ _ => 77) id id (· - ·) sampleU1 samplePart =
    .ok ⟨[7, 3], [⟨false, [(⟨-1⟩, 1), (⟨0⟩, 2), (⟨1⟩, 3), (⟨2⟩, 1)]⟩,
      ⟨false, [(⟨-2⟩, 1), (⟨-1⟩, 2), (⟨0⟩, 1), (⟨1⟩, 2)]⟩],
      [([⟨-1⟩, ⟨1⟩], [1, 2]), ([⟨0⟩, ⟨0⟩], [-7, -16]), ([⟨1⟩, ⟨-1⟩], [5, 6, 7, 8, 9, 10]),
        ([⟨2⟩, ⟨-2⟩], [-100])]⟩ := by
  decide +kernel

example : (scalarInplace env0 (· - ·) sampleU1 samplePart).isError = true := by decide +kernel

/-- A fermionic tensor with its edges in another order: the in-place difference carries the signs of
exchanging odd edges. -/
example : ((transpose env0 sampleFermi [2, 0, 1]).bind fun b =>
    scalarInplace env0 (· - ·) sampleFermi b) = .ok (mapTensor (fun _ => 0) sampleFermi) := by
  decide +kernel

/-- The hypotheses on the names are needed: because `is_same_vector` skips the first entry
(edge_operator.hpp 37), tensors whose first names differ are added without an error. -/
theorem C24_first_name_unchecked :
    scalarOp env0 (fun _ _ => 0) id id (· + ·) sampleU1 ⟨[9, 3], sampleU1.core⟩ =
      .ok (mapTensor (2 * ·) sampleU1) ∧
    scalarInplace env0 (· + ·) sampleU1 ⟨[9, 3], sampleU1.core⟩ =
      .ok (mapTensor (2 * ·) sampleU1) := by
  constructor <;> decide +kernel

/-- Out-of-place operators do not compare the arrows of fermionic edges: the result takes those of
the left operand. -/
theorem C24_arrow_unchecked :
    scalarOp env0 (fun _ _ => 0) id id (· + ·) sampleFermi
      ⟨sampleFermi.names, sampleFermi.core.edges.map fun e => ⟨!e.arrow, e.map⟩,
        sampleFermi.core.blocks⟩ = .ok (mapTensor (2 * ·) sampleFermi) := by
  decide +kernel

end TAT
