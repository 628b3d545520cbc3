import Verif.EdgeOp.Sign

/-!
# Every coarse position comes from a fine position
-/

set_option linter.unusedSectionVars false

namespace TAT

variable {ν σ α : Type}

section surj
variable [LinearOrder ν] [TatSym σ]

/-- Every coarse index of a group comes from a fine position. -/
theorem group_surj_names {fm : ν → List (σ × ℕ)} {g : List ν} (hn : g.Nodup)
    (hs : ∀ n ∈ g, OMap.Sorted (fm n)) {s : σ} {i : ℕ} (hi : i < mergedDim (g.map fm) s) :
    ∃ q : ν → σ × ℕ, (∀ n ∈ g, (q n).2 < dimM (fm n) (q n).1) ∧ (keyOf g q).sum = s ∧
      groupIdx fm g q = i := by
  have hs' : ∀ m ∈ g.map fm, OMap.Sorted m := by
    intro m hm
    obtain ⟨n, hn, rfl⟩ := List.mem_map.1 hm
    exact hs n hn
  obtain ⟨k, idx, h1, h2, h3, h4⟩ := group_surj hs' hi
  have hk : k.length = g.length := by simpa using h1.length_eq.symm
  have hil : idx.length = g.length := by
    rw [← h3.length]; simp [hk]
  let q : ν → σ × ℕ := fun n => (k.getD (g.idxOf n) 0, idx.getD (g.idxOf n) 0)
  have hq1 : keyOf g q = k := by
    unfold keyOf
    apply List.ext_getElem
    · simp [hk]
    · intro j a1 a2
      simp only [List.getElem_map, q]
      rw [hn.idxOf_getElem j (by omega), List.getD_eq_getElem _ _ a2]
  have hq2 : idxOf g q = idx := by
    unfold idxOf
    apply List.ext_getElem
    · simp [hil]
    · intro j a1 a2
      simp only [List.getElem_map, q]
      rw [hn.idxOf_getElem j (by omega), List.getD_eq_getElem _ _ a2]
  refine ⟨q, ?_, by rw [hq1, h2], ?_⟩
  · rw [← hq1, ← hq2, zipWith_dimM] at h3
    unfold InBox idxOf fineDims at h3
    rw [forall2_map_self] at h3
    exact h3
  · rw [groupIdx_eq, hq1, hq2, h4]

theorem groupIdx_congr {fm : ν → List (σ × ℕ)} {g : List ν} {p q : ν → σ × ℕ}
    (h : ∀ n ∈ g, p n = q n) : groupIdx fm g p = groupIdx fm g q := by
  unfold groupIdx keyOf idxOf
  rw [List.map_congr_left fun n hn => congrArg Prod.fst (h n hn),
    List.map_congr_left fun n hn => congrArg Prod.snd (h n hn),
    List.map_congr_left fun n hn => congrArg (fun x => dimM (fm n) x.1) (h n hn)]

theorem keyOf_congr {g : List ν} {p q : ν → σ × ℕ} (h : ∀ n ∈ g, p n = q n) :
    keyOf g p = keyOf g q := List.map_congr_left fun n hn => congrArg Prod.fst (h n hn)

theorem idxOf_congr {g : List ν} {p q : ν → σ × ℕ} (h : ∀ n ∈ g, p n = q n) :
    idxOf g p = idxOf g q := List.map_congr_left fun n hn => congrArg Prod.snd (h n hn)

/-- Every coarse position comes from a fine one. -/
theorem coarse_surj {fm : ν → List (σ × ℕ)} {groups : List (List ν)} (hn : groups.flatten.Nodup)
    (hs : ∀ n ∈ groups.flatten, OMap.Sorted (fm n)) {c : List (σ × ℕ)}
    (hc : List.Forall₂ (fun g x => x.2 < mergedDim (g.map fm) x.1) groups c) :
    ∃ q : ν → σ × ℕ, (∀ n ∈ groups.flatten, (q n).2 < dimM (fm n) (q n).1) ∧
      coarseKey groups q = c.map Prod.fst ∧ coarseIdx fm groups q = c.map Prod.snd := by
  induction hc with
  | nil => exact ⟨fun _ => (0, 0), by simp, rfl, rfl⟩
  | @cons g x gs c h _ ih =>
    rw [List.flatten_cons, List.nodup_append] at hn
    obtain ⟨hg, hgs, hdis⟩ := hn
    obtain ⟨q, q1, q2, q3⟩ := ih hgs fun n hn => hs n (by simp only [List.flatten_cons, List.mem_append]; exact .inr hn)
    obtain ⟨r, r1, r2, r3⟩ := group_surj_names hg
      (fun n hn => hs n (by simp only [List.flatten_cons, List.mem_append]; exact .inl hn)) h
    let u : ν → σ × ℕ := fun n => if n ∈ g then r n else q n
    have hu1 : ∀ n ∈ g, u n = r n := fun n hn => by simp only [u, if_pos hn]
    have hu2 : ∀ n ∈ gs.flatten, u n = q n := fun n hn => by
      have : n ∉ g := fun hg => hdis n hg n hn rfl
      simp only [u, if_neg this]
    have hu3 : ∀ g' ∈ gs, ∀ n ∈ g', u n = q n := fun g' hg' n hn =>
      hu2 n (List.mem_flatten.2 ⟨g', hg', hn⟩)
    refine ⟨u, ?_, ?_, ?_⟩
    · intro n hn
      rw [List.flatten_cons, List.mem_append] at hn
      rcases hn with hn | hn
      · rw [hu1 n hn]; exact r1 n hn
      · rw [hu2 n hn]; exact q1 n hn
    · unfold coarseKey at q2 ⊢
      rw [List.map_cons, List.map_cons, keyOf_congr hu1, r2, ← q2]
      congr 1
      exact List.map_congr_left fun g' hg' => by rw [keyOf_congr (hu3 g' hg')]
    · unfold coarseIdx at q3 ⊢
      rw [List.map_cons, List.map_cons, groupIdx_congr hu1, r3, ← q3]
      congr 1
      exact List.map_congr_left fun g' hg' => groupIdx_congr (hu3 g' hg')

/-- The edges of a tensor are at most as large as given by groups of fine edges. -/
def FitsIn (t : Tensor ν σ α) (fm : ν → List (σ × ℕ)) (groups : List (List ν)) : Prop :=
  List.Forall₂ (fun e g => ∀ s, dimOf e s ≤ mergedDim (g.map fm) s) t.core.edges groups

theorem exists_fine {t : Tensor ν σ α} {fm : ν → List (σ × ℕ)} {groups : List (List ν)}
    (hn : groups.flatten.Nodup) (hs : ∀ n ∈ groups.flatten, OMap.Sorted (fm n))
    (hf : FitsIn t fm groups) {p : ν → σ × ℕ} (hp : ValidPos t p) :
    ∃ q, FineOk fm groups.flatten q ∧ coarseKey groups q = keyOf t.names p ∧
      coarseIdx fm groups q = idxOf t.names p := by
  obtain ⟨h1, h0⟩ := hp
  have hc : List.Forall₂ (fun g (x : σ × ℕ) => x.2 < mergedDim (g.map fm) x.1) groups
      (t.names.map p) := by
    have a := forall2_getElem.1 h1
    have b := forall2_getElem.1 hf
    refine forall2_getElem.2 ⟨by omega, fun i hi hi' => ?_⟩
    exact lt_of_lt_of_le (a.2 i (by omega) hi') (b.2 i (by omega) hi _)
  obtain ⟨q, q1, q2, q3⟩ := coarse_surj hn hs hc
  rw [List.map_map] at q2 q3
  refine ⟨q, ⟨q1, ?_⟩, q2, q3⟩
  rw [← coarseKey_sum, q2]
  exact h0

/-- Two tensors agreeing on all fine positions are equal. -/
theorem fine_ext {t r : Tensor ν σ α} (ht : WF t) (hr : WF r) (hnames : t.names = r.names)
    (hedges : t.core.edges = r.core.edges) {fm : ν → List (σ × ℕ)} {groups : List (List ν)}
    (hn : groups.flatten.Nodup) (hs : ∀ n ∈ groups.flatten, OMap.Sorted (fm n))
    (hf : FitsIn t fm groups)
    (hv : ∀ q, FineOk fm groups.flatten q →
      elemAt t.core (coarseKey groups q) (coarseIdx fm groups q) =
      elemAt r.core (coarseKey groups q) (coarseIdx fm groups q)) : t = r := by
  refine tensor_ext ht hr hnames hedges fun p hp => ?_
  obtain ⟨q, h1, h2, h3⟩ := exists_fine hn hs hf hp
  have := hv q h1
  unfold elem
  rw [h2, h3] at this
  rw [this, hnames]

theorem dimOf_pruned_le {edges : List (Edge σ)} (hs : ∀ e ∈ edges, OMap.Sorted e.map) (i : ℕ)
    (hi : i < (prunedEdges edges).length) (s : σ) :
    dimOf (prunedEdges edges)[i] s ≤ dimOf (edges[i]'(by simpa [prunedEdges] using hi)) s := by
  by_cases hk : s ∈ OMap.keys (prunedEdges edges)[i].map
  · rw [dims_pruned hs hi hk]
  · have : dimOf (prunedEdges edges)[i] s = 0 := by
      unfold dimOf
      rw [OMap.find?_eq_none.2 hk]; rfl
    omega

theorem OpOk.fitsIn {t r : Tensor ν σ α} {a : EdgeArgs ν σ} (h : OpOk t a) (garbage : ℕ → Bool)
    (hr : r.core.edges = prunedEdges (opEdges garbage t a)) : FitsIn r (opMap t a) (opM a) := by
  unfold FitsIn
  rw [hr]
  refine forall2_getElem.2 ⟨by rw [pruned_length, opEdges_length, opM_length], fun i h1 h2 s => ?_⟩
  refine le_trans (dimOf_pruned_le (h.edgesSorted garbage) i h1 s) ?_
  rw [opEdges_getElem, (groupEdge_map (h.sortedM (List.getElem_mem h2))).2.2, opGroup_maps]

end surj

end TAT
