import Verif.Trace.Merge

/-!
# The sum over the diagonal of the merged tensor
-/

set_option linter.unusedSectionVars false

namespace TAT

variable {ν σ α : Type} [LinearOrder ν] [TatSym σ]

theorem addLines [AddCommGroup α] (source : List α) (off : ℕ → ℕ) (is : List ℕ) {dest : List α}
    (h : ∀ i ∈ is, off i + dest.length ≤ source.length) :
    ∃ d, is.foldlM (fun d i => addLine source d (off i)) dest = .ok d ∧ d.length = dest.length ∧
      ∀ j < dest.length, d.getD j 0 =
        dest.getD j 0 + (is.map fun i => source.getD (off i + j) 0).sum := by
  induction is generalizing dest with
  | nil => exact ⟨dest, rfl, rfl, by simp⟩
  | cons i is ih =>
    have hi := h i (by simp)
    set d1 := List.zipWith (· + ·) dest (source.drop (off i)) with hd1
    have hl : d1.length = dest.length := by
      rw [hd1, List.length_zipWith, List.length_drop]; omega
    obtain ⟨d, h1, h2, h3⟩ := ih (dest := d1) (fun i' hi' => by
      rw [hl]; exact h i' (by simp [hi']))
    refine ⟨d, ?_, by rw [h2, hl], fun j hj => ?_⟩
    · rw [List.foldlM_cons]
      have : addLine source dest (off i) = .ok d1 := if_pos hi
      rw [this]
      exact h1
    · rw [h3 j (by omega), List.map_cons, List.sum_cons, ← add_assoc]
      congr 1
      rw [hd1, List.getD_eq_getElem?_getD, List.getElem?_zipWith, List.getElem?_drop,
        List.getElem?_eq_getElem hj, List.getElem?_eq_getElem (by omega),
        List.getD_eq_getElem?_getD, List.getD_eq_getElem?_getD, List.getElem?_eq_getElem hj,
        List.getElem?_eq_getElem (by omega)]
      rfl

/-- Reading the diagonal of every block. -/
theorem traceBlocks [AddCommGroup α] (c : Core σ α) (l : ℕ) (xs : List (σ × ℕ))
    (h : ∀ x ∈ xs, ∃ source, OMap.find? c.blocks [x.1, -x.1, 0] = some source ∧
      source.length = x.2 * (x.2 * l) ∧ dimsOf c.edges [x.1, -x.1, 0] = [x.2, x.2, l])
    {dest : List α} (hd : dest.length = l) :
    ∃ d, xs.foldlM (traceBlock c.blocks) dest = .ok d ∧ d.length = l ∧
      ∀ j < l, d.getD j 0 = dest.getD j 0 + (xs.map fun x => ((List.range x.2).map fun i =>
        (elemAt c [x.1, -x.1, 0] [i, i, j]).getD 0).sum).sum := by
  induction xs generalizing dest with
  | nil => exact ⟨dest, rfl, hd, by simp⟩
  | cons x xs ih =>
    obtain ⟨source, s1, s2, s3⟩ := h x (by simp)
    have hoff : ∀ i ∈ List.range x.2, (x.2 + 1) * i * dest.length + dest.length ≤ source.length := by
      intro i hi
      rw [List.mem_range] at hi
      rw [s2, hd]
      have h1 : (x.2 + 1) * i + 1 ≤ x.2 * x.2 := by
        obtain ⟨k, hk⟩ := Nat.exists_eq_add_of_lt hi
        rw [hk]
        nlinarith
      calc (x.2 + 1) * i * l + l = ((x.2 + 1) * i + 1) * l := by ring
        _ ≤ x.2 * x.2 * l := Nat.mul_le_mul_right _ h1
        _ = _ := by ring
    obtain ⟨d1, a1, a2, a3⟩ := addLines source (fun i => (x.2 + 1) * i * dest.length)
      (List.range x.2) (dest := dest) hoff
    obtain ⟨d, b1, b2, b3⟩ := ih (fun y hy => h y (by simp [hy])) (dest := d1) (by rw [a2, hd])
    refine ⟨d, ?_, b2, fun j hj => ?_⟩
    · rw [List.foldlM_cons]
      have : traceBlock c.blocks dest x = .ok d1 := by
        unfold traceBlock
        rw [s1]
        exact a1
      rw [this]
      exact b1
    · rw [b3 j hj, a3 j (by omega), List.map_cons, List.sum_cons, add_assoc]
      congr 3
      refine List.map_congr_left fun i hi => ?_
      unfold elemAt
      rw [s1, Option.bind_some, s3, List.getD_eq_getElem?_getD]
      congr 2
      rw [hd]
      simp only [rowMajor, List.prod_cons, List.prod_nil]
      ring

section
variable {t m : Tensor ν σ α} {cs : List (ν × ν)} {tn : TraceNames ν} {E0 E1 E2 : Edge σ}

/-- There is a block of every symmetry that is summed over. -/
theorem TraceView.block [Neg α] (hv : TraceView t cs E0 E1 E2 m) (hT : Traced t cs)
    {q0 : ν → σ × ℕ} (hq0 : KeyOk (mapOf t) t.names q0) (hz : (keyOf (freeOf t cs) q0).sum = 0)
    {s : σ} (hs : s ∈ OMap.keys E0.map) :
    -s ∈ OMap.keys E1.map ∧ 0 ∈ OMap.keys E2.map := by
  obtain ⟨q, h1, h2⟩ := hv.source s hs
  let w : ν → σ × ℕ := diagonal cs fun n => if n ∈ cs.map Prod.fst then q n else q0 n
  have wA : ∀ n ∈ cs.map Prod.fst, w n = q n := by
    intro n hn
    change diagonal cs _ n = _
    rw [hT.diag_fst _ (hT.apart n hn), if_pos hn]
  have wG : ∀ n ∈ freeOf t cs, w n = q0 n := by
    intro n hn
    obtain ⟨_, n1, n2⟩ := mem_freeOf.1 hn
    change diagonal cs _ n = _
    rw [hT.diag_fst _ n2, if_neg n1]
  have sA : (keyOf (cs.map Prod.fst) w).sum = s := by rw [keyOf_congr wA, h2]
  have sB : (keyOf (cs.map Prod.snd) w).sum = -s := by
    have := partner_sum hT.pairs.nodup2 (fun n => if n ∈ cs.map Prod.fst then q n else q0 n)
      (fun n => if n ∈ cs.map Prod.fst then q n else q0 n)
    refine this.trans ?_
    rw [keyOf_congr (q := q) fun n hn => by simp only [if_pos hn], h2]
  have sG : (keyOf (freeOf t cs) w).sum = 0 := by rw [keyOf_congr wG, hz]
  have hk : KeyOk (mapOf t) t.names w := by
    refine ⟨fun n hn => ?_, ?_⟩
    · have := hT.perm.mem_iff.1 hn
      rcases List.mem_append.1 this with hA | hBG
      · rw [wA n hA]; exact h1 n hA
      · rcases List.mem_append.1 hBG with hB | hG
        · obtain ⟨c, hc, rfl⟩ := List.mem_map.1 hB
          have hA := List.mem_map_of_mem (f := Prod.fst) hc
          change (diagonal cs _ c.2).1 ∈ _
          rw [hT.diag_snd _ hc, if_pos hA]
          have := h1 _ hA
          rw [← OMap.find?_isSome] at this ⊢
          rwa [hT.maps c hc] at this
        · rw [wG n hG]; exact hq0.1 n hn
    · rw [sum_split hT.perm, sum_split (List.Perm.refl _), sA, sB, sG, add_zero, add_neg_cancel]
  have := hv.keys w hk
  rw [sB, sG] at this
  exact this.2

theorem rank1_blocks {r : Tensor ν σ α} (h : WF r) {E : Edge σ} (he : r.core.edges = [E])
    (h0 : (0 : σ) ∈ OMap.keys E.map) :
    (∀ s ∈ OMap.keys E.map, s = 0) ∧ ∃ d, r.core.blocks = [([0], d)] ∧ d.length = dimOf E 0 := by
  have hk : ∀ s, s ∈ OMap.keys E.map → s = 0 := by
    intro s hs
    have hp := h.pruned
    have hE := edges_named h
    rw [hE, prunedEdges_eq_iff h.nodup] at hp
    rw [hE] at he
    match hnm : r.names, he with
    | [n], he =>
      simp only [List.map_cons, List.map_nil, List.cons.injEq, and_true] at he
      obtain ⟨q, q1, q2⟩ := hp n (by rw [hnm]; simp) s (by rw [he]; exact hs)
      have := q1.2
      rw [hnm] at this
      simp only [keyOf, List.map_cons, List.map_nil, List.sum_cons, List.sum_nil, add_zero] at this
      rw [← q2, this]
  refine ⟨hk, ?_⟩
  have hb := h.blocks
  rw [he] at hb
  have hsort : OMap.Sorted E.map := h.sorted E (by rw [he]; simp)
  have hE : E.map = [(0, dimOf E 0)] := by
    have hn := hsort.nodup
    unfold OMap.keys at hn hk h0
    match hm : E.map with
    | [] => rw [hm] at h0; simp at h0
    | [x] =>
      have hx : x.1 = 0 := hk x.1 (by rw [hm]; simp)
      unfold dimOf
      rw [hm]
      obtain ⟨a, b⟩ := x
      simp only at hx
      subst hx
      simp [OMap.find?]
    | x :: y :: l =>
      exfalso
      rw [hm] at hn hk
      have e1 := hk x.1 (by simp)
      have e2 := hk y.1 (by simp)
      simp [e1, e2] at hn
  have hlen : r.core.blocks.length = 1 := by
    have := congrArg List.length hb
    rw [List.length_map] at this
    rw [this, List.map_singleton, hE]
    simp [blockShapes, combos, choices]
  match hc : r.core.blocks, hlen with
  | [b], _ =>
    have hmem : b.1 ∈ OMap.keys r.core.blocks := by rw [hc]; simp [OMap.keys]
    have h1 := h.mem_keys.1 hmem
    rw [he] at h1
    have hb1 : b.1 = [0] := by
      match hbb : b.1, h1 with
      | [], h1 => simp at h1
      | [s], h1 =>
        simp only [List.forall₂_cons, List.forall₂_nil_right_iff, and_true] at h1
        rw [hk s h1.1]
      | _ :: _ :: _, h1 => simp at h1
    refine ⟨b.2, ?_, ?_⟩
    · rw [← hb1]
    · have := h.length (k := b.1) (data := b.2) (by rw [hc]; simp)
      rw [this, he, hb1]
      simp [dimsOf]

theorem traceSum_spec [AddCommGroup α] (junk : List σ → ℕ → α) (hT : Traced t cs)
    (hv : TraceView t cs E0 E1 E2 m) {q0 : ν → σ × ℕ} (hq0 : KeyOk (mapOf t) t.names q0)
    (hz : (keyOf (freeOf t cs) q0).sum = 0) :
    ∃ x E, traceSum junk tn m = .ok x ∧ WF x ∧ x.names = [tn.t3] ∧ x.core.edges = [E] ∧
      E.arrow = E2.arrow ∧ (0 : σ) ∈ OMap.keys E.map ∧
      dimOf E 0 = mergedDim ((freeOf t cs).map (mapOf t)) 0 ∧
      ∀ j < dimOf E 0, elemAt x.core [0] [j] = some (E0.map.map fun e =>
        ((List.range e.2).map fun i => (elemAt m.core [e.1, -e.1, 0] [i, i, j]).getD 0).sum).sum := by
  have h0 : (0 : σ) ∈ OMap.keys E2.map := by
    have := (hv.keys q0 hq0).2.2
    rwa [hz] at this
  have hs2 : OMap.Sorted E2.map := hv.wf.sorted E2 (by rw [hv.edges]; simp)
  have hs0 : OMap.Sorted E0.map := hv.wf.sorted E0 (by rw [hv.edges]; simp)
  obtain ⟨r, r1, hF⟩ := mkTensor_fresh junk (names := [tn.t3]) (by simp) (fun _ => E2)
    (by intro _ _; exact hs2)
  have hre : r.core.edges = prunedEdges [E2] := hF.edges
  obtain ⟨E, hE, hEa⟩ : ∃ E, prunedEdges [E2] = [E] ∧ E.arrow = E2.arrow := ⟨_, rfl, rfl⟩
  have hpk := pruned_keys (edges := [E2]) (by simpa using hs2) (k := [0])
    (.cons h0 .nil) (by simp)
  rw [hE] at hpk hre
  have hE0 : (0 : σ) ∈ OMap.keys E.map := by simpa using hpk.1
  have hdim : dimOf E 0 = dimOf E2 0 := by
    have := hpk.2
    simpa [dimsOf] using this
  obtain ⟨hk, d, hd, hdl⟩ := rank1_blocks hF.wf hre hE0
  have hzb : (zero r).core.blocks = [([0], List.replicate d.length 0)] := by
    rw [zero_blocks, hd]; rfl
  obtain ⟨data, e1, e2, e3⟩ := traceBlocks m.core (dimOf E2 0) E0.map (fun x hx => by
    have hx1 : x.1 ∈ OMap.keys E0.map := List.mem_map_of_mem hx
    obtain ⟨b1, b2⟩ := hv.block hT hq0 hz hx1
    have hmem : [x.1, -x.1, 0] ∈ OMap.keys m.core.blocks := by
      rw [hv.wf.mem_keys, hv.edges]
      refine ⟨.cons hx1 (.cons b1 (.cons b2 .nil)), by simp⟩
    rw [← OMap.find?_isSome] at hmem
    obtain ⟨source, hsrc⟩ := Option.isSome_iff_exists.1 hmem
    have d0 : dimOf E0 x.1 = x.2 := by
      unfold dimOf
      rw [OMap.find?_of_mem hs0.nodup hx]; rfl
    have d1 : dimOf E1 (-x.1) = x.2 := by
      rw [hv.dim1 _ b1, ← hT.aligned.1, ← hv.dim0 _ hx1, d0]
    have hdims : dimsOf m.core.edges [x.1, -x.1, 0] = [x.2, x.2, dimOf E2 0] := by
      rw [hv.edges]
      simp [dimsOf, d0, d1]
    refine ⟨source, hsrc, ?_, hdims⟩
    rw [hv.wf.length (OMap.mem_of_find? hsrc), hdims]
    simp) (dest := List.replicate d.length 0) (by rw [List.length_replicate, hdl, hdim])
  have hgd : m.core.edges.getD 2 {} = E2 ∧ m.core.edges.getD 0 {} = E0 := by
    rw [hv.edges]; exact ⟨rfl, rfl⟩
  refine ⟨⟨r.names, ⟨r.core.edges, [([0], data)]⟩⟩, E, ?_, ?_, hF.namesEq, hre, hEa, hE0, ?_,
    fun j hj => ?_⟩
  · unfold traceSum
    rw [hgd.1, hgd.2]
    have r1' : mkTensor junk [tn.t3] [E2] = .ok r := r1
    rw [r1']
    simp only [Outcome.bind]
    rw [hzb]
    dsimp only
    rw [e1]
  · refine ⟨hF.wf.rank, hF.wf.nodup, hF.wf.sorted, ?_, hF.wf.pruned⟩
    have := hF.wf.blocks
    rw [hd] at this
    rw [← this]
    simp [e2, hdl, hdim]
  · rw [hdim, hv.dim2 0 h0]
  · have hj' : j < data.length := by rw [e2, ← hdim]; exact hj
    have := e3 j (by rw [← hdim]; exact hj)
    rw [List.getD_eq_getElem?_getD (l := List.replicate _ _)] at this
    have hrep : ((List.replicate d.length (0 : α))[j]?.getD 0) = 0 := by
      rw [List.getElem?_replicate]; split <;> rfl
    rw [hrep, zero_add] at this
    rw [← this, List.getD_eq_getElem?_getD, List.getElem?_eq_getElem hj']
    unfold elemAt
    rw [hre]
    simp [OMap.find?, dimsOf, rowMajor, List.getElem?_eq_getElem hj']

/-- Summing over the symmetries and indices of the merged edge is summing over its parts. -/
theorem sum_parts [AddCommGroup α] {A : List ν} (hA : A.Nodup) {fm : ν → List (σ × ℕ)}
    (hs : ∀ n ∈ A, OMap.Sorted (fm n)) (f : σ → ℕ → α) (p : ν → σ × ℕ) (xs : List (σ × ℕ))
    (hx : (xs.map Prod.fst).Nodup) (hd : ∀ x ∈ xs, x.2 = mergedDim (A.map fm) x.1) :
    (xs.map fun x => ((List.range x.2).map (f x.1)).sum).sum =
      sumOver (fun n => edgePositions (fm n)) (fun w => if (keyOf A w).sum ∈ xs.map Prod.fst then
        f (keyOf A w).sum (groupIdx fm A w) else 0) A p := by
  induction xs with
  | nil =>
    symm
    exact sumOver_zero hA fun w _ _ => by simp
  | cons x xs ih =>
    rw [List.map_cons, List.nodup_cons] at hx
    rw [List.map_cons, List.sum_cons, ih hx.2 fun y hy => hd y (by simp [hy]), hd x (by simp),
      sum_group hA hs x.1 (f x.1) p, sumOver_eq, sumOver_eq, sumOver_eq, ← List.sum_map_add]
    congr 1
    refine List.map_congr_left fun w _ => ?_
    by_cases h1 : (keyOf A w).sum = x.1
    · rw [if_pos h1, if_neg (by rw [h1]; exact hx.1), if_pos (by rw [h1]; simp), add_zero, h1]
    · rw [if_neg h1, zero_add]
      simp only [List.map_cons, List.mem_cons, h1, false_or]

end

end TAT
