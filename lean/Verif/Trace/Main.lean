import Verif.Trace.Total

/-!
# The whole trace
-/

set_option linter.unusedSectionVars false

namespace TAT

variable {ν σ α : Type} [LinearOrder ν] [TatSym σ]

/-! ## splitting the only edge -/

/-- The arguments of the final split. -/
def scatterArgs (n3 : ν) (G : List ν) (fm : ν → List (σ × ℕ)) (reversed : List ν) :
    EdgeArgs ν σ where
  split := [(n3, G.map fun n => (n, fm n))]
  reversed := reversed
  newNames := G

theorem scatter_spec [Neg α] [Zero α] (env : Env σ α) {x : Tensor ν σ α} (hx : WF x) {n3 : ν}
    (hnames : x.names = [n3]) {E : Edge σ} (hedges : x.core.edges = [E])
    (h0 : (0 : σ) ∈ OMap.keys E.map) {G : List ν} (hG : G.Nodup) {fm : ν → List (σ × ℕ)}
    (hs : ∀ n ∈ G, OMap.Sorted (fm n)) (hdim : dimOf E 0 = mergedDim (G.map fm) 0)
    (reversed : List ν) :
    ∃ r, edgeOperator env x (scatterArgs n3 G fm reversed) = .ok r ∧ r.names = G ∧ WF r ∧
      r.core.edges = prunedEdges (G.map (reversedEdge reversed fun n => ⟨E.arrow, fm n⟩)) ∧
      ∀ p, FineOk fm G p → elem r p = elemAt x.core [0] [groupIdx fm G p] := by
  set a := scatterArgs n3 G fm reversed with ha
  have hk := (rank1_blocks hx hedges h0).1
  have hn : opNames x a = [n3] := by
    unfold opNames
    rw [hnames]
    exact (List.map_congr_left fun n _ => renameOne_nil n).trans (List.map_id _)
  have hcut : opCut x a = [E] := by rw [← hedges]; rfl
  have hfst : (G.map fun n => (n, fm n)).map Prod.fst = G := by
    rw [List.map_map]; exact List.map_id _
  have hsnd : (G.map fun n => (n, fm n)).map Prod.snd = G.map fm := by
    rw [List.map_map]; rfl
  have hfind : OMap.find? a.split n3 = some (G.map fun n => (n, fm n)) := by
    simp [ha, scatterArgs, OMap.find?]
  have hS : opS x a = [G] := by
    unfold opS
    rw [hn]
    unfold splitGroups
    simp only [List.map_cons, List.map_nil, hfind, hfst]
  have hSf : (opS x a).flatten = G := by rw [hS]; simp
  have hM : opM a = G.map fun n => [n] := opM_noMerge rfl
  have hMf : (opM a).flatten = G := by rw [hM, flatten_singletons]
  have hE : fineEdges a.split ([n3].zip [E]) = G.map fun n => (n, (⟨E.arrow, fm n⟩ : Edge σ)) := by
    unfold fineEdges
    simp only [List.zip_cons_cons, List.zip_nil_left, List.flatMap_cons, List.flatMap_nil, hfind,
      List.append_nil]
    rw [List.map_map]; rfl
  have hfine : ∀ n ∈ G, opFine x a n = ⟨E.arrow, fm n⟩ := by
    intro n hn'
    unfold opFine
    rw [hn, hcut]
    refine edgeNamed_of_mem (x := (n, ⟨E.arrow, fm n⟩)) ?_ (by
      rw [hE]; exact List.mem_map.2 ⟨n, hn', rfl⟩)
    rw [hE, List.map_map]
    have : G.map (Prod.fst ∘ fun n => (n, (⟨E.arrow, fm n⟩ : Edge σ))) = G := List.map_id _
    rw [this]
    exact hG
  have hmap : ∀ n ∈ G, opMap x a n = fm n := by
    intro n hn'; unfold opMap; rw [hfine n hn']
  have hmapG : G.map (opMap x a) = G.map fm := List.map_congr_left hmap
  have hok : OpOk x a := {
    wf := hx.shaped
    pruned := fun _ => hx.pruned
    nodup := by rw [hSf]; exact hG
    perm := by rw [hSf, hMf]
    newNodup := hG
    parts := by
      intro y hy z hz
      simp only [ha, scatterArgs, List.mem_singleton] at hy
      subst hy
      obtain ⟨n, hn', rfl⟩ := List.mem_map.1 hz
      exact hs n hn'
    fits := by
      intro y hy parts hparts
      rw [hn, hcut] at hy
      simp only [List.zip_cons_cons, List.zip_nil_left, List.mem_singleton] at hy
      subst hy
      have := hfind.symm.trans hparts
      rw [Option.some.injEq] at this
      subst this
      rw [hfst, hsnd]
      refine ⟨fun s hs' => ?_, fun _ p hp _ => ?_⟩
      · rw [hk s hs', hdim]
      · rw [hSf] at hp
        rw [hp.2]; exact h0
    cutKeys := by
      intro hc
      simp [ha, scatterArgs] at hc }
  have hsign : ∀ p, opSign x a p = 1 := by
    intro p
    unfold opSign
    split
    · rw [hS, hM, flatten_singletons,
        groupsOf_short _ (List.map _ _) _ (by
          intro g hg
          obtain ⟨n, _, rfl⟩ := List.mem_map.1 hg
          simp)]
      have e1 : (fun n => decide (n ∈ a.reversed) && marked a.applyParity a.excludeReverse n) =
          fun _ => false := by
        funext n
        simp [ha, scatterArgs, marked]
      have e2 := prod_reverseOf_false (oddAt p) (G.map fun n => [n])
        (fun g n => flipped (opReversed x a) g n && marked a.applyParity a.excludeReverseMerge n) (by
        intro g n
        simp [ha, scatterArgs, marked])
      rw [e1, e2, reverseOf_false, hn]
      have e3 : groupsOf (oddAt p) [G] ([n3].map (marked a.applyParity a.excludeSplit)) = 1 := by
        unfold groupsOf
        simp [ha, scatterArgs, marked]
      rw [e3]
      have e4 : [G].flatten = G := by simp
      rw [e4, exchangeOf_refl]
      simp
    · rfl
  obtain ⟨r, d1, d2, d3, d4, d5, d6⟩ := edgeOperator_spec env hok
  refine ⟨r, d1, d2, d3, ?_, fun p hp => ?_⟩
  · rw [d4]
    congr 1
    unfold opEdges
    rw [hM]
    apply List.ext_getElem
    · simp
    · intro i i1 i2
      simp only [List.getElem_map, List.getElem_zipIdx, List.map_singleton, groupEdge]
      have hi : G[i]'(by simpa using i2) ∈ G := List.getElem_mem _
      unfold opReversed reversedEdge
      rw [hfine _ hi]
      rfl
  · have hf : FineOk (opMap x a) (opS x a).flatten p := by
      rw [hSf]
      exact ⟨fun n hn' => by rw [hmap n hn']; exact hp.1 n hn', hp.2⟩
    have hin : opIn x a p := by
      unfold opIn
      rw [hcut, hS]
      simp only [coarseKey, List.map_cons, List.map_nil]
      rw [hp.2]
      exact .cons h0 .nil
    have := d5 p hf hin
    rw [hsign] at this
    have hg : groupIdx (opMap x a) G p = groupIdx fm G p := by
      rw [groupIdx_eq, groupIdx_eq, hmapG]
    have hsort : ∀ n ∈ G, OMap.Sorted (opMap x a n) := fun n hn' => by
      rw [hmap n hn']; exact hs n hn'
    rw [hM, hS, coarseKey_singles, coarseIdx_singles hsort] at this
    simp only [coarseKey, coarseIdx, List.map_cons, List.map_nil] at this
    rw [hp.2, hg] at this
    unfold elem
    have hnn : r.names = G := d2
    rw [hnn, this]
    have : applySign (1 : ℤ) = (id : α → α) := by
      funext y
      unfold applySign
      rw [if_neg (by decide)]
      rfl
    rw [this, Option.map_id_fun]
    rfl

/-! ## the whole trace -/

theorem traceTensor_spec [CommRing α] (env1 env2 : Env σ α) (junk : List σ → ℕ → α)
    {tn : TraceNames ν} (htn : [tn.t1, tn.t2, tn.t3].Nodup) {t : Tensor ν σ α} (h : WF t)
    {pairs : List (ν × ν)} (hn : (pairNames pairs).Nodup)
    (hs : ∀ n ∈ pairNames pairs, n ∈ t.names)
    (hm : ∀ c ∈ pairs, ∀ s, OMap.find? (mapOf t c.1) s = OMap.find? (mapOf t c.2) (-s))
    (ha : TatSym.isFermi σ = true → ∀ c ∈ pairs, (edgeOf t c.1).arrow ≠ (edgeOf t c.2).arrow)
    (hl : Separated t (pairs.map Prod.fst) ∨ ∀ s : σ, -s = s)
    {q0 : ν → σ × ℕ} (hq0 : KeyOk (mapOf t) t.names q0)
    (hz : (keyOf (others t.names (pairNames pairs)) q0).sum = 0) :
    ∃ r, traceTensor env1 env2 junk tn t pairs = .ok r ∧
      r.names = others t.names (pairNames pairs) ∧ WF r ∧
      (∃ e : ν → Edge σ, r.core.edges = prunedEdges (r.names.map e) ∧ ∀ n ∈ r.names,
        (e n).map = mapOf t n ∧ (TatSym.isFermi σ = true → arrowValid (edgeOf t n) = true →
          (e n).arrow = (edgeOf t n).arrow)) ∧
      ∀ p, FineOk (mapOf t) r.names p → elem r p = some (traced t pairs p) := by
  obtain ⟨cs, l1, l2⟩ := traceLoop_perm h hn hs
  obtain ⟨hT, hG⟩ := traced_of h hn hs hm ha hl l2
  rw [← hG] at hz
  obtain ⟨m, E0, E1, E2, m1, hv⟩ := hT.view (tn := tn) env1 htn
  obtain ⟨x, E, x1, x2, x3, x4, x5, x6, x7, x8⟩ := traceSum_spec (tn := tn) junk hT hv hq0 hz
  have hGn : (freeOf t cs).Nodup := h.nodup.filter _
  have hGs : ∀ n ∈ freeOf t cs, OMap.Sorted (mapOf t n) := fun n hn' =>
    mapOf_sorted h n (mem_freeOf.1 hn').1
  obtain ⟨r, r1, r2, r3, r4, r5⟩ := scatter_spec env2 x2 x3 x4 x6 hGn hGs x7
    (reversedFree (freeOf t cs) t)
  have hA : ∀ n ∈ cs.map Prod.fst, OMap.Sorted (mapOf t n) := by
    intro n hn'
    obtain ⟨c, hc, rfl⟩ := List.mem_map.1 hn'
    exact mapOf_sorted h _ (hT.pairs.sub1 c hc)
  refine ⟨r, ?_, by rw [r2, hG], r3, ⟨_, by rw [r2]; exact r4, fun n hn' => ⟨?_, fun hf hv' => ?_⟩⟩,
    fun p hp => ?_⟩
  · unfold traceTensor
    rw [l1]
    simp only [Outcome.bind]
    rw [if_neg]
    · have hg : (t.names.filter fun n => !decide (n ∈ cs.map Prod.fst) &&
          !decide (n ∈ cs.map Prod.snd)) = freeOf t cs := by
        unfold freeOf others
        refine List.filter_congr fun n _ => ?_
        simp only [List.mem_append]
        by_cases u : n ∈ cs.map Prod.fst <;> by_cases v : n ∈ cs.map Prod.snd <;> simp [u, v]
      have hsp : splitParts (freeOf t cs) t = (freeOf t cs).map fun n => (n, mapOf t n) :=
        splitParts_eq h.shaped _
      rw [hg]
      have m1' : edgeOperator env1 t (traceArgs tn (reversedFree (freeOf t cs) t) (cs.map Prod.fst)
        (cs.map Prod.snd) (freeOf t cs)) = .ok m := m1
      rw [m1']
      dsimp only
      rw [x1]
      dsimp only
      rw [hsp]
      exact r1
    · have h1 : (pairNames pairs).length ≤ t.names.length :=
        (List.subperm_of_subset hn hs).length_le
      have h2 : (pairNames pairs).length = 2 * pairs.length := by
        unfold pairNames
        rw [List.length_flatMap]
        simp [mul_comm]
      omega
  · unfold reversedEdge reverseOne
    split
    · split <;> rfl
    · rfl
  · rw [r2] at hn'
    have hE : E.arrow = false := by rw [x5]; exact hv.arrow hf n hn' hv'
    have hnt := (mem_freeOf.1 hn').1
    have := mem_reversedFree h.shaped (free := freeOf t cs) (n := n)
    unfold reversedEdge
    rw [if_pos hf]
    unfold reverseOne
    cases hb : (edgeOf t n).arrow
    · rw [if_neg (by rw [this, hb]; simp)]
      exact hE
    · rw [if_pos (by rw [this, hb]; exact ⟨hf, hnt, hn', rfl⟩)]
      dsimp only
      rw [hE]; rfl
  · rw [r2] at hp
    have hj : groupIdx (mapOf t) (freeOf t cs) p < dimOf E 0 := by
      have := groupIdx_lt hGs hp.1
      rwa [hp.2, ← x7] at this
    rw [r5 p hp, x8 _ hj, traced_eq h hn hs ha l2 hT hG]
    congr 1
    have hs0 : OMap.Sorted E0.map := hv.wf.sorted E0 (by rw [hv.edges]; simp)
    rw [sum_parts hT.pairs.nodup1 hA (fun s i => (elemAt m.core [s, -s, 0]
      [i, i, groupIdx (mapOf t) (freeOf t cs) p]).getD 0) p E0.map hs0.nodup (fun y hy => by
        have hy1 : y.1 ∈ OMap.keys E0.map := List.mem_map_of_mem hy
        rw [← hv.dim0 _ hy1]
        unfold dimOf
        rw [OMap.find?_of_mem hs0.nodup hy]; rfl)]
    refine sumOver_congr hT.pairs.nodup1 fun w hw hwp => ?_
    have hwA : ∀ n ∈ cs.map Prod.fst, diagonal cs w n = w n := fun n hn' =>
      hT.diag_fst w (hT.apart n hn')
    have hwG : ∀ n ∈ freeOf t cs, diagonal cs w n = p n := fun n hn' => by
      obtain ⟨_, n1, n2⟩ := mem_freeOf.1 hn'
      rw [hT.diag_fst w n2, hwp n n1]
    have sA : keyOf (cs.map Prod.fst) (diagonal cs w) = keyOf (cs.map Prod.fst) w :=
      keyOf_congr hwA
    have sB : (keyOf (cs.map Prod.snd) (diagonal cs w)).sum = -(keyOf (cs.map Prod.fst) w).sum :=
      partner_sum hT.pairs.nodup2 w w
    have sG : (keyOf (freeOf t cs) (diagonal cs w)).sum = 0 := by
      rw [keyOf_congr hwG, hp.2]
    have hval : ValidPos t (diagonal cs w) := by
      rw [validPos_iff h]
      refine ⟨fun n hn' => ?_, ?_⟩
      · rcases List.mem_append.1 (hT.perm.mem_iff.1 hn') with hA' | hBG
        · rw [hwA n hA']
          exact (mem_edgePositions (hA n hA')).1 (hw n hA')
        · rcases List.mem_append.1 hBG with hB | hG'
          · obtain ⟨c, hc, rfl⟩ := List.mem_map.1 hB
            have hA' := List.mem_map_of_mem (f := Prod.fst) hc
            rw [hT.diag_snd _ hc]
            have := (mem_edgePositions (hA _ hA')).1 (hw _ hA')
            unfold dimM at this ⊢
            rwa [hT.maps c hc] at this
          · rw [hwG n hG']
            exact hp.1 n hG'
      · rw [sum_split hT.perm, sum_split (List.Perm.refl _), sA, sB, sG, add_zero, add_neg_cancel]
    have hk := hv.keys _ ((validPos_iff h).1 hval).keyOk
    rw [sA] at hk
    have he := hv.elem _ hval
    rw [sA, sB, sG, groupIdx_congr hwA, groupIdx_congr hwG] at he
    have hal : groupIdx (mapOf t) (cs.map Prod.fst) w =
        groupIdx (mapOf t) (cs.map Prod.snd) (diagonal cs w) := hT.aligned.2 w w
    rw [← hal, amp_valid h hval] at he
    have hk1 : (keyOf (cs.map Prod.fst) w).sum ∈ E0.map.map Prod.fst := hk.1
    rw [if_pos hk1, he]
    simp only [Option.map_some, Option.getD_some]
    refine applySign_smul ?_ _
    unfold directedSign
    split
    · exact isSign_exchangeOf _ _ _
    · exact Or.inl rfl

end TAT
