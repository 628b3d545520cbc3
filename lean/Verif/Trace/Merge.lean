import Verif.Trace.Diag

/-!
# Merging for the trace, and the sum over the diagonal of the merged tensor
-/

set_option linter.unusedSectionVars false

namespace TAT

variable {ν σ α : Type} [LinearOrder ν] [TatSym σ]

/-- A symmetry of a merged edge is the sum of symmetries of its parts. -/
theorem Gather.source {t : Tensor ν σ α} {a : EdgeArgs ν σ} (h : Gather t a) (garbage : ℕ → Bool)
    {edges : List (Edge σ)} (hr : edges = prunedEdges (opEdges garbage t a)) (i : ℕ)
    (hi : i < edges.length) (hi' : i < (opM a).length) {s : σ} (hs : s ∈ OMap.keys edges[i].map) :
    ∃ q : ν → σ × ℕ, (∀ n ∈ (opM a)[i], (q n).1 ∈ OMap.keys (mapOf t n)) ∧
      (keyOf (opM a)[i] q).sum = s := by
  have hA := h.ok.sortedM (List.getElem_mem hi')
  have hlen : i < (opEdges garbage t a).length := by
    rw [opEdges_length, ← opM_length]; exact hi'
  have hsub : s ∈ OMap.keys ((opEdges garbage t a)[i]'hlen).map := by
    subst hr
    simp only [prunedEdges, List.getElem_mapIdx] at hs
    obtain ⟨x, hx, rfl⟩ := List.mem_map.1 hs
    exact List.mem_map_of_mem (List.mem_of_mem_filter hx)
  rw [opEdges_getElem] at hsub
  obtain ⟨k, hk1, hk2⟩ := ((groupEdge_map hA).2.1 s).1 hsub
  have hnd : (opM a)[i].Nodup :=
    List.Nodup.sublist (List.sublist_flatten_of_mem (List.getElem_mem hi'))
      (h.perm.nodup_iff.1 h.wf.nodup)
  obtain ⟨q, hq⟩ := exists_pos hnd (k := k) (by rw [← hk1.length_eq, List.length_map])
  refine ⟨q, ?_, by rw [hq, hk2]⟩
  rw [← hq] at hk1
  unfold keyOf at hk1
  rw [forall2_map_self] at hk1
  intro n hn'
  have := hk1 n hn'
  rwa [opReversed_map, h.opMap] at this

section
variable {t : Tensor ν σ α} {cs : List (ν × ν)} {tn : TraceNames ν}

/-- The arguments of the merge. -/
def mergeOf (tn : TraceNames ν) (t : Tensor ν σ α) (cs : List (ν × ν)) : EdgeArgs ν σ :=
  traceArgs tn (reversedFree (freeOf t cs) t) (cs.map Prod.fst) (cs.map Prod.snd) (freeOf t cs)

theorem opM_trace (hn : [tn.t1, tn.t2, tn.t3].Nodup) :
    opM (mergeOf tn t cs) = [cs.map Prod.fst, cs.map Prod.snd, freeOf t cs] := by
  obtain ⟨h1, h2, h3⟩ := find_three hn (cs.map Prod.fst) (cs.map Prod.snd) (freeOf t cs)
  unfold opM mergeGroups mergeOf traceArgs
  simp [h1, h2, h3]

theorem Traced.gather (h : Traced t cs) (hn : [tn.t1, tn.t2, tn.t3].Nodup) :
    Gather t (mergeOf tn t cs) where
  rename := rfl
  split := rfl
  cut := rfl
  wf := h.wf.shaped
  pruned := fun _ => h.wf.pruned
  newNodup := hn
  perm := by
    rw [opM_trace hn]
    simpa using h.perm

theorem Traced.sign (h : Traced t cs) (hn : [tn.t1, tn.t2, tn.t3].Nodup) (p : ν → σ × ℕ) :
    opSign t (mergeOf tn t cs) p = directedSign t cs p := by
  have hg := h.gather hn
  unfold opSign directedSign
  split
  · rw [hg.opS, flatten_singletons, opM_trace hn, groupsOf_short _ (t.names.map fun n => [n]) _
      (by simp)]
    have e1 : (fun n => decide (n ∈ (mergeOf tn t cs).reversed) &&
        marked (mergeOf tn t cs).applyParity (mergeOf tn t cs).excludeReverse n) =
        fun _ => false := by
      funext n
      simp [mergeOf, traceArgs, marked]
    have e2 := prod_reverseOf_false (oddAt p) [cs.map Prod.fst, cs.map Prod.snd, freeOf t cs]
      (fun g n => flipped (opReversed t (mergeOf tn t cs)) g n &&
        marked (mergeOf tn t cs).applyParity (mergeOf tn t cs).excludeReverseMerge n) (by
      intro g n
      simp [mergeOf, traceArgs, marked])
    rw [e1, e2, reverseOf_false]
    simp only [List.nodup_cons, List.mem_cons, List.not_mem_nil, or_false, not_or] at hn
    have e3 : groupsOf (oddAt p) [cs.map Prod.fst, cs.map Prod.snd, freeOf t cs]
        ((mergeOf tn t cs).newNames.map (marked (mergeOf tn t cs).applyParity
          (mergeOf tn t cs).excludeMerge)) = reversalSign ((cs.map Prod.fst).map (oddAt p)) := by
      unfold groupsOf mergeOf traceArgs marked
      simp [Ne.symm hn.1.1, Ne.symm hn.1.2]
    rw [e3]
    have hd : ∀ x ∈ cs.map Prod.fst, x ∉ cs.map Prod.snd ++ freeOf t cs := by
      intro x hx hx'
      rcases List.mem_append.1 hx' with hx' | hx'
      · exact h.apart x hx hx'
      · exact (mem_freeOf.1 hx').2.1 hx
    have r1 := (List.reverse_perm (cs.map Prod.fst)).symm
    rw [← exchangeOf_mul (oddAt p) h.perm (r1.append_right _),
      exchangeOf_append _ r1 (List.Perm.refl _) hd, exchangeOf_refl, mul_one,
      exchangeOf_reverse _ h.pairs.nodup1]
    simp
  · rfl

/-- What is known of the merged tensor. -/
structure TraceView (t : Tensor ν σ α) (cs : List (ν × ν)) [Neg α] (E0 E1 E2 : Edge σ)
    (m : Tensor ν σ α) : Prop where
  wf : WF m
  edges : m.core.edges = [E0, E1, E2]
  keys : ∀ p, KeyOk (mapOf t) t.names p → (keyOf (cs.map Prod.fst) p).sum ∈ OMap.keys E0.map ∧
    (keyOf (cs.map Prod.snd) p).sum ∈ OMap.keys E1.map ∧
    (keyOf (freeOf t cs) p).sum ∈ OMap.keys E2.map
  dim0 : ∀ s ∈ OMap.keys E0.map, dimOf E0 s = mergedDim ((cs.map Prod.fst).map (mapOf t)) s
  dim1 : ∀ s ∈ OMap.keys E1.map, dimOf E1 s = mergedDim ((cs.map Prod.snd).map (mapOf t)) s
  dim2 : ∀ s ∈ OMap.keys E2.map, dimOf E2 s = mergedDim ((freeOf t cs).map (mapOf t)) s
  arrow : TatSym.isFermi σ = true → ∀ n ∈ freeOf t cs, arrowValid (edgeOf t n) = true →
    E2.arrow = false
  source : ∀ s ∈ OMap.keys E0.map, ∃ q : ν → σ × ℕ,
    (∀ n ∈ cs.map Prod.fst, (q n).1 ∈ OMap.keys (mapOf t n)) ∧ (keyOf (cs.map Prod.fst) q).sum = s
  source1 : ∀ s ∈ OMap.keys E1.map, ∃ q : ν → σ × ℕ,
    (∀ n ∈ cs.map Prod.snd, (q n).1 ∈ OMap.keys (mapOf t n)) ∧ (keyOf (cs.map Prod.snd) q).sum = s
  source2 : ∀ s ∈ OMap.keys E2.map, ∃ q : ν → σ × ℕ,
    (∀ n ∈ freeOf t cs, (q n).1 ∈ OMap.keys (mapOf t n)) ∧ (keyOf (freeOf t cs) q).sum = s
  elem : ∀ p, ValidPos t p →
    elemAt m.core [(keyOf (cs.map Prod.fst) p).sum, (keyOf (cs.map Prod.snd) p).sum,
        (keyOf (freeOf t cs) p).sum]
      [groupIdx (mapOf t) (cs.map Prod.fst) p, groupIdx (mapOf t) (cs.map Prod.snd) p,
        groupIdx (mapOf t) (freeOf t cs) p] =
    (elem t p).map (applySign (directedSign t cs p))

theorem freeReversed_false (h : WF t) (hf : TatSym.isFermi σ = true) {n : ν}
    (hn : n ∈ freeOf t cs) :
    (reversedEdge (reversedFree (freeOf t cs) t) (edgeOf t) n).arrow = false := by
  unfold reversedEdge
  rw [if_pos hf]
  unfold reverseOne
  have := mem_reversedFree h.shaped (free := freeOf t cs) (n := n)
  have hn' := (mem_freeOf.1 hn).1
  cases hb : (edgeOf t n).arrow
  · rw [if_neg (by rw [this, hb]; simp)]
    exact hb
  · rw [if_pos (by rw [this, hb]; exact ⟨hf, hn', hn, rfl⟩)]
    simp [hb]

theorem Traced.view [Neg α] [Zero α] (env : Env σ α) (h : Traced t cs)
    (hn : [tn.t1, tn.t2, tn.t3].Nodup) :
    ∃ m E0 E1 E2, edgeOperator env t (mergeOf tn t cs) = .ok m ∧ TraceView t cs E0 E1 E2 m := by
  have hg := h.gather hn
  obtain ⟨r, h1, h2, h3, h4, h5⟩ := gather_spec env hg
  have hM := opM_trace (t := t) (cs := cs) hn
  have hl : r.core.edges.length = 3 := by
    rw [h4, pruned_length, opEdges_length, ← opM_length, hM]; rfl
  have hE := hg.edgeAt env.garbage h4
  have hk := fun p hp => hg.coarse_keys env.garbage (p := p) hp
  have hpm : t.names.Perm (opM (mergeOf tn t cs)).flatten := hg.perm
  rw [← h4] at hk
  match hed : r.core.edges, hl with
  | [E0, E1, E2], _ =>
    have hkey : ∀ p, KeyOk (mapOf t) t.names p →
        (keyOf (cs.map Prod.fst) p).sum ∈ OMap.keys E0.map ∧
        (keyOf (cs.map Prod.snd) p).sum ∈ OMap.keys E1.map ∧
        (keyOf (freeOf t cs) p).sum ∈ OMap.keys E2.map := by
      intro p hp
      have := hk p (hp.perm hpm)
      rw [hed, hM] at this
      simpa only [coarseKey, List.map_cons, List.map_nil,
          List.forall₂_cons, List.forall₂_nil_right_iff, and_true] using this
    refine ⟨r, E0, E1, E2, h1, ⟨h3, hed, hkey, fun s hs => ?_, fun s hs => ?_, fun s hs => ?_,
      fun hf n hn' hv => ?_, fun s hs => ?_, fun s hs => ?_, fun s hs => ?_, fun p hp => ?_⟩⟩
    · have := (hE 0 (by simp [hed]) (by simp [hM])).1
      simp only [hed, hM] at this
      exact this s hs
    · have := (hE 1 (by simp [hed]) (by simp [hM])).1
      simp only [hed, hM] at this
      exact this s hs
    · have := (hE 2 (by simp [hed]) (by simp [hM])).1
      simp only [hed, hM] at this
      exact this s hs
    · have := (hE 2 (by simp [hed]) (by simp [hM])).2
      simp only [hed, hM] at this
      have e : opReversed t (mergeOf tn t cs) =
          reversedEdge (reversedFree (freeOf t cs) t) (edgeOf t) := by
        unfold opReversed
        rw [hg.opFine]; rfl
      change E2.arrow = (groupEdge (env.garbage 2) ((freeOf t cs).map
        (opReversed t (mergeOf tn t cs)))).arrow at this
      rw [this, e, (groupEdge_arrow (e := reversedEdge (reversedFree (freeOf t cs) t) (edgeOf t)) hf
        (g := freeOf t cs) (fun m hm m' hm' _ _ => by
          rw [freeReversed_false h.wf hf hm, freeReversed_false h.wf hf hm']) _ hn'
        (by rw [arrowValid_reversed]; exact hv)).2, freeReversed_false h.wf hf hn']
    · obtain ⟨q, q1, q2⟩ := hg.source env.garbage h4 0 (by simp [hed]) (by simp [hM]) (s := s)
        (by simpa [hed] using hs)
      simp only [hM, List.getElem_cons_zero] at q1 q2
      exact ⟨q, q1, q2⟩
    · obtain ⟨q, q1, q2⟩ := hg.source env.garbage h4 1 (by simp [hed]) (by simp [hM]) (s := s)
        (by simpa [hed] using hs)
      simp only [hM, List.getElem_cons_succ, List.getElem_cons_zero] at q1 q2
      exact ⟨q, q1, q2⟩
    · obtain ⟨q, q1, q2⟩ := hg.source env.garbage h4 2 (by simp [hed]) (by simp [hM]) (s := s)
        (by simpa [hed] using hs)
      simp only [hM, List.getElem_cons_succ, List.getElem_cons_zero] at q1 q2
      exact ⟨q, q1, q2⟩
    · have := h5 p hp
      rw [hM, h.sign hn] at this
      exact this

end

end TAT
