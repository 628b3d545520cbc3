import Verif.Contract.Elements

/-!
# Elements of the product and the final split
-/

set_option linter.unusedSectionVars false

namespace TAT

variable {ν σ α : Type} [LinearOrder ν] [TatSym σ]

/-- Everything known after both tensors were merged. -/
structure Merges [CommRing α] (t1 t2 : Tensor ν σ α) (cs : List (ν × ν)) (right1 right2 : Bool)
    (S1 S2 : (ν → σ × ℕ) → ℤ) (F1 C1 F2 C2 : Edge σ) (m1 m2 : Tensor ν σ α) : Prop where
  wf1 : Shaped t1
  wf2 : Shaped t2
  pairs : Pairs t1.names t2.names cs
  maps : ∀ c ∈ cs, ∀ s, OMap.find? (mapOf t1 c.1) s = OMap.find? (mapOf t2 c.2) (-s)
  aligned : Aligned t1 t2 cs
  view1 : TwoView t1 (others t1.names (cs.map Prod.fst)) (cs.map Prod.fst) right1 S1 F1 C1 m1
  view2 : TwoView t2 (others t2.names (cs.map Prod.snd)) (cs.map Prod.snd) right2 S2 F2 C2 m2
  isSign1 : ∀ p, IsSign (S1 p)
  isSign2 : ∀ p, IsSign (S2 p)
  signs : ∀ w1 w2, (keyOf t1.names w1).sum = 0 → (keyOf t2.names w2).sum = 0 →
    (∀ c ∈ cs, oddAt w1 c.1 = oddAt w2 c.2) →
    alphaSign right1 right2 (keyOf (others t1.names (cs.map Prod.fst)) w1).sum * (S1 w1 * S2 w2) =
      contractSign t1 t2 cs w1 w2

section
variable [CommRing α] {t1 t2 : Tensor ν σ α} {cs : List (ν × ν)} {right1 right2 : Bool}
  {S1 S2 : (ν → σ × ℕ) → ℤ} {F1 C1 F2 C2 : Edge σ} {m1 m2 : Tensor ν σ α}

theorem partner_key {cs : List (ν × ν)} {names1 names2 : List ν} (hp : Pairs names1 names2 cs)
    (p w : ν → σ × ℕ) :
    keyOf (others names2 (cs.map Prod.snd)) (partner cs p w) =
      keyOf (others names2 (cs.map Prod.snd)) p :=
  keyOf_congr fun _ hn => partner_free p w (mem_others.1 hn).2

theorem sum_split {names free common : List ν} (h : names.Perm (free ++ common)) (w : ν → σ × ℕ) :
    (keyOf names w).sum = (keyOf free w).sum + (keyOf common w).sum := by
  rw [← List.sum_append, ← keyOf_append]
  exact (h.map _).sum_eq

/-- A position of the first tensor and its partner in the second are valid together. -/
theorem Merges.fine2 (h : Merges t1 t2 cs right1 right2 S1 S2 F1 C1 F2 C2 m1 m2) {p w : ν → σ × ℕ}
    (hp : ∀ n ∈ others t2.names (cs.map Prod.snd), (p n).2 < dimM (mapOf t2 n) (p n).1)
    (hw : ∀ n ∈ cs.map Prod.fst, (w n).2 < dimM (mapOf t1 n) (w n).1)
    (h0 : (keyOf (others t2.names (cs.map Prod.snd)) p).sum = (keyOf (cs.map Prod.fst) w).sum) :
    FineOk (mapOf t2) t2.names (partner cs p w) := by
  refine ⟨fun n hn => ?_, ?_⟩
  · by_cases hc : n ∈ cs.map Prod.snd
    · obtain ⟨c, hcc, rfl⟩ := List.mem_map.1 hc
      rw [partner_common h.pairs.nodup2 p w hcc]
      dsimp only
      have := hw c.1 (List.mem_map_of_mem hcc)
      unfold dimM at this ⊢
      rwa [h.maps c hcc] at this
    · rw [partner_free p w hc]
      exact hp n (mem_others.2 ⟨hn, hc⟩)
  · rw [sum_split (h.pairs.split2 h.wf2.nodup), partner_sum h.pairs.nodup2,
      partner_key h.pairs, h0, add_neg_cancel]

theorem Merges.key2 (h : Merges t1 t2 cs right1 right2 S1 S2 F1 C1 F2 C2 m1 m2) {p w : ν → σ × ℕ}
    (hp : ∀ n ∈ others t2.names (cs.map Prod.snd), (p n).1 ∈ OMap.keys (mapOf t2 n))
    (hw : ∀ n ∈ cs.map Prod.fst, (w n).1 ∈ OMap.keys (mapOf t1 n))
    (h0 : (keyOf (others t2.names (cs.map Prod.snd)) p).sum = (keyOf (cs.map Prod.fst) w).sum) :
    KeyOk (mapOf t2) t2.names (partner cs p w) := by
  refine ⟨fun n hn => ?_, ?_⟩
  · by_cases hc : n ∈ cs.map Prod.snd
    · obtain ⟨c, hcc, rfl⟩ := List.mem_map.1 hc
      rw [partner_common h.pairs.nodup2 p w hcc]
      dsimp only
      have := hw c.1 (List.mem_map_of_mem hcc)
      rw [← OMap.find?_isSome] at this ⊢
      rwa [h.maps c hcc] at this
    · rw [partner_free p w hc]
      exact hp n (mem_others.2 ⟨hn, hc⟩)
  · rw [sum_split (h.pairs.split2 h.wf2.nodup), partner_sum h.pairs.nodup2,
      partner_key h.pairs, h0, add_neg_cancel]

/-- Where the product has an element it is the contracted one. -/
theorem Merges.element (h : Merges t1 t2 cs right1 right2 S1 S2 F1 C1 F2 C2 m1 m2)
    {p : ν → σ × ℕ}
    (hp1 : ∀ n ∈ others t1.names (cs.map Prod.fst), (p n).2 < dimM (mapOf t1 n) (p n).1)
    (hp2 : ∀ n ∈ others t2.names (cs.map Prod.snd), (p n).2 < dimM (mapOf t2 n) (p n).1)
    (h0 : (keyOf (others t1.names (cs.map Prod.fst)) p).sum +
      (keyOf (others t2.names (cs.map Prod.snd)) p).sum = 0)
    (hk1 : (keyOf (others t1.names (cs.map Prod.fst)) p).sum ∈ OMap.keys F1.map) :
    alphaOf right1 right2 (keyOf (others t1.names (cs.map Prod.fst)) p).sum *
      ((List.range (dimOf C1 (keyOf (others t2.names (cs.map Prod.snd)) p).sum)).map fun l =>
        (elemAt m1.core (pairOf right1 (keyOf (others t1.names (cs.map Prod.fst)) p).sum
          (keyOf (others t2.names (cs.map Prod.snd)) p).sum)
          (pairOf right1 (groupIdx (mapOf t1) (others t1.names (cs.map Prod.fst)) p) l)).getD 0 *
        (elemAt m2.core (pairOf right2 (keyOf (others t2.names (cs.map Prod.snd)) p).sum
          (keyOf (others t1.names (cs.map Prod.fst)) p).sum)
          (pairOf right2 (groupIdx (mapOf t2) (others t2.names (cs.map Prod.snd)) p) l)).getD 0).sum
      = contracted t1 t2 cs p := by
  set G1 := others t1.names (cs.map Prod.fst) with hG1
  set G2 := others t2.names (cs.map Prod.snd) with hG2
  have hs1 : ∀ n ∈ cs.map Prod.fst, OMap.Sorted (mapOf t1 n) := by
    intro n hn
    obtain ⟨c, hc, rfl⟩ := List.mem_map.1 hn
    exact mapOf_sorted' h.wf1 _ (h.pairs.sub1 c hc)
  have hkc : (keyOf G2 p).sum ∈ OMap.keys C1.map := by
    have := two_keys h.view1.wf h.view1.edges hk1
    rwa [neg_eq_of_add_eq_zero_right h0] at this
  have hd1 := h.pairs.split1 h.wf1.nodup
  have hd2 := h.pairs.split2 h.wf2.nodup
  rw [h.view1.dimC _ hkc, sum_group h.pairs.nodup1 hs1 _ _ p, sumOver_mul_left]
  unfold contracted
  refine sumOver_congr h.pairs.nodup1 fun w hw hwp => ?_
  have hwf : ∀ n ∈ cs.map Prod.fst, (w n).2 < dimM (mapOf t1 n) (w n).1 := fun n hn =>
    (mem_edgePositions (hs1 n hn)).1 (hw n hn)
  have hG : ∀ n ∈ G1, w n = p n := fun n hn => hwp n (mem_others.1 hn).2
  have hkG : keyOf G1 w = keyOf G1 p := keyOf_congr hG
  have hiG : groupIdx (mapOf t1) G1 w = groupIdx (mapOf t1) G1 p := groupIdx_congr hG
  have hsum := sum_split hd1 w
  rw [← hG1, hkG] at hsum
  split
  · rename_i hs
    have hv1 : ValidPos t1 w := by
      rw [validPos_iff' h.wf1]
      refine ⟨fun n hn => ?_, by rw [hsum, hs, h0]⟩
      by_cases hc : n ∈ cs.map Prod.fst
      · exact hwf n hc
      · rw [hwp n hc]
        exact hp1 n (mem_others.2 ⟨hn, hc⟩)
    have hv2 : ValidPos t2 (partner cs p w) :=
      (validPos_iff' h.wf2).2 (h.fine2 hp2 hwf hs.symm)
    have hko : (keyOf (cs.map Prod.snd) (partner cs p w)).sum = (keyOf G1 p).sum := by
      rw [partner_sum h.pairs.nodup2, hs]
      exact neg_eq_of_add_eq_zero_left h0
    have e1 := h.view1.elem w hv1
    have e2 := h.view2.elem _ hv2
    rw [← hG1, hkG, hs, hiG, amp_valid' h.wf1 hv1] at e1
    rw [← hG2, partner_key h.pairs, hko, ← h.aligned.2 w p,
      groupIdx_congr (fm := mapOf t2) (g := G2) fun n hn => partner_free p w (mem_others.1 hn).2,
      amp_valid' h.wf2 hv2] at e2
    rw [e1, e2]
    simp only [Option.map_some, Option.getD_some]
    have hs := h.signs w (partner cs p w) hv1.2 hv2.2 (by
      intro c hcc
      unfold oddAt
      rw [partner_common h.pairs.nodup2 p w hcc]
      exact (odd_neg _).symm)
    rw [← hG1, hkG] at hs
    rw [alphaOf_eq, applySign_smul (h.isSign1 _), applySign_smul (h.isSign2 _), ← hs,
      smul_mul_smul_comm, smul_smul]
  · rename_i hs
    rw [amp_zero' h.wf1 fun hv => hs ?_, zero_mul, smul_zero, mul_zero]
    have := hv.2
    rw [hsum] at this
    exact (neg_eq_of_add_eq_zero_right this).symm.trans (neg_eq_of_add_eq_zero_right h0)

/-- Where the product has no element the contracted one vanishes. -/
theorem Merges.outside (h : Merges t1 t2 cs right1 right2 S1 S2 F1 C1 F2 C2 m1 m2)
    {p : ν → σ × ℕ}
    (hk : ¬ ((keyOf (others t1.names (cs.map Prod.fst)) p).sum ∈ OMap.keys F1.map ∧
      (keyOf (others t2.names (cs.map Prod.snd)) p).sum ∈ OMap.keys F2.map)) :
    contracted t1 t2 cs p = 0 := by
  unfold contracted
  refine sumOver_zero h.pairs.nodup1 fun w hw hwp => ?_
  by_cases hv1 : ValidPos t1 w
  · by_cases hv2 : ValidPos t2 (partner cs p w)
    · exfalso
      refine hk ⟨?_, ?_⟩
      · have := (h.view1.keys w ((((validPos_iff' h.wf1).1 hv1).keyOk).perm
          (h.pairs.split1 h.wf1.nodup))).1
        rwa [keyOf_congr (q := p) fun n hn => hwp n (mem_others.1 hn).2] at this
      · have := (h.view2.keys _ ((((validPos_iff' h.wf2).1 hv2).keyOk).perm
          (h.pairs.split2 h.wf2.nodup))).1
        rwa [partner_key h.pairs] at this
    · rw [amp_zero' h.wf2 hv2, mul_zero, smul_zero]
  · rw [amp_zero' h.wf1 hv1, zero_mul, smul_zero]

end

/-! ## the final split -/

/-- The arguments of the final split. -/
def restoreArgs (cn : ContractNames ν) (t1 t2 : Tensor ν σ α) (free1 free2 : List ν) : EdgeArgs ν σ where
  split := OMap.ofList [(cn.c1, splitParts free1 t1), (cn.c2, splitParts free2 t2)]
  reversed := reversedFree free1 t1 ++ reversedFree free2 t2
  newNames := free1 ++ free2

section
variable {t1 t2 : Tensor ν σ α} {cn : ContractNames ν} {K1 K2 : List ν} {r : Tensor ν σ α}
  {F1 F2 : Edge σ}

theorem split_names (hr : r.names = [cn.c1, cn.c2]) :
    opNames r (restoreArgs cn t1 t2 (others t1.names K1) (others t2.names K2)) = [cn.c1, cn.c2] := by
  unfold opNames
  rw [hr]
  exact (List.map_congr_left fun n _ => renameOne_nil n).trans (List.map_id _)

theorem split_cut :
    opCut r (restoreArgs cn t1 t2 (others t1.names K1) (others t2.names K2)) = r.core.edges := rfl

theorem map_fst_parts (t : Tensor ν σ α) (A : List ν) :
    (A.map fun n => (n, mapOf t n)).map Prod.fst = A := by
  rw [List.map_map]; exact List.map_id _

theorem map_snd_parts (t : Tensor ν σ α) (A : List ν) :
    (A.map fun n => (n, mapOf t n)).map Prod.snd = A.map (mapOf t) := by
  rw [List.map_map]; rfl

theorem split_groups (h1 : Shaped t1) (h2 : Shaped t2) (hcn : cn.c1 ≠ cn.c2)
    (hr : r.names = [cn.c1, cn.c2]) :
    opS r (restoreArgs cn t1 t2 (others t1.names K1) (others t2.names K2)) =
      [others t1.names K1, others t2.names K2] := by
  unfold opS
  rw [split_names hr]
  obtain ⟨a, b⟩ := find_two hcn (splitParts (others t1.names K1) t1)
    (splitParts (others t2.names K2) t2)
  unfold splitGroups restoreArgs
  simp only [List.map_cons, List.map_nil, a, b]
  rw [splitParts_eq h1, splitParts_eq h2, map_fst_parts, map_fst_parts]

theorem split_fine (h1 : Shaped t1) (h2 : Shaped t2) (hcn : cn.c1 ≠ cn.c2)
    (hr : r.names = [cn.c1, cn.c2]) {E1 E2 : Edge σ} (he : r.core.edges = [E1, E2])
    (hn : (others t1.names K1 ++ others t2.names K2).Nodup) :
    (∀ n ∈ others t1.names K1,
      opFine r (restoreArgs cn t1 t2 (others t1.names K1) (others t2.names K2)) n =
        ⟨E1.arrow, mapOf t1 n⟩) ∧
    (∀ n ∈ others t2.names K2,
      opFine r (restoreArgs cn t1 t2 (others t1.names K1) (others t2.names K2)) n =
        ⟨E2.arrow, mapOf t2 n⟩) := by
  have hE : fineEdges (restoreArgs cn t1 t2 (others t1.names K1) (others t2.names K2)).split
      ([cn.c1, cn.c2].zip r.core.edges) =
      (others t1.names K1).map (fun n => (n, (⟨E1.arrow, mapOf t1 n⟩ : Edge σ))) ++
      (others t2.names K2).map fun n => (n, (⟨E2.arrow, mapOf t2 n⟩ : Edge σ)) := by
    obtain ⟨a, b⟩ := find_two hcn (splitParts (others t1.names K1) t1)
      (splitParts (others t2.names K2) t2)
    rw [he]
    unfold fineEdges restoreArgs
    simp only [List.zip_cons_cons, List.zip_nil_left, List.flatMap_cons, List.flatMap_nil, a, b,
      List.append_nil]
    rw [splitParts_eq h1, splitParts_eq h2, List.map_map, List.map_map]
    rfl
  have hf : ((fineEdges (restoreArgs cn t1 t2 (others t1.names K1) (others t2.names K2)).split
      ([cn.c1, cn.c2].zip r.core.edges)).map Prod.fst).Nodup := by
    rw [hE, List.map_append, List.map_map, List.map_map]
    have : ∀ A : List ν, ∀ f : ν → Edge σ, A.map (Prod.fst ∘ fun n => (n, f n)) = A :=
      fun A f => List.map_id _
    rw [this _ fun n => ⟨E1.arrow, mapOf t1 n⟩, this _ fun n => ⟨E2.arrow, mapOf t2 n⟩]
    exact hn
  unfold opFine
  rw [split_names hr, split_cut]
  constructor
  · intro n hn
    exact edgeNamed_of_mem hf (x := (n, ⟨E1.arrow, mapOf t1 n⟩)) (by
      rw [hE]; exact List.mem_append_left _ (List.mem_map.2 ⟨n, hn, rfl⟩))
  · intro n hn
    exact edgeNamed_of_mem hf (x := (n, ⟨E2.arrow, mapOf t2 n⟩)) (by
      rw [hE]; exact List.mem_append_right _ (List.mem_map.2 ⟨n, hn, rfl⟩))

theorem split_opM :
    opM (restoreArgs cn t1 t2 (others t1.names K1) (others t2.names K2) : EdgeArgs ν σ) =
      (others t1.names K1 ++ others t2.names K2).map fun n => [n] := opM_noMerge rfl

theorem split_sign (h1 : Shaped t1) (h2 : Shaped t2) (hcn : cn.c1 ≠ cn.c2)
    (hr : r.names = [cn.c1, cn.c2]) (p : ν → σ × ℕ) :
    opSign r (restoreArgs cn t1 t2 (others t1.names K1) (others t2.names K2)) p = 1 := by
  unfold opSign
  split
  · rw [split_groups h1 h2 hcn hr, split_opM, flatten_singletons,
      groupsOf_short _ (List.map _ _) _ (by
        intro g hg
        obtain ⟨n, _, rfl⟩ := List.mem_map.1 hg
        simp)]
    have e1 : (fun n => decide (n ∈ (restoreArgs cn t1 t2 (others t1.names K1)
          (others t2.names K2) : EdgeArgs ν σ).reversed) &&
        marked (restoreArgs cn t1 t2 (others t1.names K1) (others t2.names K2) :
          EdgeArgs ν σ).applyParity
          (restoreArgs cn t1 t2 (others t1.names K1) (others t2.names K2) :
            EdgeArgs ν σ).excludeReverse n) = fun _ => false := by
      funext n
      simp [restoreArgs, marked]
    have e2 := prod_reverseOf_false (oddAt p) ((others t1.names K1 ++ others t2.names K2).map
      fun n => [n]) (fun g n => flipped (opReversed r (restoreArgs cn t1 t2 (others t1.names K1)
        (others t2.names K2))) g n && marked (restoreArgs cn t1 t2 (others t1.names K1)
        (others t2.names K2) : EdgeArgs ν σ).applyParity
        (restoreArgs cn t1 t2 (others t1.names K1) (others t2.names K2) :
          EdgeArgs ν σ).excludeReverseMerge n) (by
      intro g n
      simp [restoreArgs, marked])
    rw [e1, e2, reverseOf_false, split_names hr]
    have e3 : groupsOf (oddAt p) [others t1.names K1, others t2.names K2]
        ([cn.c1, cn.c2].map (marked (restoreArgs cn t1 t2 (others t1.names K1) (others t2.names K2) :
          EdgeArgs ν σ).applyParity (restoreArgs cn t1 t2 (others t1.names K1) (others t2.names K2) :
            EdgeArgs ν σ).excludeSplit)) = 1 := by
      unfold groupsOf restoreArgs marked
      simp
    rw [e3]
    have e4 : [others t1.names K1, others t2.names K2].flatten =
        others t1.names K1 ++ others t2.names K2 := by simp
    rw [e4, exchangeOf_refl]
    simp
  · rfl

end

end TAT
