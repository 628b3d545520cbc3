import Verif.EdgeOp.Locate

/-!
# The main copy loop
-/

namespace TAT

variable {ν σ α : Type}

section fine
variable [TatSym σ]

/-- Dimensions of the fine edges at the symmetries of a position. -/
def fineDims (fm : ν → List (σ × ℕ)) (names : List ν) (p : ν → σ × ℕ) : List ℕ :=
  names.map fun n => dimM (fm n) (p n).1

theorem dimM_pos {m : List (σ × ℕ)} {s : σ} (h : 0 < dimM m s) : s ∈ OMap.keys m := by
  unfold dimM at h
  rw [← OMap.find?_isSome]
  cases hf : OMap.find? m s with
  | none => simp [hf] at h
  | some _ => rfl

theorem FineOk.keyOk {fm : ν → List (σ × ℕ)} {names : List ν} {p : ν → σ × ℕ}
    (h : FineOk fm names p) : KeyOk fm names p :=
  ⟨fun n hn => dimM_pos (lt_of_le_of_lt (Nat.zero_le _) (h.1 n hn)), h.2⟩

theorem FineOk.inBox {fm : ν → List (σ × ℕ)} {names : List ν} {p : ν → σ × ℕ}
    (h : ∀ n ∈ names, (p n).2 < dimM (fm n) (p n).1) :
    InBox (fineDims fm names p) (idxOf names p) := by
  unfold InBox fineDims idxOf
  rw [forall2_map_self]
  exact h

theorem zipWith_dimM (fm : ν → List (σ × ℕ)) (g : List ν) (p : ν → σ × ℕ) :
    List.zipWith dimM (g.map fm) (keyOf g p) = fineDims fm g p := by
  unfold keyOf fineDims
  rw [List.zipWith_map, List.zipWith_self]

theorem groupIdx_eq (fm : ν → List (σ × ℕ)) (g : List ν) (p : ν → σ × ℕ) :
    groupIdx fm g p = mergeOffset (g.map fm) (keyOf g p) +
      rowMajor (List.zipWith dimM (g.map fm) (keyOf g p)) (idxOf g p) := by
  rw [zipWith_dimM]; rfl

theorem group_keys {fm : ν → List (σ × ℕ)} {g : List ν} {p : ν → σ × ℕ}
    (h : ∀ n ∈ g, (p n).1 ∈ OMap.keys (fm n)) :
    List.Forall₂ (fun m s => s ∈ OMap.keys m) (g.map fm) (keyOf g p) := by
  unfold keyOf
  rw [forall2_map_self]; exact h

theorem groupIdx_lt {fm : ν → List (σ × ℕ)} {g : List ν} (hs : ∀ n ∈ g, OMap.Sorted (fm n))
    {p : ν → σ × ℕ} (h : ∀ n ∈ g, (p n).2 < dimM (fm n) (p n).1) :
    groupIdx fm g p < mergedDim (g.map fm) (keyOf g p).sum := by
  rw [groupIdx_eq]
  refine group_lt ?_ (group_keys fun n hn => dimM_pos (lt_of_le_of_lt (Nat.zero_le _) (h n hn))) ?_
  · intro m hm
    obtain ⟨n, hn, rfl⟩ := List.mem_map.1 hm
    exact hs n hn
  · rw [zipWith_dimM]; exact FineOk.inBox h

theorem groupIdx_inj {fm : ν → List (σ × ℕ)} {g : List ν} (hs : ∀ n ∈ g, OMap.Sorted (fm n))
    {p q : ν → σ × ℕ} (hp : ∀ n ∈ g, (p n).2 < dimM (fm n) (p n).1)
    (hq : ∀ n ∈ g, (q n).2 < dimM (fm n) (q n).1) (hk : (keyOf g p).sum = (keyOf g q).sum)
    (hi : groupIdx fm g p = groupIdx fm g q) : ∀ n ∈ g, p n = q n := by
  rw [groupIdx_eq, groupIdx_eq] at hi
  have hs' : ∀ m ∈ g.map fm, OMap.Sorted m := by
    intro m hm
    obtain ⟨n, hn, rfl⟩ := List.mem_map.1 hm
    exact hs n hn
  obtain ⟨e1, e2⟩ := group_inj hs'
    (group_keys fun n hn => dimM_pos (lt_of_le_of_lt (Nat.zero_le _) (hp n hn)))
    (group_keys fun n hn => dimM_pos (lt_of_le_of_lt (Nat.zero_le _) (hq n hn)))
    (by rw [zipWith_dimM]; exact FineOk.inBox hp) (by rw [zipWith_dimM]; exact FineOk.inBox hq) hk hi
  intro n hn
  refine Prod.ext ?_ ?_
  · exact List.map_inj_left.1 e1 n hn
  · exact List.map_inj_left.1 e2 n hn

/-- Coarse position determines the fine position. -/
theorem coarse_inj {fm : ν → List (σ × ℕ)} {groups : List (List ν)}
    (hs : ∀ n ∈ groups.flatten, OMap.Sorted (fm n)) {p q : ν → σ × ℕ}
    (hp : ∀ n ∈ groups.flatten, (p n).2 < dimM (fm n) (p n).1)
    (hq : ∀ n ∈ groups.flatten, (q n).2 < dimM (fm n) (q n).1)
    (hk : coarseKey groups p = coarseKey groups q)
    (hi : coarseIdx fm groups p = coarseIdx fm groups q) : ∀ n ∈ groups.flatten, p n = q n := by
  intro n hn
  obtain ⟨g, hg, hng⟩ := List.mem_flatten.1 hn
  have sub : ∀ m ∈ g, m ∈ groups.flatten := fun m hm => List.mem_flatten.2 ⟨g, hg, hm⟩
  exact groupIdx_inj (fun m hm => hs m (sub m hm)) (fun m hm => hp m (sub m hm))
    (fun m hm => hq m (sub m hm)) (List.map_inj_left.1 hk g hg) (List.map_inj_left.1 hi g hg) n hng

theorem coarseIdx_zip (fm : ν → List (σ × ℕ)) (groups : List (List ν)) (p : ν → σ × ℕ) :
    List.zipWith (· + ·) (startOf fm groups p) (List.zipWith rowMajor
      (groups.map fun g => fineDims fm g p) (groups.map fun g => idxOf g p)) =
      coarseIdx fm groups p := by
  unfold startOf coarseIdx
  rw [List.zipWith_map, List.zipWith_self, List.zipWith_map, List.zipWith_self]
  rfl

theorem coarseKey_sum (groups : List (List ν)) (p : ν → σ × ℕ) :
    (coarseKey groups p).sum = (keyOf groups.flatten p).sum := by
  unfold coarseKey keyOf
  rw [List.map_flatten, List.sum_flatten, List.map_map]
  rfl

/-- Addresses computed by the copy loop. -/
theorem address_fine (fm : ν → List (σ × ℕ)) (groups : List (List ν)) (p q : ν → σ × ℕ)
    (hpq : ∀ n ∈ groups.flatten, (p n).1 = (q n).1) (D : List ℕ) (hD : D.length = groups.length) :
    horner D (startOf fm groups p) + dot (idxOf groups.flatten q)
      (fineLeadings (leadingsOf D) ((flagsOf groups).zip (fineDims fm groups.flatten p))) =
      rowMajor D (coarseIdx fm groups q) := by
  have hg : ∀ g ∈ groups, keyOf g p = keyOf g q := by
    intro g hg
    exact List.map_congr_left fun n hn => hpq n (List.mem_flatten.2 ⟨g, hg, hn⟩)
  have e1 : startOf fm groups p = startOf fm groups q := by
    refine List.map_congr_left fun g h => ?_
    rw [hg g h]
  have e2 : fineDims fm groups.flatten p = fineDims fm groups.flatten q := by
    refine List.map_congr_left fun n h => ?_
    rw [hpq n h]
  rw [e1, e2, ← coarseIdx_zip]
  have e3 : fineDims fm groups.flatten q = (groups.map fun g => fineDims fm g q).flatten := by
    unfold fineDims; rw [List.map_flatten]
  have e4 : idxOf groups.flatten q = (groups.map fun g => idxOf g q).flatten := by
    unfold idxOf; rw [List.map_flatten]
  have e5 : flagsOf groups = flagsOf (groups.map fun g => fineDims fm g q) :=
    (flagsOf_map (fun n => dimM (fm n) (q n).1) groups).symm
  rw [e3, e4, e5]
  refine offset_eq D _ _ _ (by simpa using hD) (by simp [startOf]) ?_
  rw [forall2_map_self]
  intro g _
  simp [fineDims, idxOf]

theorem lookupDims_eq {edges : List (Edge σ)} {key : List σ}
    (h : List.Forall₂ (fun e s => s ∈ OMap.keys e.map) edges key) :
    lookupDims edges key = .ok (dimsOf edges key) := by
  induction h with
  | nil => rfl
  | @cons e s es ss h1 h2 ih =>
    rw [lookupDims]
    obtain ⟨d, hd⟩ := Option.isSome_iff_exists.1 (OMap.find?_isSome.2 h1)
    rw [hd, ih]
    simp only [Outcome.bind, dimsOf, List.zipWith_cons_cons, dimOf, hd, Option.getD_some]

theorem dimsOf_maps (edges : List (Edge σ)) (names : List ν) (fm : ν → List (σ × ℕ))
    (h : edges.map Edge.map = names.map fm) (p : ν → σ × ℕ) :
    dimsOf edges (keyOf names p) = fineDims fm names p := by
  rw [← zipWith_dimM, ← h, List.zipWith_map_left]
  rfl

theorem keys_maps (edges : List (Edge σ)) (names : List ν) (fm : ν → List (σ × ℕ))
    (h : edges.map Edge.map = names.map fm) {p : ν → σ × ℕ}
    (hp : ∀ n ∈ names, (p n).1 ∈ OMap.keys (fm n)) :
    List.Forall₂ (fun e s => s ∈ OMap.keys e.map) edges (keyOf names p) := by
  have := group_keys hp
  rw [← h, List.forall₂_map_left_iff] at this
  exact this

end fine

theorem forall2_imp_mem {β γ : Type} {R R' : β → γ → Prop} {l : List β} {l' : List γ}
    (h : List.Forall₂ R l l') (hi : ∀ a b, b ∈ l' → R a b → R' a b) : List.Forall₂ R' l l' := by
  induction h with
  | nil => exact .nil
  | cons h1 _ ih => exact .cons (hi _ _ (by simp) h1) (ih fun a b hb => hi a b (by simp [hb]))

/-- Everything `edge_operator` has established before the main copy loop: `S` are the groups of fine
names on the source side, `M` those on the destination side. -/
structure CopyOk [LinearOrder ν] [TatSym σ] (fm : ν → List (σ × ℕ)) (S M : List (List ν))
    (ok : (ν → σ × ℕ) → Prop) (plan : CopyPlan σ α) : Prop where
  nodup : S.flatten.Nodup
  perm : S.flatten.Perm M.flatten
  sorted : ∀ n ∈ S.flatten, OMap.Sorted (fm n)
  edgesBefore : plan.edgesBefore.map Edge.map = S.flatten.map fm
  s2d : plan.s2d = S.flatten.map fun n => M.flatten.idxOf n
  d2s : plan.d2s = M.flatten.map fun n => S.flatten.idxOf n
  splitFlag : plan.splitFlag = flagsOf S
  mergeFlag : plan.mergeFlag = flagsOf M
  dest : IsTable fm M (fun _ => True) plan.destination
  sourceBlock : ∀ p, KeyOk fm S.flatten p → ok p → ∃ data,
    OMap.find? plan.source.blocks (coarseKey S p) = some data ∧
    data.length = (dimsOf plan.source.edges (coarseKey S p)).prod
  sourceKeys : ∀ p, KeyOk fm S.flatten p → ok p →
    List.Forall₂ (fun e s => s ∈ OMap.keys e.map) plan.source.edges (coarseKey S p)
  sourceDims : ∀ p, KeyOk fm S.flatten p → ok p →
    List.Forall₂ (fun e g => mergedDim (g.map fm) (keyOf g p).sum ≤ dimOf e (keyOf g p).sum)
      plan.source.edges S
  destKeys : ∀ p, KeyOk fm M.flatten p →
    List.Forall₂ (fun e s => s ∈ OMap.keys e.map) plan.edgesAfter (coarseKey M p)
  destDims : ∀ p, KeyOk fm M.flatten p →
    List.Forall₂ (fun e g => mergedDim (g.map fm) (keyOf g p).sum ≤ dimOf e (keyOf g p).sum)
      plan.edgesAfter M
  okCongr : ∀ p q, keyOf S.flatten p = keyOf S.flatten q → ok p → ok q

section copy
variable [LinearOrder ν] [TatSym σ]

theorem coarse_inBox {fm : ν → List (σ × ℕ)} {groups : List (List ν)} {edges : List (Edge σ)}
    (hs : ∀ n ∈ groups.flatten, OMap.Sorted (fm n)) {q : ν → σ × ℕ}
    (hq : ∀ n ∈ groups.flatten, (q n).2 < dimM (fm n) (q n).1)
    (hd : List.Forall₂ (fun e g => mergedDim (g.map fm) (keyOf g q).sum ≤ dimOf e (keyOf g q).sum)
      edges groups) :
    InBox (dimsOf edges (coarseKey groups q)) (coarseIdx fm groups q) := by
  induction hd with
  | nil => exact .nil
  | @cons e g es gs h1 h2 ih =>
    refine .cons ?_ (ih (fun n hn => hs n (by simp only [List.flatten_cons, List.mem_append]; exact Or.inr hn))
      (fun n hn => hq n (by simp only [List.flatten_cons, List.mem_append]; exact Or.inr hn)))
    refine lt_of_lt_of_le (groupIdx_lt (fun n hn => hs n ?_) (fun n hn => hq n ?_)) h1
    · simp [hn]
    · simp [hn]

/-- One step of the copy loop. -/
theorem copyBlock_step [Neg α] {fm : ν → List (σ × ℕ)} {S M : List (List ν)}
    {ok : (ν → σ × ℕ) → Prop} {plan : CopyPlan σ α} (hc : CopyOk fm S M ok plan) (pf : Platform)
    {blocks : List (List σ × List α)} (hbs : OMap.Sorted blocks)
    (hb : ∀ p, KeyOk fm M.flatten p → ∃ data, OMap.find? blocks (coarseKey M p) = some data ∧
      data.length = (dimsOf plan.edgesAfter (coarseKey M p)).prod)
    {p : ν → σ × ℕ} (hp : KeyOk fm S.flatten p) (hok : ok p) :
    ∃ blocks', copyBlock pf plan blocks
        (keyOf S.flatten p, (coarseKey S p, startOf fm S p)) = .ok blocks' ∧
      blocks'.map (fun b => (b.1, b.2.length)) = blocks.map (fun b => (b.1, b.2.length)) ∧
      OMap.Sorted blocks' ∧
      (∀ q, FineOk fm S.flatten q → keyOf S.flatten q = keyOf S.flatten p →
        elemAt ⟨plan.edgesAfter, blocks'⟩ (coarseKey M q) (coarseIdx fm M q) =
          (elemAt plan.source (coarseKey S q) (coarseIdx fm S q)).map
            (signed (blockParity plan (keyOf S.flatten q) (keyOf M.flatten q)))) ∧
      (∀ q, FineOk fm S.flatten q → keyOf S.flatten q ≠ keyOf S.flatten p →
        elemAt ⟨plan.edgesAfter, blocks'⟩ (coarseKey M q) (coarseIdx fm M q) =
          elemAt ⟨plan.edgesAfter, blocks⟩ (coarseKey M q) (coarseIdx fm M q)) := by
  have hA := hc.nodup
  have hB : M.flatten.Nodup := hc.perm.nodup_iff.1 hA
  have hmem : ∀ n, n ∈ S.flatten ↔ n ∈ M.flatten := fun n => hc.perm.mem_iff
  have keyM : ∀ q, KeyOk fm S.flatten q → KeyOk fm M.flatten q := by
    intro q hq
    refine ⟨fun n hn => hq.1 n ((hmem n).2 hn), ?_⟩
    rw [← hq.2]
    exact ((hc.perm.map _).sum_eq).symm
  have hpM := keyM p hp
  have hsortM : ∀ n ∈ M.flatten, OMap.Sorted (fm n) := fun n hn => hc.sorted n ((hmem n).2 hn)
  obtain ⟨src, hsrc1, hsrc2⟩ := hc.sourceBlock p hp hok
  obtain ⟨dst, hdst1, hdst2⟩ := hb p hpM
  have hdimS := hc.sourceDims p hp hok
  have hdimD := hc.destDims p hpM
  -- the arguments of the kernel
  have hlenS : (dimsOf plan.source.edges (coarseKey S p)).length = S.length := by
    simp [dimsOf, coarseKey, hdimS.length_eq]
  have hlenD : (dimsOf plan.edgesAfter (coarseKey M p)).length = M.length := by
    simp [dimsOf, coarseKey, hdimD.length_eq]
  have hfl : ∀ (C : List ℕ) (xs : List (ℕ × ℕ)), (fineLeadings C xs).length = xs.length := by
    intro C xs
    induction xs with
    | nil => rfl
    | cons x xs ih =>
      cases xs with
      | nil => rfl
      | cons y ys => rw [fineLeadings, List.length_cons, ih, List.length_cons (a := x)]
  let a : TransposeArgs := {
    s2d := S.flatten.map fun n => M.flatten.idxOf n
    d2s := M.flatten.map fun n => S.flatten.idxOf n
    dimsS := fineDims fm S.flatten p
    dimsD := fineDims fm M.flatten p
    leadS := fineLeadings (leadingsOf (dimsOf plan.source.edges (coarseKey S p)))
      ((flagsOf S).zip (fineDims fm S.flatten p))
    leadD := fineLeadings (leadingsOf (dimsOf plan.edgesAfter (coarseKey M p)))
      ((flagsOf M).zip (fineDims fm M.flatten p))
    rank := (S.flatten.map fun n => M.flatten.idxOf n).length }
  have hlenLS : a.leadS.length = S.flatten.length := by
    change (fineLeadings _ _).length = _
    rw [hfl, List.length_zip, flagsOf, flagsFrom_length, fineDims, List.length_map, Nat.min_self]
  have hlenLD : a.leadD.length = M.flatten.length := by
    change (fineLeadings _ _).length = _
    rw [hfl, List.length_zip, flagsOf, flagsFrom_length, fineDims, List.length_map, Nat.min_self]
  have ha : a.Ok := planArgs_ok hA hB hc.perm (fun n => dimM (fm n) (p n).1) a.leadS a.leadD
    hlenLS hlenLD
  -- index tuples of the kernel are fine positions
  have hpos : ∀ idx, InBox a.dimsD idx → ∃ q : ν → σ × ℕ,
      (∀ n ∈ S.flatten, (q n).1 = (p n).1) ∧ (∀ n ∈ S.flatten, (q n).2 < dimM (fm n) (q n).1) ∧
      idxOf M.flatten q = idx := by
    intro idx hi
    have hl : M.flatten.length = idx.length := by
      have := hi.length
      change (fineDims fm M.flatten p).length = _ at this
      simpa only [fineDims, List.length_map] using this
    refine ⟨fun n => ((p n).1, idx.getD (M.flatten.idxOf n) 0), fun _ _ => rfl, ?_, ?_⟩
    · intro n hn
      have hi' := ((inBox_iff).1 hi).2 (M.flatten.idxOf n) (by
        change _ < (fineDims fm M.flatten p).length
        rw [fineDims, List.length_map]
        exact List.idxOf_lt_length_iff.2 ((hmem n).1 hn))
      change _ < (fineDims fm M.flatten p).getD _ 0 at hi'
      rw [fineDims, getD_map_idxOf (fun n => dimM (fm n) (p n).1) 0 ((hmem n).1 hn)] at hi'
      exact hi'
    · unfold idxOf
      apply List.ext_getElem
      · simp only [List.length_map]; exact hl
      · intro i h1 h2
        simp only [List.getElem_map]
        rw [hB.idxOf_getElem i (by omega), List.getD_eq_getElem _ _ h2]
  have hsrcIdx : ∀ q : ν → σ × ℕ, srcIndex a (idxOf M.flatten q) = idxOf S.flatten q := by
    intro q
    unfold srcIndex
    change (List.range (S.flatten.map fun n => M.flatten.idxOf n).length).map _ = _
    rw [List.length_map]
    apply List.ext_getElem
    · simp only [idxOf, List.length_map, List.length_range]
    · intro i h1 h2
      simp only [List.getElem_map, List.getElem_range]
      change (idxOf M.flatten q).getD ((S.flatten.map fun n => M.flatten.idxOf n).getD i 0) 0 = _
      have hi : i < S.flatten.length := by simpa only [idxOf, List.length_map] using h2
      have e1 : (S.flatten.map fun n => M.flatten.idxOf n).getD i 0 = M.flatten.idxOf S.flatten[i] := by
        rw [List.getD_eq_getElem _ _ (by rw [List.length_map]; exact hi), List.getElem_map]
      rw [e1]
      simp only [idxOf]
      rw [getD_map_idxOf (fun n => (q n).2) 0 ((hmem _).1 (List.getElem_mem hi)), List.getElem_map]
  -- facts about a fine position with the symmetries of `p`
  have facts : ∀ q : ν → σ × ℕ, (∀ n ∈ S.flatten, (q n).1 = (p n).1) →
      coarseKey S q = coarseKey S p ∧ coarseKey M q = coarseKey M p ∧
      horner (dimsOf plan.source.edges (coarseKey S p)) (startOf fm S p) +
        dot (idxOf M.flatten q) a.leadSByDst =
        rowMajor (dimsOf plan.source.edges (coarseKey S p)) (coarseIdx fm S q) ∧
      horner (dimsOf plan.edgesAfter (coarseKey M p)) (startOf fm M p) +
        dot (idxOf M.flatten q) a.leadD =
        rowMajor (dimsOf plan.edgesAfter (coarseKey M p)) (coarseIdx fm M q) := by
    intro q hq
    have hqM : ∀ n ∈ M.flatten, (q n).1 = (p n).1 := fun n hn => hq n ((hmem n).2 hn)
    refine ⟨?_, ?_, ?_, ?_⟩
    · refine List.map_congr_left fun g hg => ?_
      congr 1
      exact List.map_congr_left fun n hn => hq n (List.mem_flatten.2 ⟨g, hg, hn⟩)
    · refine List.map_congr_left fun g hg => ?_
      congr 1
      exact List.map_congr_left fun n hn => hqM n (List.mem_flatten.2 ⟨g, hg, hn⟩)
    · rw [dot_srcIndex ha (by simp only [idxOf, List.length_map, a]; exact hc.perm.length_eq.symm), hsrcIdx]
      exact address_fine fm S p q (fun n hn => (hq n hn).symm) _ hlenS
    · exact address_fine fm M p q (fun n hn => (hqM n hn).symm) _ hlenD
  have boxS : ∀ q : ν → σ × ℕ, (∀ n ∈ S.flatten, (q n).1 = (p n).1) →
      (∀ n ∈ S.flatten, (q n).2 < dimM (fm n) (q n).1) →
      InBox (dimsOf plan.source.edges (coarseKey S p)) (coarseIdx fm S q) := by
    intro q hq1 hq2
    rw [← (facts q hq1).1]
    refine coarse_inBox hc.sorted hq2 ?_
    have : ∀ g ∈ S, keyOf g q = keyOf g p := fun g hg =>
      List.map_congr_left fun n hn => hq1 n (List.mem_flatten.2 ⟨g, hg, hn⟩)
    refine forall2_imp_mem hdimS fun e g hg h => ?_
    rw [this g hg]; exact h
  have boxD : ∀ q : ν → σ × ℕ, (∀ n ∈ S.flatten, (q n).1 = (p n).1) →
      (∀ n ∈ S.flatten, (q n).2 < dimM (fm n) (q n).1) →
      InBox (dimsOf plan.edgesAfter (coarseKey M p)) (coarseIdx fm M q) := by
    intro q hq1 hq2
    rw [← (facts q hq1).2.1]
    refine coarse_inBox hsortM (fun n hn => hq2 n ((hmem n).2 hn)) ?_
    have : ∀ g ∈ M, keyOf g q = keyOf g p := fun g hg =>
      List.map_congr_left fun n hn => hq1 n ((hmem n).2 (List.mem_flatten.2 ⟨g, hg, hn⟩))
    refine forall2_imp_mem hdimD fun e g hg h => ?_
    rw [this g hg]; exact h
  have hfits : Fits a.dimsD a.leadSByDst a.leadD src
      (horner (dimsOf plan.source.edges (coarseKey S p)) (startOf fm S p)) dst
      (horner (dimsOf plan.edgesAfter (coarseKey M p)) (startOf fm M p)) := by
    refine ⟨?_, ?_, ?_, ?_, ?_⟩
    · rw [leadSByDst_length]; exact ha.dimsDLen.symm
    · rw [ha.leadDLen]; exact ha.dimsDLen.symm
    · intro idx hi
      obtain ⟨q, h1, h2, rfl⟩ := hpos idx hi
      rw [(facts q h1).2.2.1, hsrc2]
      exact rowMajor_lt (boxS q h1 h2)
    · intro idx hi
      obtain ⟨q, h1, h2, rfl⟩ := hpos idx hi
      rw [(facts q h1).2.2.2, hdst2]
      exact rowMajor_lt (boxD q h1 h2)
    · intro idx idx' hi hi' he
      obtain ⟨q, h1, h2, rfl⟩ := hpos idx hi
      obtain ⟨q', h1', h2', rfl⟩ := hpos idx' hi'
      have e := congrArg (fun x => horner (dimsOf plan.edgesAfter (coarseKey M p)) (startOf fm M p) + x) he
      rw [(facts q h1).2.2.2, (facts q' h1').2.2.2] at e
      have e2 := rowMajor_inj (boxD q h1 h2) (boxD q' h1' h2') e
      have e3 := coarse_inj hsortM (fun n hn => h2 n ((hmem n).2 hn))
        (fun n hn => h2' n ((hmem n).2 hn)) ((facts q h1).2.1.trans (facts q' h1').2.1.symm) e2
      have : idxOf M.flatten q = idxOf M.flatten q' :=
        List.map_congr_left fun n hn => by rw [e3 n hn]
      rw [this]
  obtain ⟨dst', hm1, hm2⟩ := C14_transpose_moves pf
    (blockParity plan (keyOf S.flatten p) (keyOf M.flatten p)) ha hfits
  -- run the body
  have hrun : copyBlock pf plan blocks (keyOf S.flatten p, (coarseKey S p, startOf fm S p)) =
      .ok (OMap.set blocks (coarseKey M p) dst') := by
    unfold copyBlock
    dsimp only
    rw [lookupDims_eq (keys_maps _ _ fm hc.edgesBefore hp.1),
      dimsOf_maps _ _ fm hc.edgesBefore]
    dsimp only [Outcome.bind]
    have es : scatter 0 plan.s2d (keyOf S.flatten p) = keyOf M.flatten p := by
      rw [hc.s2d]; exact scatter_perm (fun n => (p n).1) 0 hA hB hc.perm
    have ed : scatter 0 plan.s2d (fineDims fm S.flatten p) = fineDims fm M.flatten p := by
      rw [hc.s2d]; exact scatter_perm (fun n => dimM (fm n) (p n).1) 0 hA hB hc.perm
    rw [es, ed, hc.dest.find p hpM trivial]
    dsimp only
    rw [hsrc1]
    dsimp only
    rw [hdst1]
    dsimp only
    rw [lookupDims_eq (hc.sourceKeys p hp hok), lookupDims_eq (hc.destKeys p hpM)]
    dsimp only [Outcome.bind]
    have eprod : (fineDims fm S.flatten p).prod = a.dimsD.prod := (hc.perm.map _).prod_eq
    rw [eprod, hc.s2d, hc.d2s, hc.splitFlag, hc.mergeFlag]
    change Outcome.bind (doTranspose pf src _ dst _ a a.dimsD.prod _) _ = _
    rw [hm1]
    rfl
  have hnew : ∀ k : List σ, k ≠ coarseKey M p →
      OMap.find? (OMap.set blocks (coarseKey M p) dst') k = OMap.find? blocks k := by
    intro k hk
    rw [OMap.find?_set, if_neg hk]
  refine ⟨_, hrun, set_shapes hbs hdst1 hm2.length, hbs.set _ _, ?_, ?_⟩
  · intro q hq hkq
    have h1 : ∀ n ∈ S.flatten, (q n).1 = (p n).1 := List.map_inj_left.1 hkq
    obtain ⟨f1, f2, f3, f4⟩ := facts q h1
    unfold elemAt
    dsimp only
    rw [f1, f2, OMap.find?_set, if_pos rfl, hsrc1]
    simp only [Option.bind_some]
    rw [← f3, ← f4, hm2.moved (idxOf M.flatten q)]
    · rw [hkq]
      have : keyOf M.flatten q = keyOf M.flatten p :=
        List.map_congr_left fun n hn => h1 n ((hmem n).2 hn)
      rw [this]
    · have : InBox (fineDims fm M.flatten q) (idxOf M.flatten q) :=
        FineOk.inBox fun n hn => hq.1 n ((hmem n).2 hn)
      have e : fineDims fm M.flatten q = a.dimsD :=
        List.map_congr_left fun n hn => by rw [h1 n ((hmem n).2 hn)]
      rw [e] at this
      exact this
  · intro q hq hkq
    unfold elemAt
    dsimp only
    by_cases hk : coarseKey M q = coarseKey M p
    · rw [hk, OMap.find?_set, if_pos rfl, hdst1]
      simp only [Option.bind_some]
      refine hm2.frame _ ?_
      intro idx hi he
      obtain ⟨q', h1', h2', rfl⟩ := hpos idx hi
      rw [(facts q' h1').2.2.2] at he
      have hbq : InBox (dimsOf plan.edgesAfter (coarseKey M p)) (coarseIdx fm M q) := by
        rw [← hk]
        exact coarse_inBox hsortM (fun n hn => hq.1 n ((hmem n).2 hn))
          (hc.destDims q (keyM q hq.keyOk))
      have e2 := rowMajor_inj hbq (boxD q' h1' h2') he
      have e3 := coarse_inj hsortM (fun n hn => hq.1 n ((hmem n).2 hn))
        (fun n hn => h2' n ((hmem n).2 hn)) (hk.trans (facts q' h1').2.1.symm) e2
      apply hkq
      refine List.map_congr_left fun n hn => ?_
      rw [e3 n ((hmem n).1 hn), h1' n hn]
    · rw [hnew _ hk]

/-- The whole copy loop. -/
theorem copyLoop_spec [Neg α] {fm : ν → List (σ × ℕ)} {S M : List (List ν)}
    {ok : (ν → σ × ℕ) → Prop} {plan : CopyPlan σ α} (hc : CopyOk fm S M ok plan) (pf : Platform)
    (source : List (List σ × (List σ × List ℕ))) (hsrc : IsTable fm S ok source)
    {blocks : List (List σ × List α)} (hbs : OMap.Sorted blocks)
    (hb : ∀ p, KeyOk fm M.flatten p → ∃ data, OMap.find? blocks (coarseKey M p) = some data ∧
      data.length = (dimsOf plan.edgesAfter (coarseKey M p)).prod) :
    ∃ blocks', source.foldlM (copyBlock pf plan) blocks = .ok blocks' ∧
      blocks'.map (fun b => (b.1, b.2.length)) = blocks.map (fun b => (b.1, b.2.length)) ∧
      (∀ q, FineOk fm S.flatten q → ok q →
        elemAt ⟨plan.edgesAfter, blocks'⟩ (coarseKey M q) (coarseIdx fm M q) =
          (elemAt plan.source (coarseKey S q) (coarseIdx fm S q)).map
            (signed (blockParity plan (keyOf S.flatten q) (keyOf M.flatten q)))) ∧
      (∀ q, FineOk fm S.flatten q → ¬ ok q →
        elemAt ⟨plan.edgesAfter, blocks'⟩ (coarseKey M q) (coarseIdx fm M q) =
          elemAt ⟨plan.edgesAfter, blocks⟩ (coarseKey M q) (coarseIdx fm M q)) := by
  have key : ∀ (l : List (List σ × (List σ × List ℕ))) (blocks : List (List σ × List α)),
      (∀ e ∈ l, e ∈ source) → (l.map Prod.fst).Nodup → OMap.Sorted blocks →
      (∀ p, KeyOk fm M.flatten p → ∃ data, OMap.find? blocks (coarseKey M p) = some data ∧
        data.length = (dimsOf plan.edgesAfter (coarseKey M p)).prod) →
      ∃ blocks', l.foldlM (copyBlock pf plan) blocks = .ok blocks' ∧
        blocks'.map (fun b => (b.1, b.2.length)) = blocks.map (fun b => (b.1, b.2.length)) ∧
        (∀ q, FineOk fm S.flatten q → keyOf S.flatten q ∈ l.map Prod.fst →
          elemAt ⟨plan.edgesAfter, blocks'⟩ (coarseKey M q) (coarseIdx fm M q) =
            (elemAt plan.source (coarseKey S q) (coarseIdx fm S q)).map
              (signed (blockParity plan (keyOf S.flatten q) (keyOf M.flatten q)))) ∧
        (∀ q, FineOk fm S.flatten q → keyOf S.flatten q ∉ l.map Prod.fst →
          elemAt ⟨plan.edgesAfter, blocks'⟩ (coarseKey M q) (coarseIdx fm M q) =
            elemAt ⟨plan.edgesAfter, blocks⟩ (coarseKey M q) (coarseIdx fm M q)) := by
    intro l
    induction l with
    | nil =>
      intro blocks _ _ _ _
      exact ⟨blocks, rfl, rfl, by simp, fun _ _ _ => rfl⟩
    | cons e l ih =>
      intro blocks hl hnd hs hb
      obtain ⟨p, hp, hok, he⟩ := hsrc.mem e (hl e (by simp))
      obtain ⟨b1, r1, r2, r3, r4, r5⟩ := copyBlock_step hc pf hs hb hp hok
      rw [List.map_cons, List.nodup_cons] at hnd
      have hb1 : ∀ p, KeyOk fm M.flatten p → ∃ data, OMap.find? b1 (coarseKey M p) = some data ∧
          data.length = (dimsOf plan.edgesAfter (coarseKey M p)).prod := by
        intro p' hp'
        obtain ⟨d, hd1, hd2⟩ := hb p' hp'
        have := congrArg (fun l => OMap.find? l (coarseKey M p')) r2
        rw [OMap.find?_map_val _ (fun _ (d : List α) => d.length),
          OMap.find?_map_val _ (fun _ (d : List α) => d.length), hd1] at this
        cases hf : OMap.find? b1 (coarseKey M p') with
        | none => rw [hf] at this; simp at this
        | some d' =>
          rw [hf] at this
          simp only [Option.map_some, Option.some.injEq] at this
          exact ⟨d', rfl, by rw [this, hd2]⟩
      obtain ⟨b2, s1, s2, s3, s4⟩ := ih b1 (fun x hx => hl x (by simp [hx])) hnd.2 r3 hb1
      refine ⟨b2, ?_, s2.trans r2, ?_, ?_⟩
      · rw [List.foldlM_cons, he, r1]
        exact s1
      · intro q hq hk
        by_cases hk2 : keyOf S.flatten q ∈ l.map Prod.fst
        · exact s3 q hq hk2
        · rw [s4 q hq hk2]
          apply r4 q hq
          rw [List.map_cons, List.mem_cons, he] at hk
          exact hk.resolve_right hk2
      · intro q hq hk
        rw [List.map_cons, List.mem_cons, he, not_or] at hk
        rw [s4 q hq hk.2, r5 q hq hk.1]
  obtain ⟨b, h1, h2, h3, h4⟩ := key source blocks (fun _ h => h) hsrc.sorted.nodup hbs hb
  refine ⟨b, h1, h2, ?_, ?_⟩
  · intro q hq hok
    refine h3 q hq ?_
    exact OMap.find?_isSome.1 (by rw [hsrc.find q hq.keyOk hok]; rfl)
  · intro q hq hok
    refine h4 q hq ?_
    intro hmem
    obtain ⟨e, he, hk⟩ := List.mem_map.1 hmem
    obtain ⟨p, hp, hokp, rfl⟩ := hsrc.mem e he
    exact hok (hc.okCongr p q hk hokp)

end copy

end TAT
