import Verif.EdgeMisc.Prune
import Verif.EdgeMisc.Props

/-!
# One combined operation and its steps
-/

set_option linter.unusedSectionVars false

namespace TAT

variable {ν σ α : Type} [LinearOrder ν] [TatSym σ]

theorem find?_filter_key {β : Type} (m : List (ν × β)) (P : ν → Bool) (k : ν) :
    OMap.find? (m.filter fun x => P x.1) k = if P k = true then OMap.find? m k else none := by
  induction m with
  | nil => simp [OMap.find?]
  | cons x m ih =>
    obtain ⟨k', v⟩ := x
    by_cases hP : P k' = true
    · rw [List.filter_cons_of_pos (by exact hP), OMap.find?, OMap.find?, ih]
      by_cases hk : k = k'
      · subst hk; simp [hP]
      · simp [hk]
    · rw [List.filter_cons_of_neg (by exact hP), ih, OMap.find?]
      by_cases hk : k = k'
      · subst hk; simp [hP]
      · simp [hk]

/-! ## the target of `merge_edge` -/

theorem nodup_groups {merge : List (ν × List ν)} {newNames : List ν}
    (hn : (mergeGroups merge newNames).flatten.Nodup) (hnn : newNames.Nodup) {x a b : ν} (ha : a ∈ newNames)
    (hb : b ∈ newNames) (hxa : x ∈ groupOf merge a) (hxb : x ∈ groupOf merge b) : a = b := by
  by_contra hab
  rw [mergeGroups_eq, List.nodup_flatten, List.pairwise_map] at hn
  have : Std.Symm fun a b : ν => List.Disjoint (groupOf merge a) (groupOf merge b) :=
    ⟨fun _ _ h => h.symm⟩
  exact hn.2.forall ha hb hab hxa hxb

theorem nodup_group {merge : List (ν × List ν)} {newNames : List ν}
    (hn : (mergeGroups merge newNames).flatten.Nodup) {a : ν} (ha : a ∈ newNames) :
    (groupOf merge a).Nodup := by
  rw [mergeGroups_eq, List.nodup_flatten] at hn
  exact hn.1 _ (List.mem_map_of_mem ha)

/-- When the names stand in the order of the groups, `merge_edge` produces the names of the
groups in their order. -/
theorem mergeTarget_flatten {merge : List (ν × List ν)} {newNames : List ν}
    (hs : OMap.Sorted merge) (hnn : newNames.Nodup)
    (hn : (mergeGroups merge newNames).flatten.Nodup)
    (hm : ∀ m ∈ merge, m.1 ∈ newNames ∧ m.2 ≠ []) :
    mergeTarget (mergeGroups merge newNames).flatten merge = newNames := by
  have hg : ∀ m ∈ merge, groupOf merge m.1 = m.2 := by
    intro m hm
    unfold groupOf
    rw [OMap.find?_of_mem hs.nodup (show (m.1, m.2) ∈ merge from hm)]; rfl
  have hempty : (merge.filter fun m => m.2.isEmpty) = [] := by
    rw [List.filter_eq_nil_iff]
    intro m hmm
    have := (hm m hmm).2
    simpa using this
  unfold mergeTarget
  rw [hempty, List.map_nil, List.append_nil]
  have key : ∀ l : List ν, (∀ n ∈ l, n ∈ newNames) →
      (((mergeGroups merge l).flatten.reverse.flatMap (mergeTargetStep merge))).reverse = l := by
    intro l
    induction l with
    | nil => intro _; rfl
    | cons n l ih =>
      intro hl
      have hnm := hl n (by simp)
      have hcons : (mergeGroups merge (n :: l)).flatten =
          groupOf merge n ++ (mergeGroups merge l).flatten := by
        rw [mergeGroups_eq, mergeGroups_eq, List.map_cons, List.flatten_cons]
      rw [hcons, List.reverse_append, List.flatMap_append, List.reverse_append,
        ih fun n hn => hl n (List.mem_cons_of_mem _ hn)]
      suffices h1 : (groupOf merge n).reverse.flatMap (mergeTargetStep merge) = [n] by
        rw [h1]; rfl
      cases hf : OMap.find? merge n with
      | none =>
        have hgn : groupOf merge n = [n] := by unfold groupOf; rw [hf]; rfl
        rw [hgn]
        simp only [List.reverse_singleton, List.flatMap_cons, List.flatMap_nil, List.append_nil]
        have : (merge.find? fun m => decide (n ∈ m.2)) = none := by
          rw [List.find?_eq_none]
          intro m hmm hd
          have hd' : n ∈ m.2 := of_decide_eq_true hd
          have := nodup_groups hn hnn hnm (hm m hmm).1 (x := n) (by rw [hgn]; simp)
            (by rw [hg m hmm]; exact hd')
          subst this
          rw [OMap.find?_of_mem hs.nodup (show (m.1, m.2) ∈ merge from hmm)] at hf
          exact absurd hf (by simp)
        unfold mergeTargetStep
        rw [this]
      | some g =>
        have hgn : groupOf merge n = g := by unfold groupOf; rw [hf]; rfl
        have hmem : (n, g) ∈ merge := OMap.mem_of_find? hf
        have hstep : ∀ x ∈ g, mergeTargetStep merge x = if g.getLast? = some x then [n] else [] := by
          intro x hx
          have : (merge.find? fun m => decide (x ∈ m.2)) = some (n, g) := by
            cases hff : merge.find? fun m => decide (x ∈ m.2) with
            | none =>
              rw [List.find?_eq_none] at hff
              exact absurd (decide_eq_true hx) (hff (n, g) hmem)
            | some m =>
              have h1 := List.mem_of_find?_eq_some hff
              have h2 : x ∈ m.2 := of_decide_eq_true (List.find?_some (p := fun m : ν × List ν =>
                decide (x ∈ m.2)) hff)
              have := nodup_groups hn hnn hnm (hm m h1).1 (x := x) (by rw [hgn]; exact hx)
                (by rw [hg m h1]; exact h2)
              have h3 := hg m h1
              rw [← this, hgn] at h3
              rw [Option.some.injEq, Prod.ext_iff]
              exact ⟨this.symm, h3.symm⟩
          unfold mergeTargetStep
          rw [this]
        have hne := (hm _ hmem).2
        have hnd := nodup_group hn hnm
        rw [hgn] at hnd ⊢
        obtain ⟨init, last, rfl⟩ : ∃ init last, g = init ++ [last] :=
          ⟨g.dropLast, g.getLast hne, (List.dropLast_append_getLast hne).symm⟩
        rw [List.reverse_append, List.flatMap_append]
        have h1 : [last].reverse.flatMap (mergeTargetStep merge) = [n] := by
          simp only [List.reverse_singleton, List.flatMap_cons, List.flatMap_nil, List.append_nil]
          rw [hstep last (by simp), if_pos (by simp)]
        have h2 : init.reverse.flatMap (mergeTargetStep merge) = [] := by
          rw [List.flatMap_eq_nil_iff]
          intro x hx
          rw [List.mem_reverse] at hx
          rw [hstep x (by simp [hx]), if_neg]
          rw [List.getLast?_concat]
          intro hc
          rw [Option.some.injEq] at hc
          subst hc
          rw [List.nodup_append] at hnd
          exact hnd.2.2 _ hx _ (by simp) rfl
        rw [h1, h2, List.append_nil]
  exact key newNames fun _ h => h

/-! ## the edges after splitting -/

open Classical in
/-- The symmetries of a fine edge that take part in an allowed combination. -/
noncomputable def usedMap (fm : ν → List (σ × ℕ)) (names : List ν) (n : ν) : List (σ × ℕ) :=
  (fm n).filter fun x => decide (Used fm names n x.1)

open Classical in
theorem prunedEdges_named {names : List ν} (hn : names.Nodup) (e : ν → Edge σ) :
    prunedEdges (names.map e) = names.map fun n =>
      ⟨(e n).arrow, usedMap (fun n => (e n).map) names n⟩ := by
  have hm : (names.map e).map Edge.map = names.map fun n => (e n).map := by
    rw [List.map_map]; rfl
  apply List.ext_getElem
  · simp [prunedEdges]
  · intro i h1 h2
    have hi : i < names.length := by simpa using h2
    simp only [prunedEdges, List.getElem_mapIdx, List.getElem_map]
    congr 1
    unfold usedMap
    apply List.filter_congr
    intro x _
    rw [Bool.eq_iff_iff, decide_eq_true_eq]
    unfold usedAt Used
    rw [List.any_eq_true, hm]
    constructor
    · rintro ⟨b, hb, hs⟩
      have hb' := List.mem_map_of_mem (f := Prod.fst) hb
      have hl := mem_blocks_length hb'
      obtain ⟨p, hp⟩ := exists_pos hn (k := b.1) (by simpa using hl)
      rw [← hp] at hb'
      refine ⟨p, mem_blocks_iff.1 hb', ?_⟩
      rw [decide_eq_true_eq] at hs
      rw [← hp] at hs
      simp only [keyOf, List.getElem?_map, List.getElem?_eq_getElem hi, Option.map_some,
        Option.some.injEq] at hs
      exact hs
    · rintro ⟨p, hp, hs⟩
      obtain ⟨b, hb, hbk⟩ := List.mem_map.1 (mem_blocks_iff.2 hp)
      refine ⟨b, hb, ?_⟩
      rw [decide_eq_true_eq, hbk]
      simp only [keyOf, List.getElem?_map, List.getElem?_eq_getElem hi, Option.map_some, hs]

section used
variable {fm : ν → List (σ × ℕ)} {F : List ν}

open Classical in
theorem usedMap_find (n : ν) (s : σ) : OMap.find? (usedMap fm F n) s =
    if Used fm F n s then OMap.find? (fm n) s else none := by
  unfold usedMap
  have : ∀ (m : List (σ × ℕ)) (P : σ → Bool), OMap.find? (m.filter fun x => P x.1) s =
      if P s = true then OMap.find? m s else none := by
    intro m P
    induction m with
    | nil => simp [OMap.find?]
    | cons x m ih =>
      obtain ⟨k', v⟩ := x
      by_cases hP : P k' = true
      · rw [List.filter_cons_of_pos (by exact hP), OMap.find?, OMap.find?, ih]
        by_cases hk : s = k'
        · subst hk; simp [hP]
        · simp [hk]
      · rw [List.filter_cons_of_neg (by exact hP), ih, OMap.find?]
        by_cases hk : s = k'
        · subst hk; simp [hP]
        · simp [hk]
  refine (this (fm n) fun s => decide (Used fm F n s)).trans ?_
  simp only [decide_eq_true_eq]

theorem usedMap_dim {n : ν} {s : σ} (h : Used fm F n s) : dimM (usedMap fm F n) s = dimM (fm n) s := by
  unfold dimM
  rw [usedMap_find, if_pos h]

theorem usedMap_keys {n : ν} {s : σ} :
    s ∈ OMap.keys (usedMap fm F n) ↔ s ∈ OMap.keys (fm n) ∧ Used fm F n s := by
  rw [← OMap.find?_isSome, usedMap_find, ← OMap.find?_isSome]
  split <;> simp [*]

theorem usedMap_sorted {n : ν} (h : OMap.Sorted (fm n)) : OMap.Sorted (usedMap fm F n) := h.filter _

theorem Used.perm {F' : List ν} (hp : F.Perm F') {n : ν} {s : σ} (h : Used fm F n s) :
    Used fm F' n s := by
  obtain ⟨p, h1, h2⟩ := h
  exact ⟨p, h1.perm hp, h2⟩

theorem usedMap_keyOk {F' : List ν} (hp : F.Perm F') {q : ν → σ × ℕ} :
    KeyOk (usedMap fm F) F' q ↔ KeyOk fm F' q := by
  constructor
  · rintro ⟨h1, h2⟩
    exact ⟨fun n hn => (usedMap_keys.1 (h1 n hn)).1, h2⟩
  · intro h
    exact ⟨fun n hn => usedMap_keys.2 ⟨h.1 n hn, q, h.perm hp.symm, rfl⟩, h.2⟩

theorem usedMap_fineOk {F' : List ν} (hp : F.Perm F') {q : ν → σ × ℕ} :
    FineOk (usedMap fm F) F' q ↔ FineOk fm F' q := by
  constructor
  · intro h
    have hk := (usedMap_keyOk hp).1 h.keyOk
    refine ⟨fun n hn => ?_, h.2⟩
    have := h.1 n hn
    rwa [usedMap_dim ⟨q, hk.perm hp.symm, rfl⟩] at this
  · intro h
    have hk := h.keyOk
    refine ⟨fun n hn => ?_, h.2⟩
    rw [usedMap_dim ⟨q, hk.perm hp.symm, rfl⟩]
    exact h.1 n hn

open Classical in
/-- Dropping unused symmetries does not change the part of a merged edge that is used. -/
theorem usedMap_sameTotal {M : List (List ν)} (hp : F.Perm M.flatten) (hn : M.flatten.Nodup)
    {g : List ν} (hg : g ∈ M) {q : ν → σ × ℕ} (hq : KeyOk fm M.flatten q) :
    sameTotal (g.map (usedMap fm F)) (keyOf g q).sum = sameTotal (g.map fm) (keyOf g q).sum := by
  unfold usedMap
  refine sameTotal_filter (fun n s => decide (Used fm F n s)) fm g _ fun k hk hs => ?_
  exact (used_of_total hn hq hg hk hs).imp fun n s h => decide_eq_true (h.perm hp.symm)

theorem usedMap_groupIdx {M : List (List ν)} (hp : F.Perm M.flatten) (hn : M.flatten.Nodup)
    {g : List ν} (hg : g ∈ M) {q : ν → σ × ℕ} (hq : KeyOk fm M.flatten q) :
    groupIdx (usedMap fm F) g q = groupIdx fm g q := by
  unfold groupIdx mergeOffset
  rw [usedMap_sameTotal hp hn hg hq]
  congr 2
  apply List.map_congr_left
  intro n hn'
  exact usedMap_dim ⟨q, hq.perm hp.symm, rfl⟩

theorem usedMap_mergedDim {M : List (List ν)} (hp : F.Perm M.flatten) (hn : M.flatten.Nodup)
    {g : List ν} (hg : g ∈ M) {q : ν → σ × ℕ} (hq : KeyOk fm M.flatten q) :
    mergedDim (g.map (usedMap fm F)) (keyOf g q).sum = mergedDim (g.map fm) (keyOf g q).sum := by
  unfold mergedDim
  rw [usedMap_sameTotal hp hn hg hq]

end used

end TAT
