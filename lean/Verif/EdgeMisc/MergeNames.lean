import Verif.EdgeMisc.Simple

/-!
# The target names of `merge_edge` and `split_edge`
-/

set_option linter.unusedSectionVars false

namespace TAT

variable {ν σ α : Type} [LinearOrder ν]

/-- The group of names merged into `n`; an edge that is not the result of a merge is its own
group. -/
def groupOf (merge : List (ν × List ν)) (n : ν) : List ν := (OMap.find? merge n).getD [n]

theorem mergeGroups_eq (merge : List (ν × List ν)) (names : List ν) :
    mergeGroups merge names = names.map (groupOf merge) := by
  unfold mergeGroups
  apply List.map_congr_left
  intro n _
  unfold groupOf
  cases OMap.find? merge n <;> rfl

/-- Names which are in no merge list. -/
def unmerged (merge : List (ν × List ν)) (names : List ν) : List ν :=
  names.filter fun n => decide (∀ m ∈ merge, n ∉ m.2)

/-- A usable merge map: every existing edge is in at most one list, at most once, and the new names
do not collide with the names of the other edges. -/
structure MergeOk (names : List ν) (merge : List (ν × List ν)) : Prop where
  sorted : OMap.Sorted merge
  once : (merge.map fun m => m.2.filter fun n => decide (n ∈ names)).flatten.Nodup
  fresh : ∀ m ∈ merge, m.1 ∈ names → ∃ m' ∈ merge, m.1 ∈ m'.2

/-- The same for lists restricted to existing names. -/
structure MergeOk' (names : List ν) (merge : List (ν × List ν)) : Prop where
  nodup : names.Nodup
  keys : (OMap.keys merge).Nodup
  once : (merge.map Prod.snd).flatten.Nodup
  sub : ∀ m ∈ merge, ∀ n ∈ m.2, n ∈ names
  fresh : ∀ m ∈ merge, m.1 ∉ unmerged merge names

theorem MergeOk.existing {names : List ν} {merge : List (ν × List ν)} (h : MergeOk names merge)
    (hn : names.Nodup) : MergeOk' names (mergeExisting names merge) := by
  have hkeys : OMap.keys (mergeExisting names merge) = OMap.keys merge := by
    unfold mergeExisting OMap.keys
    rw [List.map_map]; rfl
  refine ⟨hn, hkeys ▸ h.sorted.nodup, ?_, ?_, ?_⟩
  · unfold mergeExisting
    rw [List.map_map]
    exact h.once
  · intro m hm n hnm
    obtain ⟨m', _, rfl⟩ := List.mem_map.1 hm
    simpa using (List.mem_filter.1 hnm).2
  · intro m hm hu
    obtain ⟨m', hm', rfl⟩ := List.mem_map.1 hm
    obtain ⟨h1, h2⟩ := List.mem_filter.1 hu
    obtain ⟨m'', h3, h4⟩ := h.fresh m' hm' h1
    have h2 := of_decide_eq_true h2 _ (List.mem_map_of_mem (f := fun m : ν × List ν =>
      (m.1, m.2.filter fun n => decide (n ∈ names))) h3)
    exact h2 (List.mem_filter.2 ⟨h4, by simpa using h1⟩)

section
variable {names : List ν} {merge : List (ν × List ν)}

theorem flatten_nodup_unique {l : List (ν × List ν)} (hk : (OMap.keys l).Nodup)
    (ho : (l.map Prod.snd).flatten.Nodup) {m m' : ν × List ν} (hm : m ∈ l) (hm' : m' ∈ l) {n : ν}
    (hn : n ∈ m.2) (hn' : n ∈ m'.2) : m = m' := by
  induction l with
  | nil => simp at hm
  | cons x l ih =>
    rw [List.map_cons, List.flatten_cons, List.nodup_append] at ho
    rw [OMap.keys_cons, List.nodup_cons] at hk
    have key : ∀ y ∈ l, n ∈ y.2 → n ∉ x.2 := fun y hy h1 h2 =>
      ho.2.2 n h2 n (List.mem_flatten.2 ⟨y.2, List.mem_map_of_mem hy, h1⟩) rfl
    rcases List.mem_cons.1 hm with rfl | h <;> rcases List.mem_cons.1 hm' with rfl | h'
    · rfl
    · exact absurd hn (key _ h' hn')
    · exact absurd hn' (key _ h hn)
    · exact ih hk.2 ho.2.1 h h'

theorem MergeOk'.step_some (h : MergeOk' names merge) {m : ν × List ν} (hm : m ∈ merge) {n : ν}
    (hn : n ∈ m.2) : mergeTargetStep merge n = if m.2.getLast? = some n then [m.1] else [] := by
  unfold mergeTargetStep
  have : (merge.find? fun m => decide (n ∈ m.2)) = some m := by
    cases hf : merge.find? fun m => decide (n ∈ m.2) with
    | none =>
      rw [List.find?_eq_none] at hf
      exact absurd hn (by simpa using hf m hm)
    | some m' =>
      have h1 := List.find?_some hf
      have h2 := List.mem_of_find?_eq_some hf
      rw [flatten_nodup_unique h.keys h.once h2 hm (by simpa using h1) hn]
  rw [this]

theorem step_none {n : ν} (hn : ∀ m ∈ merge, n ∉ m.2) : mergeTargetStep merge n = [n] := by
  unfold mergeTargetStep
  have : (merge.find? fun m => decide (n ∈ m.2)) = none := by
    rw [List.find?_eq_none]
    intro m hm
    simpa using hn m hm
  rw [this]

theorem MergeOk'.mem_step (h : MergeOk' names merge) {n x : ν} (hn : n ∈ names) :
    x ∈ mergeTargetStep merge n ↔ (n ∈ unmerged merge names ∧ x = n) ∨
      ∃ m ∈ merge, m.2.getLast? = some n ∧ x = m.1 := by
  by_cases hu : ∀ m ∈ merge, n ∉ m.2
  · rw [step_none hu, List.mem_singleton]
    have : n ∈ unmerged merge names := List.mem_filter.2 ⟨hn, by simpa using hu⟩
    constructor
    · intro hx; exact .inl ⟨this, hx⟩
    · rintro (⟨_, hx⟩ | ⟨m, hm, hl, _⟩)
      · exact hx
      · exact absurd (List.mem_of_getLast? hl) (hu m hm)
  · push Not at hu
    obtain ⟨m, hm, hnm⟩ := hu
    rw [h.step_some hm hnm]
    constructor
    · intro hx
      split at hx
      · exact .inr ⟨m, hm, by assumption, List.mem_singleton.1 hx⟩
      · simp at hx
    · rintro (⟨hx, _⟩ | ⟨m', hm', hl, rfl⟩)
      · have := of_decide_eq_true (List.mem_filter.1 hx).2
        exact absurd hnm (this m hm)
      · rw [← flatten_nodup_unique h.keys h.once hm' hm (List.mem_of_getLast? hl) hnm, if_pos hl]
        simp

theorem MergeOk'.unique (h : MergeOk' names merge) {m m' : ν × List ν} (hm : m ∈ merge)
    (hm' : m' ∈ merge) (he : m.1 = m'.1) : m = m' :=
  (List.inj_on_of_nodup_map h.keys) hm hm' he

theorem MergeOk'.mem_target (h : MergeOk' names merge) (x : ν) :
    x ∈ mergeTarget names merge ↔ x ∈ unmerged merge names ∨ ∃ m ∈ merge, x = m.1 := by
  unfold mergeTarget
  rw [List.mem_reverse, List.mem_append, List.mem_flatMap, List.mem_map]
  constructor
  · rintro (⟨n, hn, hx⟩ | ⟨m, hm, rfl⟩)
    · rw [List.mem_reverse] at hn
      rcases (h.mem_step hn).1 hx with ⟨h1, rfl⟩ | ⟨m, hm, _, rfl⟩
      · exact .inl h1
      · exact .inr ⟨m, hm, rfl⟩
    · exact .inr ⟨m, (List.mem_filter.1 hm).1, rfl⟩
  · rintro (hx | ⟨m, hm, rfl⟩)
    · have hxn := (List.mem_filter.1 hx).1
      exact .inl ⟨x, List.mem_reverse.2 hxn, (h.mem_step hxn).2 (.inl ⟨hx, rfl⟩)⟩
    · cases hl : m.2.getLast? with
      | none =>
        refine .inr ⟨m, List.mem_filter.2 ⟨hm, ?_⟩, rfl⟩
        rw [List.getLast?_eq_none_iff] at hl
        rw [hl]; rfl
      | some n =>
        have hnm := List.mem_of_getLast? hl
        have hn := h.sub m hm n hnm
        exact .inl ⟨n, List.mem_reverse.2 hn, (h.mem_step hn).2 (.inr ⟨m, hm, hl, rfl⟩)⟩

theorem MergeOk'.nodup_target (h : MergeOk' names merge) : (mergeTarget names merge).Nodup := by
  unfold mergeTarget
  rw [List.nodup_reverse, List.nodup_append]
  refine ⟨?_, ?_, ?_⟩
  · rw [List.nodup_flatMap]
    refine ⟨fun n _ => ?_, ?_⟩
    · unfold mergeTargetStep
      split
      · split <;> simp
      · simp
    · have hnd : names.reverse.Nodup := List.nodup_reverse.2 h.nodup
      refine List.Pairwise.imp_of_mem ?_ hnd
      intro a b ha hb hab
      rw [List.mem_reverse] at ha hb
      simp only [Function.onFun]
      intro x hxa hxb
      rcases (h.mem_step ha).1 hxa with ⟨h1, rfl⟩ | ⟨m, hm, hl, rfl⟩ <;>
        rcases (h.mem_step hb).1 hxb with ⟨h2, h3⟩ | ⟨m', hm', hl', h3⟩
      · exact hab h3
      · exact h.fresh m' hm' (h3 ▸ h1)
      · exact h.fresh m hm (h3 ▸ h2)
      · rw [h.unique hm hm' h3, hl'] at hl
        exact hab (Option.some.inj hl).symm
  · exact List.Nodup.sublist (List.filter_sublist.map _) h.keys
  · intro x hx y hy hxy
    subst hxy
    obtain ⟨n, hn, hxn⟩ := List.mem_flatMap.1 hx
    obtain ⟨m, hm, rfl⟩ := List.mem_map.1 hy
    obtain ⟨hm1, hm2⟩ := List.mem_filter.1 hm
    rcases (h.mem_step (List.mem_reverse.1 hn)).1 hxn with ⟨h1, h2⟩ | ⟨m', hm', hl, he⟩
    · exact h.fresh m hm1 (h2 ▸ h1)
    · rw [h.unique hm1 hm' he] at hm2
      rw [List.isEmpty_iff.1 hm2] at hl
      simp at hl

theorem MergeOk'.perm_target (h : MergeOk' names merge) :
    (mergeTarget names merge).Perm (unmerged merge names ++ OMap.keys merge) := by
  refine (List.perm_ext_iff_of_nodup h.nodup_target ?_).2 fun x => ?_
  · rw [List.nodup_append]
    refine ⟨h.nodup.filter _, h.keys, ?_⟩
    intro a ha b hb hab
    subst hab
    obtain ⟨m, hm, rfl⟩ := List.mem_map.1 hb
    exact h.fresh m hm ha
  · rw [h.mem_target, List.mem_append]
    unfold OMap.keys
    rw [List.mem_map]
    constructor
    · rintro (hx | ⟨m, hm, rfl⟩)
      · exact .inl hx
      · exact .inr ⟨m, hm, rfl⟩
    · rintro (hx | ⟨m, hm, rfl⟩)
      · exact .inl hx
      · exact .inr ⟨m, hm, rfl⟩

/-- The groups of the target names use every name exactly once. -/
theorem MergeOk'.perm (h : MergeOk' names merge) :
    names.Perm (mergeGroups merge (mergeTarget names merge)).flatten := by
  rw [mergeGroups_eq]
  have h1 : ((mergeTarget names merge).map (groupOf merge)).flatten.Perm
      ((unmerged merge names ++ OMap.keys merge).map (groupOf merge)).flatten :=
    (h.perm_target.map _).flatten
  refine List.Perm.trans ?_ h1.symm
  have h2 : (unmerged merge names).map (groupOf merge) = (unmerged merge names).map fun n => [n] := by
    apply List.map_congr_left
    intro n hn
    unfold groupOf
    rw [OMap.find?_eq_none.2]
    · rfl
    · intro hk
      obtain ⟨m, hm, rfl⟩ := List.mem_map.1 hk
      exact h.fresh m hm hn
  have h3 : (OMap.keys merge).map (groupOf merge) = merge.map Prod.snd := by
    unfold OMap.keys
    rw [List.map_map]
    apply List.map_congr_left
    intro m hm
    simp only [Function.comp, groupOf]
    rw [OMap.find?_of_mem h.keys (show (m.1, m.2) ∈ merge from hm)]
    rfl
  rw [List.map_append, List.flatten_append, h2, h3, flatten_singletons]
  refine (List.perm_ext_iff_of_nodup h.nodup ?_).2 fun n => ?_
  · rw [List.nodup_append]
    refine ⟨h.nodup.filter _, h.once, ?_⟩
    intro a ha b hb hab
    subst hab
    obtain ⟨g, hg, hag⟩ := List.mem_flatten.1 hb
    obtain ⟨m, hm, rfl⟩ := List.mem_map.1 hg
    exact of_decide_eq_true (List.mem_filter.1 ha).2 m hm hag
  · rw [List.mem_append]
    constructor
    · intro hn
      by_cases hu : ∀ m ∈ merge, n ∉ m.2
      · exact .inl (List.mem_filter.2 ⟨hn, by simpa using hu⟩)
      · push Not at hu
        obtain ⟨m, hm, hnm⟩ := hu
        exact .inr (List.mem_flatten.2 ⟨m.2, List.mem_map_of_mem hm, hnm⟩)
    · rintro (hn | hn)
      · exact (List.mem_filter.1 hn).1
      · obtain ⟨g, hg, hng⟩ := List.mem_flatten.1 hn
        obtain ⟨m, hm, rfl⟩ := List.mem_map.1 hg
        exact h.sub m hm n hng

end

theorem splitTarget_eq (names : List ν) (split : List (ν × List (ν × List (σ × ℕ)))) :
    splitTarget names split = (splitGroups split names).flatten := by
  unfold splitTarget splitGroups
  rw [List.flatMap_def]
  congr 1

end TAT
