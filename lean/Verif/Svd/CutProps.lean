import Mathlib.Algebra.BigOperators.Group.List.Basic
import Verif.Svd.CutLemmas

/-!
# Properties of the truncation of singular values

C34.
-/

namespace TAT

variable {σ β : Type}

section
variable [TatSym σ] [LinearOrder β] [Zero β]

/-- **C34**: a cut smaller than the number of singular values keeps exactly `cut` of them, in every
sector the first ones, none of those dropped exceeds one kept, and sectors with nothing kept
disappear.  The remaining dimensions of the common edges of U and V are the numbers kept.  The values
of a sector are descending and at least `cut` values are positive. -/
theorem C34_cut {rs : List (σ × List β)} (hrs : OMap.Sorted rs)
    (hdesc : ∀ e ∈ rs, e.2.Pairwise (· ≥ ·)) {cut : ℕ} (hc : cut ≠ 2 ^ 64 - 1)
    (hlt : cut < (rs.map fun e => e.2.length).sum)
    (hpos : cut ≤ (rs.map fun e => (e.2.filter fun x => decide (0 < x)).length).sum) :
    ∃ rs' ru rv, cutPlan rs cut = .ok (rs', ru, rv) ∧ OMap.Sorted rs' ∧
      (rs'.map fun e => e.2.length).sum = cut ∧
      (∀ e ∈ rs', e.2 ≠ [] ∧ ∃ v, (e.1, v) ∈ rs ∧ e.2 <+: v) ∧
      (∀ e ∈ rs, ∀ f ∈ rs', ∀ x ∈ e.2.drop ((OMap.find? rs' e.1).getD []).length, ∀ y ∈ f.2, x ≤ y) ∧
      OMap.keys ru = OMap.keys rs ∧ (∀ s, s ∈ OMap.keys rv ↔ -s ∈ OMap.keys rs) ∧
      ∀ s ∈ OMap.keys rs, OMap.find? ru s = some ((OMap.find? rs' s).getD []).length ∧
        OMap.find? rv (-s) = some ((OMap.find? rs' s).getD []).length := by
  obtain ⟨ru, rv, k, h1, h2, h3, h4⟩ := cutLoop_spec hrs hdesc cut (counts_init hrs)
    (k := fun _ => 0) ⟨by simp, by simp, by simp⟩ (by simpa [positives] using hpos)
  have hsum : (rs.map fun e => k e.1).sum = cut := by rw [h4]; simp
  obtain ⟨rs', f1, f2, f3⟩ := shorten_spec hrs ru h2.su.nodup (fun s hs => h2.ku ▸ hs)
  have hfind : ∀ s ∈ OMap.keys rs, OMap.find? rs' s =
      if k s = 0 then none else (OMap.find? rs s).map fun v => v.take (k s) := by
    intro s hs
    rw [f3 s, h2.u s hs]
    cases hk : k s with
    | zero => rfl
    | succ n =>
      dsimp only
      rw [if_neg (by omega)]
      obtain ⟨v, hv⟩ := Option.isSome_iff_exists.1 (OMap.find?_isSome.2 hs)
      have := h3.le (s, v) (OMap.mem_of_find? hv)
      dsimp only at this
      rw [hv, Option.map_some, Option.map_some]
      unfold resizeTo
      rw [show n + 1 - v.length = 0 by omega, List.replicate_zero, List.append_nil]
  have hnone : ∀ s, s ∉ OMap.keys rs → OMap.find? rs' s = none := by
    intro s hs
    have e1 : OMap.find? rs s = none := OMap.find?_eq_none.2 hs
    have e2 : OMap.find? ru s = none := OMap.find?_eq_none.2 (by rw [h2.ku]; exact hs)
    rw [f3 s, e2, e1]
  have hlen : ∀ s ∈ OMap.keys rs, ((OMap.find? rs' s).getD []).length = k s := by
    intro s hs
    rw [hfind s hs]
    obtain ⟨v, hv⟩ := Option.isSome_iff_exists.1 (OMap.find?_isSome.2 hs)
    have := h3.le (s, v) (OMap.mem_of_find? hv)
    dsimp only at this
    rw [hv]
    split
    · next h => rw [h]; rfl
    · simp only [Option.map_some, Option.getD_some, List.length_take]; omega
  -- the entries kept
  have hmem : ∀ e ∈ rs', ∃ v, (e.1, v) ∈ rs ∧ k e.1 ≠ 0 ∧ e.2 = v.take (k e.1) := by
    intro e he
    have h := OMap.find?_of_mem f2.nodup (k := e.1) (v := e.2) he
    by_cases hs : e.1 ∈ OMap.keys rs
    · rw [hfind e.1 hs] at h
      split at h
      · simp at h
      · next hk =>
        rw [Option.map_eq_some_iff] at h
        obtain ⟨v, hv, h⟩ := h
        exact ⟨v, OMap.mem_of_find? hv, hk, h.symm⟩
    · rw [hnone e.1 hs] at h
      simp at h
  refine ⟨rs', ru, rv, ?_, f2, ?_, fun e he => ?_, fun e he f hf x hx y hy => ?_, h2.ku, h2.kv,
    fun s hs => ⟨by rw [hlen s hs]; exact h2.u s hs, by rw [hlen s hs]; exact h2.v s hs⟩⟩
  · unfold cutPlan
    rw [if_pos ⟨hc, hlt⟩, h1]
    dsimp only [Outcome.bind]
    rw [f1]
  · -- the sum over the sectors kept is the sum over all
    have e1 : (rs'.map fun e => e.2.length).sum = (rs'.map fun e => k e.1).sum := by
      congr 1
      refine List.map_congr_left fun e he => ?_
      obtain ⟨v, hv, _, h⟩ := hmem e he
      have := h3.le (e.1, v) hv
      dsimp only at this
      rw [h, List.length_take]; omega
    have e2 : (rs'.map fun e => k e.1).sum = ((OMap.keys rs').map k).sum := by
      unfold OMap.keys; rw [List.map_map]; rfl
    have e3 : (rs.map fun e => k e.1).sum = ((OMap.keys rs).map k).sum := by
      unfold OMap.keys; rw [List.map_map]; rfl
    rw [e1, e2, ← hsum, e3]
    have e4 : ((OMap.keys rs).filter fun s => decide (k s ≠ 0)).Perm (OMap.keys rs') := by
      refine (List.perm_ext_iff_of_nodup (hrs.nodup.filter _) f2.nodup).2 fun s => ?_
      rw [List.mem_filter, decide_eq_true_iff, ← OMap.find?_isSome (m := rs')]
      constructor
      · rintro ⟨hs, hk⟩
        rw [hfind s hs, if_neg hk]
        obtain ⟨v, hv⟩ := Option.isSome_iff_exists.1 (OMap.find?_isSome.2 hs)
        rw [hv]; rfl
      · intro h
        by_cases hs : s ∈ OMap.keys rs
        · refine ⟨hs, fun hk => ?_⟩
          rw [hfind s hs, if_pos hk] at h
          simp at h
        · rw [hnone s hs] at h
          simp at h
    rw [← (e4.map k).sum_eq]
    clear e1 e2 e3 e4
    induction OMap.keys rs with
    | nil => rfl
    | cons a l ih =>
      rw [List.filter_cons, List.map_cons, List.sum_cons]
      by_cases ha : k a = 0
      · rw [if_neg (by simpa using ha), ih, ha, Nat.zero_add]
      · rw [if_pos (by simpa using ha), List.map_cons, List.sum_cons, ih]
  · obtain ⟨v, hv, hk, h⟩ := hmem e he
    have := h3.le (e.1, v) hv
    dsimp only at this
    refine ⟨?_, v, hv, h ▸ List.take_prefix _ _⟩
    intro hc
    have h' := congrArg List.length h
    rw [hc, List.length_take, List.length_nil] at h'
    omega
  · rw [hlen e.1 (List.mem_map_of_mem he)] at hx
    obtain ⟨v, hv, hk, h⟩ := hmem f hf
    rw [h] at hy
    obtain ⟨j, hj, rfl⟩ := List.getElem_of_mem hx
    obtain ⟨i, hi, rfl⟩ := List.getElem_of_mem hy
    rw [List.length_drop] at hj
    rw [List.length_take] at hi
    rw [List.getElem_drop, List.getElem_take]
    have hi1 : i < k f.1 := lt_of_lt_of_le hi (Nat.min_le_left _ _)
    have hi2 : i < v.length := lt_of_lt_of_le hi (Nat.min_le_right _ _)
    exact h3.top (f.1, v) hv i hi1 _ (List.getElem?_eq_getElem hi2) e he
      (k e.1 + j) (Nat.le_add_right _ _) _ (List.getElem?_eq_getElem _)

/-- **C34**: a larger cut or `Size(-1)` keeps everything. -/
theorem C34_no_cut (rs : List (σ × List β)) {cut : ℕ}
    (h : cut = 2 ^ 64 - 1 ∨ (rs.map fun e => e.2.length).sum ≤ cut) :
    cutPlan rs cut = .ok (rs, [], []) := by
  unfold cutPlan
  rw [if_neg]
  rintro ⟨h1, h2⟩
  rcases h with h | h
  · exact h1 h
  · unfold totalDimension at h2; omega

end

/-- The hypotheses of `C34_cut` and its result. -/
example : OMap.Sorted ([(⟨-1⟩, [5, 2]), (⟨0⟩, [4, 4, 1]), (⟨1⟩, [1])] : List (U1Symmetry × List ℤ)) ∧
    (∀ e ∈ ([(⟨-1⟩, [5, 2]), (⟨0⟩, [4, 4, 1]), (⟨1⟩, [1])] : List (U1Symmetry × List ℤ)),
      e.2.Pairwise (· ≥ ·)) ∧
    cutPlan ([(⟨-1⟩, [5, 2]), (⟨0⟩, [4, 4, 1]), (⟨1⟩, [1])] : List (U1Symmetry × List ℤ)) 3 =
      .ok ([(⟨-1⟩, [5]), (⟨0⟩, [4, 4])], [(⟨-1⟩, 1), (⟨0⟩, 2), (⟨1⟩, 0)],
        [(⟨-1⟩, 0), (⟨0⟩, 2), (⟨1⟩, 1)]) := by
  decide

/-- **C34** needs the values to be positive: with values that are zero the code counts them in the
sector of the default symmetry.  Without this sector an exception is thrown. -/
theorem C34_zero_throws :
    cutPlan ([(⟨-1⟩, [5, 0]), (⟨1⟩, [0])] : List (U1Symmetry × List ℤ)) 2 = .error "map::at" := by
  decide

/-- With the default sector, its dimension grows beyond what it was: the value 3 in position 1 does
not exist and the common edge gets the wrong dimension. -/
theorem C34_zero_grows :
    cutPlan ([(⟨-1⟩, [5, 0]), (⟨0⟩, [3]), (⟨1⟩, [0])] : List (U1Symmetry × List ℤ)) 3 =
      .ok ([(⟨-1⟩, [5]), (⟨0⟩, [3, 0])], [(⟨-1⟩, 1), (⟨0⟩, 2), (⟨1⟩, 0)],
        [(⟨-1⟩, 0), (⟨0⟩, 2), (⟨1⟩, 1)]) := by
  decide

end TAT
