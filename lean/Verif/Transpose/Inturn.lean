import Verif.Transpose.Lemmas
import Mathlib.Data.List.Perm.Subperm

/-!
# `inturn_transpose` only reorders the axes
-/

namespace TAT

variable {α : Type}

/-- The axis with destination index `j`. -/
def TransposeArgs.axis (a : TransposeArgs) (j : ℕ) : ℕ × ℕ × ℕ :=
  (a.dimsD.getD j 0, a.leadS.getD (a.d2s.getD j 0) 0, a.leadD.getD j 0)

theorem exists_fresh {n : ℕ} {js : List ℕ} (hl : js.length < n) : ∃ j < n, j ∉ js := by
  by_contra h
  have hsub : List.range n ⊆ js := by
    intro j hj
    by_contra hc
    exact h ⟨j, List.mem_range.1 hj, hc⟩
  have := (List.subperm_of_subset List.nodup_range hsub).length_le
  rw [List.length_range] at this
  omega

theorem skipMasked_spec (mask : List Bool) (c : ℕ) (ex : Bool)
    (h : ∃ j ≤ c, mask.getD j false = false) :
    ∃ c' ≤ c, skipMasked mask c ex = (c', ex) ∧ mask.getD c' false = false ∧
      ∀ j, c' < j → j ≤ c → mask.getD j false = true := by
  induction c with
  | zero =>
    obtain ⟨j, hj, hm⟩ := h
    have : j = 0 := by omega
    subst this
    exact ⟨0, Nat.le_refl _, by simp only [skipMasked, hm]; rfl, hm, fun j h1 h2 => by omega⟩
  | succ c ih =>
    cases hm : mask.getD (c + 1) false with
    | false =>
      refine ⟨c + 1, Nat.le_refl _, ?_, hm, fun j h1 h2 => by omega⟩
      unfold skipMasked
      rw [hm]; rfl
    | true =>
      obtain ⟨j, hj, hmj⟩ := h
      have hne : j ≠ c + 1 := by rintro rfl; rw [hm] at hmj; cases hmj
      obtain ⟨c', h1, h2, h3, h4⟩ := ih ⟨j, by omega, hmj⟩
      refine ⟨c', by omega, ?_, h3, ?_⟩
      · unfold skipMasked
        rw [hm, if_pos rfl, h2]
      · intro i h5 h6
        by_cases hi : i = c + 1
        · subst hi; exact hm
        · exact h4 i h5 (by omega)

theorem stepDown_spec (mask : List Bool) (c : ℕ) (ex : Bool)
    (h : ∃ j < c, mask.getD j false = false) :
    ∃ c' < c, stepDown mask c ex = (c', ex) ∧ mask.getD c' false = false ∧
      ∀ j, c' < j → j < c → mask.getD j false = true := by
  induction c with
  | zero => obtain ⟨j, hj, _⟩ := h; omega
  | succ c ih =>
    cases hm : mask.getD c false with
    | false =>
      refine ⟨c, by omega, ?_, hm, fun j h1 h2 => by omega⟩
      unfold stepDown
      rw [hm]; rfl
    | true =>
      obtain ⟨j, hj, hmj⟩ := h
      have hne : j ≠ c := by rintro rfl; rw [hm] at hmj; cases hmj
      obtain ⟨c', h1, h2, h3, h4⟩ := ih ⟨j, by omega, hmj⟩
      refine ⟨c', by omega, ?_, h3, ?_⟩
      · unfold stepDown
        rw [hm, if_pos rfl, h2]
      · intro i h5 h6
        by_cases hi : i = c
        · subst hi; exact hm
        · exact h4 i h5 (by omega)

/-- One side of the loop invariant: `cur` is the highest unused axis and `mask` marks the used axes
below. -/
structure SideOk (n : ℕ) (used : ℕ → Prop) (mask : List Bool) (cur : ℕ) : Prop where
  len : mask.length = n
  lt : cur < n
  free : mask.getD cur false = false
  iff : ∀ i < n, ¬ used i ↔ i ≤ cur ∧ mask.getD i false = false

/-- The loop invariant; `js` are the destination indices of the axes emitted so far. -/
structure InturnOk (a : TransposeArgs) (js : List ℕ) (st : InturnState) : Prop where
  nodup : js.Nodup
  lt : ∀ j ∈ js, j < a.rank
  axes : st.axes = js.map a.axis
  more : js.length < a.rank → st.exS = false ∧ st.exD = false ∧
    SideOk a.rank (fun i => a.s2d.getD i 0 ∈ js) st.maskS st.curS ∧
    SideOk a.rank (fun j => j ∈ js) st.maskD st.curD

theorem getD_set_bool (l : List Bool) (i j : ℕ) (hi : i < l.length) :
    (l.set i true).getD j false = if i = j then true else l.getD j false := by
  rw [List.getD_eq_getElem?_getD, List.getElem?_set, List.getD_eq_getElem?_getD]
  split
  · rename_i h; subst h; simp [hi]
  · rfl

theorem SideOk.skip {n : ℕ} {used used' : ℕ → Prop} {mask : List Bool} {cur r : ℕ}
    (h : SideOk n used mask cur) (hr : r < n) (hused : ∀ i < n, used' i ↔ i = r ∨ used i)
    (hex : ∃ i < n, ¬ used' i) :
    ∃ c, skipMasked (mask.set r true) cur false = (c, false) ∧ SideOk n used' (mask.set r true) c := by
  have hiff : ∀ i < n, ¬ used' i ↔ i ≤ cur ∧ (mask.set r true).getD i false = false := by
    intro i hi
    rw [hused i hi, getD_set_bool _ _ _ (by rw [h.len]; exact hr), not_or, h.iff i hi]
    by_cases hri : r = i
    · subst hri; simp
    · rw [if_neg hri]
      exact ⟨fun x => x.2, fun x => ⟨fun e => hri e.symm, x⟩⟩
  obtain ⟨i, hi, hu⟩ := hex
  obtain ⟨h1, h2⟩ := (hiff i hi).1 hu
  obtain ⟨c, hc1, hc2, hc3, hc4⟩ := skipMasked_spec (mask.set r true) cur false ⟨i, h1, h2⟩
  refine ⟨c, hc2, by rw [List.length_set]; exact h.len, by have := h.lt; omega, hc3, ?_⟩
  intro k hk
  rw [hiff k hk]
  constructor
  · rintro ⟨hk1, hk2⟩
    refine ⟨?_, hk2⟩
    by_contra hlt
    rw [hc4 k (by omega) hk1] at hk2
    cases hk2
  · rintro ⟨hk1, hk2⟩
    exact ⟨by omega, hk2⟩

theorem SideOk.down {n : ℕ} {used used' : ℕ → Prop} {mask : List Bool} {cur : ℕ}
    (h : SideOk n used mask cur) (hused : ∀ i < n, used' i ↔ i = cur ∨ used i)
    (hex : ∃ i < n, ¬ used' i) :
    ∃ c, stepDown mask cur false = (c, false) ∧ SideOk n used' mask c := by
  have hiff : ∀ i < n, ¬ used' i ↔ i < cur ∧ mask.getD i false = false := by
    intro i hi
    rw [hused i hi, not_or, h.iff i hi]
    constructor
    · rintro ⟨h1, h2, h3⟩; exact ⟨by omega, h3⟩
    · rintro ⟨h1, h2⟩; exact ⟨by omega, by omega, h2⟩
  obtain ⟨i, hi, hu⟩ := hex
  obtain ⟨h1, h2⟩ := (hiff i hi).1 hu
  obtain ⟨c, hc1, hc2, hc3, hc4⟩ := stepDown_spec mask cur false ⟨i, h1, h2⟩
  refine ⟨c, hc2, h.len, by have := h.lt; omega, hc3, ?_⟩
  intro k hk
  rw [hiff k hk]
  constructor
  · rintro ⟨hk1, hk2⟩
    refine ⟨?_, hk2⟩
    by_contra hlt
    rw [hc4 k (by omega) hk1] at hk2
    cases hk2
  · rintro ⟨hk1, hk2⟩
    exact ⟨by omega, hk2⟩

theorem InturnOk.useSource {a : TransposeArgs} (ha : a.Ok) {js : List ℕ} {st : InturnState}
    (h : InturnOk a js st) (hlt : js.length < a.rank) :
    InturnOk a (a.s2d.getD st.curS 0 :: js) (useSource a st) := by
  obtain ⟨h1, h2, hS, hD⟩ := h.more hlt
  have hr := ha.s2dLt st.curS hS.lt
  refine ⟨?_, ?_, ?_, ?_⟩
  · exact List.nodup_cons.2 ⟨(hS.iff st.curS hS.lt).2 ⟨Nat.le_refl _, hS.free⟩, h.nodup⟩
  · intro j hj
    rcases List.mem_cons.1 hj with rfl | hj
    · exact hr
    · exact h.lt j hj
  · simp only [TAT.useSource, List.map_cons, h.axes, TransposeArgs.axis]
    rw [ha.dims _ hr, ha.leftInv _ hS.lt]
  · intro hmore
    obtain ⟨j, hj, hjn⟩ := exists_fresh hmore
    obtain ⟨c, hc1, hc2⟩ := hD.skip (r := a.s2d.getD st.curS 0)
      (used' := fun j => j ∈ a.s2d.getD st.curS 0 :: js) hr
      (fun i _ => List.mem_cons) ⟨j, hj, hjn⟩
    obtain ⟨c', hc3, hc4⟩ := hS.down
      (used' := fun i => a.s2d.getD i 0 ∈ a.s2d.getD st.curS 0 :: js)
      (fun i hi => by
        rw [List.mem_cons]
        constructor
        · rintro (h | h)
          · left
            rw [← ha.leftInv i hi, h, ha.leftInv _ hS.lt]
          · exact .inr h
        · rintro (h | h)
          · left; rw [h]
          · exact .inr h)
      ⟨a.d2s.getD j 0, ha.d2sLt j hj, by rw [ha.rightInv j hj]; exact hjn⟩
    simp only [TAT.useSource, h1, h2, hc1, hc3]
    exact ⟨trivial, trivial, hc4, hc2⟩

theorem InturnOk.useDestination {a : TransposeArgs} (ha : a.Ok) {js : List ℕ} {st : InturnState}
    (h : InturnOk a js st) (hlt : js.length < a.rank) :
    InturnOk a (st.curD :: js) (useDestination a st) := by
  obtain ⟨h1, h2, hS, hD⟩ := h.more hlt
  have hr := ha.d2sLt st.curD hD.lt
  refine ⟨?_, ?_, ?_, ?_⟩
  · exact List.nodup_cons.2 ⟨(hD.iff st.curD hD.lt).2 ⟨Nat.le_refl _, hD.free⟩, h.nodup⟩
  · intro j hj
    rcases List.mem_cons.1 hj with rfl | hj
    · exact hD.lt
    · exact h.lt j hj
  · simp only [TAT.useDestination, List.map_cons, h.axes, TransposeArgs.axis]
  · intro hmore
    obtain ⟨j, hj, hjn⟩ := exists_fresh hmore
    obtain ⟨c, hc1, hc2⟩ := hS.skip (r := a.d2s.getD st.curD 0)
      (used' := fun i => a.s2d.getD i 0 ∈ st.curD :: js) hr
      (fun i hi => by
        rw [List.mem_cons]
        constructor
        · rintro (h | h)
          · left
            rw [← h, ha.leftInv i hi]
          · exact .inr h
        · rintro (h | h)
          · left; rw [h, ha.rightInv _ hD.lt]
          · exact .inr h)
      ⟨a.d2s.getD j 0, ha.d2sLt j hj, by rw [ha.rightInv j hj]; exact hjn⟩
    obtain ⟨c', hc3, hc4⟩ := hD.down
      (used' := fun j => j ∈ st.curD :: js) (fun i _ => List.mem_cons) ⟨j, hj, hjn⟩
    simp only [TAT.useDestination, h1, h2, hc1, hc3]
    exact ⟨trivial, trivial, hc2, hc4⟩

theorem InturnOk.step {a : TransposeArgs} (ha : a.Ok) {js : List ℕ} {st : InturnState}
    (h : InturnOk a js st) (hlt : js.length < a.rank) :
    ∃ j, InturnOk a (j :: js) (inturnStep a st) := by
  unfold inturnStep
  split
  · exact ⟨_, h.useSource ha hlt⟩
  · split
    · exact ⟨_, h.useDestination ha hlt⟩
    · split
      · exact ⟨_, h.useSource ha hlt⟩
      · exact ⟨_, h.useDestination ha hlt⟩

theorem inturn_iterate {a : TransposeArgs} (ha : a.Ok) (k : ℕ) (hk : k ≤ a.rank) :
    ∃ js, js.length = k ∧ InturnOk a js ((inturnStep a)^[k]
      ⟨List.replicate a.rank false, List.replicate a.rank false, false, false,
        a.rank - 1, a.rank - 1, []⟩) := by
  induction k with
  | zero =>
    refine ⟨[], rfl, List.nodup_nil, by simp, rfl, ?_⟩
    intro hr
    simp only [List.length_nil] at hr
    have hg : ∀ i, (List.replicate a.rank false).getD i false = false := by
      intro i
      rw [List.getD_eq_getElem?_getD, List.getElem?_replicate]
      split <;> rfl
    refine ⟨rfl, rfl, ⟨?_, ?_, ?_, ?_⟩, ⟨?_, ?_, ?_, ?_⟩⟩
    · simp
    · simp only [Function.iterate_zero, id]; omega
    · exact hg _
    · intro i hi
      simp only [List.not_mem_nil, not_false_iff, true_iff]
      exact ⟨by simp only [Function.iterate_zero, id]; omega, hg i⟩
    · simp
    · simp only [Function.iterate_zero, id]; omega
    · exact hg _
    · intro i hi
      simp only [List.not_mem_nil, not_false_iff, true_iff]
      exact ⟨by simp only [Function.iterate_zero, id]; omega, hg i⟩
  | succ k ih =>
    obtain ⟨js, hl, h⟩ := ih (by omega)
    rw [Function.iterate_succ_apply']
    obtain ⟨j, hj⟩ := h.step ha (by omega)
    exact ⟨j :: js, by simp [hl], hj⟩

/-- The axes chosen by `inturn_transpose` are a permutation of the axes of the transpose. -/
theorem inturnAxes_perm {a : TransposeArgs} (ha : a.Ok) :
    (inturnAxes a).Perm (axesOf a.dimsD a.leadSByDst a.leadD) := by
  obtain ⟨js, hl, h⟩ := inturn_iterate ha a.rank (Nat.le_refl _)
  have hax : axesOf a.dimsD a.leadSByDst a.leadD = (List.range a.rank).map a.axis := by
    have e : ∀ l : List ℕ, l.length = a.rank → l = (List.range a.rank).map fun j => l.getD j 0 := by
      intro l hl
      apply List.ext_getElem?
      intro i
      rw [List.getElem?_map]
      by_cases hi : i < a.rank
      · rw [List.getElem?_range hi, Option.map_some, List.getElem?_eq_getElem (by omega),
          List.getD_eq_getElem _ _ (by omega)]
      · rw [List.getElem?_eq_none (by omega), List.getElem?_eq_none (by simp; omega)]; rfl
    have h1 := e a.dimsD ha.dimsDLen
    have h2 := e a.leadD ha.leadDLen
    rw [← axesOf_map ((List.range a.rank).map a.axis)]
    simp only [List.map_map]
    have e1 : ((fun a : ℕ × ℕ × ℕ => a.1) ∘ a.axis) = fun j => a.dimsD.getD j 0 := rfl
    have e2 : ((fun a : ℕ × ℕ × ℕ => a.2.1) ∘ a.axis) =
      fun i => a.leadS.getD (a.d2s.getD i 0) 0 := rfl
    have e3 : ((fun a : ℕ × ℕ × ℕ => a.2.2) ∘ a.axis) = fun j => a.leadD.getD j 0 := rfl
    rw [e1, e2, e3, ← h1, ← h2]
    rfl
  unfold inturnAxes
  rw [h.axes, hax]
  apply List.Perm.map
  have hsub : js.Subperm (List.range a.rank) :=
    List.subperm_of_subset h.nodup fun j hj => List.mem_range.2 (h.lt j hj)
  exact hsub.perm_of_length_le (by rw [List.length_range, hl])

end TAT
