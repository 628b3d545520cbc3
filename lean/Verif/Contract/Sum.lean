import Verif.Contract.Spec
import Verif.EdgeOp.Surj
import Mathlib.Data.List.Nodup
import Mathlib.Algebra.BigOperators.Ring.List

/-!
# Sums over the positions of edges
-/

set_option linter.unusedSectionVars false

namespace TAT

variable {ν σ α β : Type}

section positions
variable [TatSym σ]

theorem mem_edgePositions {m : List (σ × ℕ)} (hm : OMap.Sorted m) {x : σ × ℕ} :
    x ∈ edgePositions m ↔ x.2 < dimM m x.1 := by
  unfold edgePositions dimM
  rw [List.mem_flatMap]
  constructor
  · rintro ⟨e, he, hx⟩
    obtain ⟨i, hi, rfl⟩ := List.mem_map.1 hx
    rw [OMap.find?_of_mem hm.nodup he]
    exact List.mem_range.1 hi
  · intro h
    cases hf : OMap.find? m x.1 with
    | none => simp [hf] at h
    | some d =>
      rw [hf] at h
      exact ⟨(x.1, d), OMap.mem_of_find? hf, List.mem_map.2 ⟨x.2, List.mem_range.2 h, rfl⟩⟩

theorem edgePositions_nodup {m : List (σ × ℕ)} (hm : OMap.Sorted m) : (edgePositions m).Nodup := by
  have hn := hm.nodup
  clear hm
  unfold edgePositions
  induction m with
  | nil => simp
  | cons e m ih =>
    rw [OMap.keys_cons, List.nodup_cons] at hn
    rw [List.flatMap_cons, List.nodup_append']
    refine ⟨?_, ih hn.2, ?_⟩
    · refine List.Nodup.map (fun a b h => ?_) List.nodup_range
      exact (Prod.mk.inj h).2
    · intro x hx hx'
      obtain ⟨i, _, rfl⟩ := List.mem_map.1 hx
      obtain ⟨e', he', hx'⟩ := List.mem_flatMap.1 hx'
      obtain ⟨j, _, hj⟩ := List.mem_map.1 hx'
      refine hn.1 ?_
      rw [← (Prod.mk.inj hj).1]
      exact List.mem_map_of_mem he'

end positions

section sums
variable [DecidableEq ν]

/-- All positions of the edges `names`, the others as in `w`. -/
def assigns (E : ν → List β) : List ν → (ν → β) → List (ν → β)
  | [], w => [w]
  | n :: ns, w => (E n).flatMap fun x => assigns E ns (Function.update w n x)

theorem sumOver_eq [AddCommMonoid α] (E : ν → List β) (F : (ν → β) → α) (ns : List ν) (w : ν → β) :
    sumOver E F ns w = ((assigns E ns w).map F).sum := by
  induction ns generalizing w with
  | nil => simp [sumOver, assigns]
  | cons n ns ih =>
    unfold sumOver assigns
    rw [List.map_flatMap, List.flatMap_def, List.sum_flatten, List.map_map]
    congr 1
    exact List.map_congr_left fun x _ => ih _

theorem mem_assigns {E : ν → List β} {ns : List ν} (hn : ns.Nodup) {w w' : ν → β} :
    w' ∈ assigns E ns w ↔ (∀ n ∈ ns, w' n ∈ E n) ∧ ∀ n, n ∉ ns → w' n = w n := by
  induction ns generalizing w with
  | nil =>
    simp only [assigns, List.mem_singleton, List.not_mem_nil, false_implies, implies_true, true_and,
      not_false_eq_true, true_implies]
    exact funext_iff
  | cons n ns ih =>
    rw [List.nodup_cons] at hn
    unfold assigns
    rw [List.mem_flatMap]
    constructor
    · rintro ⟨x, hx, h⟩
      obtain ⟨h1, h2⟩ := (ih hn.2).1 h
      refine ⟨fun m hm => ?_, fun m hm => ?_⟩
      · rcases List.mem_cons.1 hm with rfl | hm
        · have := h2 m hn.1
          rw [Function.update_self] at this
          rw [this]; exact hx
        · exact h1 m hm
      · rw [List.mem_cons, not_or] at hm
        rw [h2 m hm.2, Function.update_of_ne hm.1]
    · rintro ⟨h1, h2⟩
      refine ⟨w' n, h1 n (by simp), (ih hn.2).2 ⟨fun m hm => h1 m (by simp [hm]), fun m hm => ?_⟩⟩
      by_cases hmn : m = n
      · subst hmn; rw [Function.update_self]
      · rw [Function.update_of_ne hmn]
        exact h2 m (by simp [hm, hmn])

theorem assigns_nodup {E : ν → List β} {ns : List ν} (hn : ns.Nodup) (hE : ∀ n ∈ ns, (E n).Nodup)
    (w : ν → β) : (assigns E ns w).Nodup := by
  induction ns generalizing w with
  | nil => simp [assigns]
  | cons n ns ih =>
    rw [List.nodup_cons] at hn
    unfold assigns
    rw [List.nodup_flatMap]
    refine ⟨fun x _ => ih hn.2 (fun m hm => hE m (by simp [hm])) _, ?_⟩
    refine (hE n (by simp)).imp fun {a b} hab => ?_
    intro w' h1 h2
    refine hab ?_
    have e1 := ((mem_assigns hn.2).1 h1).2 n hn.1
    have e2 := ((mem_assigns hn.2).1 h2).2 n hn.1
    rw [Function.update_self] at e1 e2
    rw [← e1, ← e2]

/-- The order of the edges summed over does not matter. -/
theorem sumOver_perm [AddCommMonoid α] {E : ν → List β} {F : (ν → β) → α} {ns ns' : List ν}
    (hn : ns.Nodup) (hE : ∀ n ∈ ns, (E n).Nodup) (hp : ns.Perm ns') (w : ν → β) :
    sumOver E F ns w = sumOver E F ns' w := by
  rw [sumOver_eq, sumOver_eq]
  have hn' := hp.nodup_iff.1 hn
  refine List.Perm.sum_eq (List.Perm.map _ ?_)
  refine (List.perm_ext_iff_of_nodup (assigns_nodup hn hE w)
    (assigns_nodup hn' (fun n h => hE n (hp.mem_iff.2 h)) w)).2 fun w' => ?_
  rw [mem_assigns hn, mem_assigns hn']
  simp only [hp.mem_iff]

theorem sum_map_filter [AddCommMonoid α] {γ : Type} (l : List γ) (P : γ → Prop) [DecidablePred P]
    (f : γ → α) : (l.map fun x => if P x then f x else 0).sum = ((l.filter P).map f).sum := by
  induction l with
  | nil => rfl
  | cons x l ih =>
    by_cases h : P x
    · simp [h, ih]
    · simp [h, ih]

theorem sumOver_congr [AddCommMonoid α] {E : ν → List β} {F F' : (ν → β) → α} {ns : List ν}
    (hn : ns.Nodup) {w : ν → β}
    (h : ∀ w', (∀ n ∈ ns, w' n ∈ E n) → (∀ n, n ∉ ns → w' n = w n) → F w' = F' w') :
    sumOver E F ns w = sumOver E F' ns w := by
  rw [sumOver_eq, sumOver_eq]
  congr 1
  refine List.map_congr_left fun w' hw' => ?_
  obtain ⟨h1, h2⟩ := (mem_assigns hn).1 hw'
  exact h w' h1 h2

/-- Positions at which the summand vanishes may be left out. -/
theorem sumOver_restrict [AddCommMonoid α] {E E' : ν → List β} {F : (ν → β) → α} {ns : List ν}
    (hn : ns.Nodup) (hE : ∀ n ∈ ns, (E n).Nodup) (hE' : ∀ n ∈ ns, (E' n).Nodup)
    (hsub : ∀ n ∈ ns, ∀ x ∈ E' n, x ∈ E n) {w : ν → β}
    (hz : ∀ w', (∀ n ∈ ns, w' n ∈ E n) → (∀ n, n ∉ ns → w' n = w n) →
      (∃ n ∈ ns, w' n ∉ E' n) → F w' = 0) :
    sumOver E F ns w = sumOver E' F ns w := by
  classical
  rw [sumOver_eq, sumOver_eq]
  have h1 : ((assigns E ns w).map F).sum =
      ((assigns E ns w).map fun w' => if ∀ n ∈ ns, w' n ∈ E' n then F w' else 0).sum := by
    congr 1
    refine List.map_congr_left fun w' hw' => ?_
    obtain ⟨a1, a2⟩ := (mem_assigns hn).1 hw'
    split
    · rfl
    · rename_i hc
      push Not at hc
      exact hz w' a1 a2 hc
  rw [h1, sum_map_filter]
  refine List.Perm.sum_eq (List.Perm.map _ ?_)
  refine (List.perm_ext_iff_of_nodup ((assigns_nodup hn hE w).filter _)
    (assigns_nodup hn hE' w)).2 fun w' => ?_
  rw [List.mem_filter, mem_assigns hn, mem_assigns hn, decide_eq_true_eq]
  constructor
  · rintro ⟨⟨_, h2⟩, h3⟩
    exact ⟨h3, h2⟩
  · rintro ⟨h2, h3⟩
    exact ⟨⟨fun n h => hsub n h _ (h2 n h), h3⟩, h2⟩

theorem sumOver_zero [AddCommMonoid α] {E : ν → List β} {F : (ν → β) → α} {ns : List ν}
    (hn : ns.Nodup) {w : ν → β}
    (h : ∀ w', (∀ n ∈ ns, w' n ∈ E n) → (∀ n, n ∉ ns → w' n = w n) → F w' = 0) :
    sumOver E F ns w = 0 := by
  rw [sumOver_eq]
  apply List.sum_eq_zero
  intro x hx
  obtain ⟨w', hw', rfl⟩ := List.mem_map.1 hx
  obtain ⟨h1, h2⟩ := (mem_assigns hn).1 hw'
  exact h w' h1 h2

end sums

section group
variable [LinearOrder ν] [TatSym σ]

/-- Summing over a merged edge is summing over the edges merged into it. -/
theorem sum_group [AddCommMonoid α] {fm : ν → List (σ × ℕ)} {g : List ν} (hn : g.Nodup)
    (hs : ∀ n ∈ g, OMap.Sorted (fm n)) (s : σ) (f : ℕ → α) (p : ν → σ × ℕ) :
    ((List.range (mergedDim (g.map fm) s)).map f).sum =
      sumOver (fun n => edgePositions (fm n))
        (fun w => if (keyOf g w).sum = s then f (groupIdx fm g w) else 0) g p := by
  rw [sumOver_eq, sum_map_filter]
  change _ = (List.map (f ∘ groupIdx fm g) _).sum
  rw [← List.map_map]
  refine List.Perm.sum_eq (List.Perm.map _ ?_)
  have hE : ∀ n ∈ g, (edgePositions (fm n)).Nodup := fun n h => edgePositions_nodup (hs n h)
  refine (List.perm_ext_iff_of_nodup List.nodup_range ?_).2 fun i => ?_
  · refine List.Nodup.map_on ?_ ((assigns_nodup hn hE p).filter _)
    intro w hw w' hw' he
    rw [List.mem_filter, mem_assigns hn, decide_eq_true_eq] at hw hw'
    have := groupIdx_inj hs (fun n h => (mem_edgePositions (hs n h)).1 (hw.1.1 n h))
      (fun n h => (mem_edgePositions (hs n h)).1 (hw'.1.1 n h)) (by rw [hw.2, hw'.2]) he
    funext n
    by_cases h : n ∈ g
    · exact this n h
    · rw [hw.1.2 n h, hw'.1.2 n h]
  · rw [List.mem_range, List.mem_map]
    constructor
    · intro hi
      obtain ⟨q, h1, h2, h3⟩ := group_surj_names hn hs hi
      refine ⟨fun n => if n ∈ g then q n else p n, ?_, ?_⟩
      · rw [List.mem_filter, mem_assigns hn, decide_eq_true_eq]
        refine ⟨⟨fun n h => ?_, fun n h => if_neg h⟩, ?_⟩
        · rw [if_pos h]; exact (mem_edgePositions (hs n h)).2 (h1 n h)
        · rw [← h2]
          congr 1
          exact keyOf_congr fun n h => if_pos h
      · rw [← h3]
        exact groupIdx_congr fun n h => if_pos h
    · rintro ⟨w, hw, rfl⟩
      rw [List.mem_filter, mem_assigns hn, decide_eq_true_eq] at hw
      have := groupIdx_lt hs fun n h => (mem_edgePositions (hs n h)).1 (hw.1.1 n h)
      rwa [hw.2] at this

end group

end TAT
