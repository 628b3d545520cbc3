import Verif.Shrink.Spec

/-!
# The slots of `shrink`
-/

set_option linter.unusedSectionVars false

namespace TAT

variable {ν σ α : Type} [LinearOrder ν] [TatSym σ]

/-- The slot belonging to an edge that is fixed. -/
def slotOf (t : Tensor ν σ α) (cfg : List (ν × (σ × ℕ))) (n : ν) : Slot ν σ :=
  let x := (chosen cfg n).getD (0, 0)
  ⟨n, !(edgeOf t n).arrow, -x.1, x.2, dimM (mapOf t n) x.1⟩

theorem shrinkSlot_eq (t : Tensor ν σ α) (cfg : List (ν × (σ × ℕ))) (n : ν) :
    shrinkSlot cfg n (edgeOf t n) =
      match chosen cfg n with
      | none => .ok none
      | some x => if x.1 ∈ OMap.keys (mapOf t n) then .ok (some (slotOf t cfg n))
        else .error "map::at" := by
  unfold shrinkSlot slotOf
  unfold chosen
  cases cfg.find? fun c => decide (c.1 = n) with
  | none => rfl
  | some c =>
    simp only [Option.map_some, Option.getD_some]
    unfold dimM
    change (match OMap.find? (mapOf t n) c.2.1 with
      | none => _
      | some d => _) = _
    cases hf : OMap.find? (mapOf t n) c.2.1 with
    | none => rw [if_neg (OMap.find?_eq_none.1 hf)]
    | some d =>
      rw [if_pos (OMap.find?_isSome.1 (by rw [hf]; rfl))]
      rfl

theorem shrinkSlots_eq {t : Tensor ν σ α} (h : WF t) {cfg : List (ν × (σ × ℕ))}
    (hk : ∀ n ∈ t.names, ∀ x, chosen cfg n = some x → x.1 ∈ OMap.keys (mapOf t n)) :
    shrinkSlots cfg (t.names.zip t.core.edges) =
      .ok ((slicedNames cfg t.names).map (slotOf t cfg)) := by
  rw [edges_named h]
  have : ∀ l : List ν, (∀ n ∈ l, n ∈ t.names) → shrinkSlots cfg (l.zip (l.map (edgeOf t))) =
      .ok ((slicedNames cfg l).map (slotOf t cfg)) := by
    intro l
    induction l with
    | nil => intro _; rfl
    | cons n l ih =>
      intro hl
      rw [List.map_cons, List.zip_cons_cons]
      unfold shrinkSlots
      dsimp only
      rw [shrinkSlot_eq, ih fun m hm => hl m (by simp [hm])]
      unfold slicedNames
      rw [List.filter_cons]
      cases hc : chosen cfg n with
      | none => rfl
      | some x =>
        dsimp only
        rw [if_pos (hk n (hl n (by simp)) x hc)]
        rfl
  exact this _ fun _ hn => hn

theorem shrinkSlots_error {t : Tensor ν σ α} (h : WF t) {cfg : List (ν × (σ × ℕ))} {n : ν}
    (hn : n ∈ t.names) {x : σ × ℕ} (hc : chosen cfg n = some x) (hx : x.1 ∉ OMap.keys (mapOf t n)) :
    shrinkSlots cfg (t.names.zip t.core.edges) = .error "map::at" := by
  rw [edges_named h]
  have : ∀ l : List ν, n ∈ l → shrinkSlots cfg (l.zip (l.map (edgeOf t))) = .error "map::at" := by
    intro l
    induction l with
    | nil => intro h; simp at h
    | cons m l ih =>
      intro hl
      rw [List.map_cons, List.zip_cons_cons]
      unfold shrinkSlots
      dsimp only
      rw [shrinkSlot_eq]
      by_cases hm : n = m
      · subst hm
        rw [hc]
        dsimp only
        rw [if_neg hx]
        rfl
      · rw [ih (by simpa [hm] using hl)]
        cases chosen cfg m with
        | none => rfl
        | some y =>
          dsimp only
          split <;> rfl
  exact this _ hn

variable {t : Tensor ν σ α} {cfg : List (ν × (σ × ℕ))}

theorem mem_slicedNames {names : List ν} {n : ν} :
    n ∈ slicedNames cfg names ↔ n ∈ names ∧ ∃ x, chosen cfg n = some x := by
  unfold slicedNames
  rw [List.mem_filter, Option.isSome_iff_exists]

theorem slots_names (l : List ν) : (l.map (slotOf t cfg)).map Slot.name = l := by
  rw [List.map_map]; exact List.map_id _

theorem slots_total : totalSymmetry ((slicedNames cfg t.names).map (slotOf t cfg)) =
    chosenTotal cfg t.names := by
  unfold totalSymmetry chosenTotal
  have : ∀ (l : List ν) (a : σ), (l.map (slotOf t cfg)).foldl (fun a s => a + -s.sym) a =
      a + (l.map fun n => ((chosen cfg n).getD (0, 0)).1).sum := by
    intro l
    induction l with
    | nil => intro a; simp
    | cons n l ih =>
      intro a
      rw [List.map_cons, List.foldl_cons, ih, List.map_cons, List.sum_cons]
      simp only [slotOf]
      rw [neg_neg, add_assoc]
  rw [this, zero_add]

theorem slots_sum (l : List ν) : ((l.map (slotOf t cfg)).map Slot.sym).sum =
    -(l.map fun n => ((chosen cfg n).getD (0, 0)).1).sum := by
  induction l with
  | nil => simp
  | cons n l ih =>
    rw [List.map_cons, List.map_cons, List.sum_cons, ih, List.map_cons, List.sum_cons, neg_add]
    rfl

/-- The slots of `shrink` with the one for the new edge. -/
def allSlots (t : Tensor ν σ α) (cfg : List (ν × (σ × ℕ))) (newName : Option ν) (arrow : Bool) :
    List (Slot ν σ) :=
  (slicedNames cfg t.names).map (slotOf t cfg) ++
    newName.toList.map fun m => ⟨m, arrow, chosenTotal cfg t.names, 0, 1⟩

theorem allSlots_names (newName : Option ν) (arrow : Bool) :
    (allSlots t cfg newName arrow).map Slot.name = slicedNames cfg t.names ++ newName.toList := by
  unfold allSlots
  rw [List.map_append, slots_names, List.map_map]
  congr 1
  exact List.map_id _

/-- `shrink` up to the contraction. -/
theorem shrink_eq [CommRing α] (ce : ContractEnv σ α) (junk : List σ → ℕ → α) (cn : ContractNames ν)
    (h : WF t) (hk : ∀ n ∈ t.names, ∀ x, chosen cfg n = some x → x.1 ∈ OMap.keys (mapOf t n))
    {newName : Option ν} (hnew : newName = none → chosenTotal cfg t.names = 0) (arrow : Bool) :
    shrink ce junk cn t cfg newName arrow =
      (unitTensor junk ((allSlots t cfg newName arrow).map Slot.name)
        ((allSlots t cfg newName arrow).map Slot.edge)
        (slotOffset (allSlots t cfg newName arrow))).bind fun u => contractAllEdge ce cn u t := by
  unfold shrink
  rw [shrinkSlots_eq h hk]
  dsimp only [Outcome.bind]
  rw [slots_total]
  cases newName with
  | none =>
    dsimp only
    rw [if_neg (by simp [hnew rfl])]
    unfold allSlots
    rw [Option.toList_none, List.map_nil, List.append_nil]
  | some m =>
    dsimp only
    have : slotOffset (allSlots t cfg (some m) arrow) =
        slotOffset ((slicedNames cfg t.names).map (slotOf t cfg)) := by
      unfold allSlots slotOffset
      rw [List.foldl_append]
      simp
    rw [this]
    rfl

end TAT
