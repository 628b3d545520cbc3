import Verif.Name.Model
import Mathlib.Order.Nat

/-!
# Property C10: interning of edge names
-/

namespace TAT

variable {S : Type} [LinearOrder S]

/-- A dataset is consistent: the two tables are inverse to each other and the counter is the number
of strings. -/
structure Dataset.Consistent (d : Dataset S) : Prop where
  total : d.namesTotalIndex = d.idToName.length
  nodup : d.idToName.Nodup
  inverse : ∀ s i, OMap.find? d.nameToId s = some i ↔ d.idToName[i]? = some s
  sorted : OMap.Sorted d.nameToId

theorem Dataset.init_consistent (empty : S) : (Dataset.init empty).Consistent := by
  refine ⟨rfl, by simp [Dataset.init], ?_, by simp [Dataset.init, OMap.Sorted]⟩
  intro s i
  simp only [Dataset.init, OMap.find?]
  by_cases h : empty = s
  · subst h
    cases i <;> simp
  · cases i <;> simp [h, Ne.symm h]

theorem mkName_consistent {d : Dataset S} (h : d.Consistent) (s : S) :
    (mkName d s).1.Consistent := by
  unfold mkName
  cases hf : OMap.find? d.nameToId s with
  | some i => exact h
  | none =>
    have hns : s ∉ d.idToName := by
      intro hmem
      obtain ⟨i, hi, hs⟩ := List.mem_iff_getElem.1 hmem
      have := (h.inverse s i).2 (by rw [List.getElem?_eq_getElem hi, hs])
      rw [hf] at this; cases this
    refine ⟨by simp [h.total], ?_, ?_, h.sorted.set _ _⟩
    · rw [List.nodup_append]
      refine ⟨h.nodup, by simp, ?_⟩
      intro a ha b hb
      simp only [List.mem_singleton] at hb
      rintro rfl
      exact hns (hb ▸ ha)
    · intro x i
      simp only
      rw [OMap.find?_set, h.total, List.getElem?_append]
      split
      · rename_i hx
        subst hx
        split
        · rename_i hi
          constructor
          · intro heq; cases heq; omega
          · intro heq
            exact absurd (List.mem_of_getElem? heq) hns
        · rename_i hi
          constructor
          · intro heq; cases heq; simp
          · intro heq
            have : i - d.idToName.length < 1 := by
              by_contra hc
              rw [List.getElem?_eq_none (by simp; omega)] at heq
              cases heq
            have : i = d.idToName.length := by omega
            rw [this]
      · rename_i hx
        rw [h.inverse]
        split
        · rfl
        · rename_i hi
          constructor
          · intro heq
            rw [List.getElem?_eq_none (by omega)] at heq; cases heq
          · intro heq
            have := List.mem_of_getElem? heq
            simp only [List.mem_singleton] at this
            exact absurd this hx

theorem load_inverse (saved : List S) (hn : saved.Nodup) :
    ∀ k ≤ saved.length, ∀ s i,
      OMap.find? ((List.range k).foldl (loadStep saved) []) s = some i ↔
        i < k ∧ saved[i]? = some s := by
  intro k
  induction k with
  | zero => intro _ n i; simp [OMap.find?]
  | succ k ih =>
    intro hk s i
    rw [List.range_succ, List.foldl_append]
    simp only [List.foldl_cons, List.foldl_nil]
    rw [loadStep, List.getElem?_eq_getElem (by omega : k < saved.length)]
    simp only
    rw [OMap.find?_set]
    split
    · rename_i heq
      constructor
      · intro h'
        cases h'
        rw [List.getElem?_eq_getElem (by omega), heq]
        exact ⟨by omega, rfl⟩
      · rintro ⟨h1, h2⟩
        have h3 : i < saved.length := by omega
        rw [List.getElem?_eq_getElem h3, Option.some.injEq, heq] at h2
        have := (List.Nodup.getElem_inj_iff hn).1 h2
        simp [this]
    · rename_i hne
      rw [ih (by omega)]
      constructor
      · rintro ⟨h1, h2⟩; exact ⟨by omega, h2⟩
      · rintro ⟨h1, h2⟩
        refine ⟨?_, h2⟩
        rcases Nat.lt_succ_iff_lt_or_eq.1 h1 with h3 | h3
        · exact h3
        · subst h3
          rw [List.getElem?_eq_getElem (by omega), Option.some.injEq] at h2
          exact absurd h2.symm hne

theorem load_consistent (d : Dataset S) {saved : List S} (hn : saved.Nodup) :
    (loadDataset d saved).Consistent := by
  refine ⟨rfl, hn, ?_, ?_⟩
  · intro s i
    have := load_inverse saved hn saved.length (Nat.le_refl _) s i
    simp only [loadDataset]
    rw [this]
    constructor
    · exact fun h => h.2
    · intro h
      refine ⟨?_, h⟩
      by_contra hc
      rw [List.getElem?_eq_none (by omega)] at h; cases h
  · simp only [loadDataset]
    have : ∀ k, OMap.Sorted ((List.range k).foldl (loadStep saved) []) := by
      intro k
      induction k with
      | zero => simp [OMap.Sorted]
      | succ k ih =>
        rw [List.range_succ, List.foldl_append]
        simp only [List.foldl_cons, List.foldl_nil, loadStep]
        split
        · exact ih
        · exact ih.set _ _
    exact this _

/-- A history in which a loaded dataset always extends the strings already known (as when a program
starts by loading the dataset of an earlier run, or loads one it saved itself without creating names
since), and contains no string twice (as every saved dataset does). -/
def GoodHistory (st : NameState S) : List (NameEvent S) → Prop
  | [] => True
  | ev :: evs =>
    (match ev with
      | .create _ => True
      | .load saved => st.dataset.idToName <+: saved ∧ saved.Nodup) ∧
    GoodHistory (nameStep st ev) evs

/-- The invariant: consistent dataset in which every issued name is still valid. -/
def NameInv (st : NameState S) : Prop :=
  st.dataset.Consistent ∧ ∀ x ∈ st.issued, st.dataset.idToName[x.1]? = some x.2

theorem mkName_string {d : Dataset S} (h : d.Consistent) (s : S) :
    (mkName d s).1.idToName[(mkName d s).2]? = some s := by
  unfold mkName
  cases hf : OMap.find? d.nameToId s with
  | some i => exact (h.inverse s i).1 hf
  | none =>
    simp only
    rw [h.total, List.getElem?_append_right (Nat.le_refl _)]
    simp

theorem mkName_prefix (d : Dataset S) (s : S) : d.idToName <+: (mkName d s).1.idToName := by
  unfold mkName
  split
  · exact List.prefix_append _ _
  · exact List.prefix_refl _

omit [LinearOrder S] in
theorem prefix_getElem? {l l' : List S} (h : l <+: l') {i : ℕ} {s : S} (hs : l[i]? = some s) :
    l'[i]? = some s := by
  obtain ⟨m, rfl⟩ := h
  have hi : i < l.length := by
    by_contra hc
    rw [List.getElem?_eq_none (by omega)] at hs; cases hs
  rw [List.getElem?_append_left hi]; exact hs

theorem nameInv_history (evs : List (NameEvent S)) (st : NameState S) (h : NameInv st)
    (hg : GoodHistory st evs) : NameInv (evs.foldl nameStep st) := by
  induction evs generalizing st with
  | nil => exact h
  | cons ev evs ih =>
    obtain ⟨h1, h2⟩ := hg
    apply ih _ _ h2
    cases ev with
    | create s =>
      refine ⟨mkName_consistent h.1 s, ?_⟩
      intro x hx
      rcases List.mem_cons.1 hx with rfl | hx
      · exact mkName_string h.1 s
      · exact prefix_getElem? (mkName_prefix _ s) (h.2 x hx)
    | load saved =>
      exact ⟨load_consistent st.dataset h1.2, fun x hx => prefix_getElem? h1.1 (h.2 x hx)⟩

/-- C10 for histories whose loads extend the known names: two names ever issued compare equal
exactly when their strings are equal; a name converts to the string it was made from and that string
converts back to the same name.

What is missing for the full statement: loads of a dataset that does not extend the current one;
for those the statement is false, see `C10_older_dataset_counterexample`. -/
theorem C10_interning_partial (empty : S) (evs : List (NameEvent S))
    (hg : GoodHistory (NameState.init empty) evs) :
    let st := evs.foldl nameStep (NameState.init empty)
    (∀ x ∈ st.issued, ∀ y ∈ st.issued, (x.1 = y.1 ↔ x.2 = y.2)) ∧
    (∀ x ∈ st.issued, nameString st.dataset x.1 = .ok x.2 ∧
      mkName st.dataset x.2 = (st.dataset, x.1)) := by
  intro st
  have hinv : NameInv st := by
    apply nameInv_history evs _ _ hg
    refine ⟨Dataset.init_consistent empty, ?_⟩
    intro x hx
    simp only [NameState.init, List.mem_singleton] at hx
    subst hx
    simp [NameState.init, Dataset.init]
  refine ⟨?_, ?_⟩
  · intro x hx y hy
    have h1 := hinv.2 x hx
    have h2 := hinv.2 y hy
    constructor
    · intro h
      rw [h, h2] at h1
      exact (Option.some.inj h1).symm
    · intro h
      rw [← h] at h2
      have e1 := (hinv.1.inverse x.2 x.1).2 h1
      have e2 := (hinv.1.inverse x.2 y.1).2 h2
      rw [e1] at e2
      exact Option.some.inj e2
  · intro x hx
    have h1 := hinv.2 x hx
    refine ⟨by simp [nameString, h1], ?_⟩
    have e1 := (hinv.1.inverse x.2 x.1).2 h1
    simp [mkName, e1]

/-- C10: a fresh string gets an identifier that was never issued before, in every good history. -/
theorem C10_ids_not_reused_partial (empty : S) (evs : List (NameEvent S))
    (hg : GoodHistory (NameState.init empty) evs) (s : S) :
    let st := evs.foldl nameStep (NameState.init empty)
    (∀ x ∈ st.issued, x.2 ≠ s) → ∀ x ∈ st.issued, x.1 ≠ (mkName st.dataset s).2 := by
  intro st hs x hx heq
  have hg' : GoodHistory (NameState.init empty) (evs ++ [.create s]) := by
    clear hs hx heq
    have : ∀ (evs : List (NameEvent S)) (st : NameState S), GoodHistory st evs →
        GoodHistory st (evs ++ [.create s]) := by
      intro evs
      induction evs with
      | nil => intro st _; exact ⟨trivial, trivial⟩
      | cons ev evs ih => intro st h; exact ⟨h.1, ih _ h.2⟩
    exact this evs _ hg
  have h := (C10_interning_partial empty _ hg').1
  simp only [List.foldl_append, List.foldl_cons, List.foldl_nil] at h
  have h1 := h x (by simp only [nameStep]; exact List.mem_cons_of_mem _ hx)
    ((mkName st.dataset s).2, s) (by simp only [nameStep]; exact List.mem_cons_self)
  exact hs x hx (h1.1 heq)

/-- C10: saving and loading restores the dataset completely, whatever was there before the load: for
every history on the saving side and every dataset on the loading side. -/
theorem C10_save_load (empty : S) (evs : List (NameEvent S))
    (hg : GoodHistory (NameState.init empty) evs) (other : Dataset S) :
    let d := (evs.foldl nameStep (NameState.init empty)).dataset
    loadDataset other (dumpDataset d) = d := by
  intro d
  have hinv : NameInv (evs.foldl nameStep (NameState.init empty)) := by
    apply nameInv_history evs _ _ hg
    refine ⟨Dataset.init_consistent empty, ?_⟩
    intro x hx
    simp only [NameState.init, List.mem_singleton] at hx
    subst hx
    simp [NameState.init, Dataset.init]
  have hc : d.Consistent := hinv.1
  have hl := load_consistent other (saved := d.idToName) hc.nodup
  have h1 : (loadDataset other (dumpDataset d)).nameToId = d.nameToId := by
    apply OMap.ext hl.sorted hc.sorted
    intro s
    apply Option.ext
    intro i
    have e1 := hl.inverse s i
    have e2 := hc.inverse s i
    exact e1.trans e2.symm
  have h2 : (loadDataset other (dumpDataset d)).namesTotalIndex = d.namesTotalIndex := hc.total.symm
  have h3 : (loadDataset other (dumpDataset d)).idToName = d.idToName := rfl
  cases hd : d with
  | mk a b c =>
    rw [hd] at h1 h2 h3
    cases hl' : loadDataset other (dumpDataset ⟨a, b, c⟩) with
    | mk a' b' c' =>
      rw [hl'] at h1 h2 h3
      simp_all

/-- C10 is false for a history that loads a dataset saved before names were created: the identifier 1
is issued for the string 5 and again for the string 9, so two names with different strings compare
equal and the first name now converts to the wrong string. -/
theorem C10_older_dataset_counterexample :
    let saved := dumpDataset (Dataset.init 0)
    let st := [NameEvent.create 5, .load saved, .create 9].foldl nameStep (NameState.init 0)
    (1, 5) ∈ st.issued ∧ (1, 9) ∈ st.issued ∧ nameString st.dataset 1 = .ok 9 := by
  decide

/-- A concrete good history: start, load the dataset of an earlier run, create an old and a new name.
-/
example : GoodHistory (NameState.init 0) [.load [0, 4, 7], .create 7, .create 3] ∧
    ([.load [0, 4, 7], .create 7, .create 3].foldl nameStep (NameState.init 0)).issued =
      [(3, 3), (2, 7), (0, 0)] := by
  refine ⟨⟨⟨by decide, by decide⟩, trivial, trivial, trivial⟩, by decide⟩

end TAT
