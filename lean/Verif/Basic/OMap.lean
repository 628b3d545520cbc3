import Mathlib.Data.List.Basic
import Mathlib.Order.Defs.LinearOrder
import Mathlib.Order.Basic
import Mathlib.Data.List.Nodup

/-!
# `std::map` as an ascending association list

A C++ `std::map` (and `pmr::map`) is modelled by the list of its entries in ascending key order.
-/

namespace TAT
namespace OMap

variable {κ β : Type} [LinearOrder κ]

/-- Keys strictly ascending: the representation invariant of `std::map`. -/
def Sorted (m : List (κ × β)) : Prop := (m.map Prod.fst).Pairwise (· < ·)

instance (m : List (κ × β)) : Decidable (Sorted m) := inferInstanceAs (Decidable (List.Pairwise _ _))

/-- `map.find(k)`, `map.at(k)`. -/
def find? : List (κ × β) → κ → Option β
  | [], _ => none
  | (k', v) :: m, k => if k = k' then some v else find? m k

/-- `map[k] = v`, `map.insert_or_assign(k, v)`. -/
def set : List (κ × β) → κ → β → List (κ × β)
  | [], k, v => [(k, v)]
  | (k', v') :: m, k, v =>
    if k < k' then (k, v) :: (k', v') :: m
    else if k = k' then (k, v) :: m
    else (k', v') :: set m k v

/-- `map.emplace(k, v)`, `map.insert({k, v})`: an existing entry stays. -/
def emplace : List (κ × β) → κ → β → List (κ × β)
  | [], k, v => [(k, v)]
  | (k', v') :: m, k, v =>
    if k < k' then (k, v) :: (k', v') :: m
    else if k = k' then (k', v') :: m
    else (k', v') :: emplace m k v

/-- `map.erase(k)`. -/
def erase (m : List (κ × β)) (k : κ) : List (κ × β) := m.filter (fun e => !decide (e.1 = k))

/-- The map built by inserting entries one by one. -/
def ofList (l : List (κ × β)) : List (κ × β) := l.foldl (fun m e => set m e.1 e.2) []

/-- the keys -/
def keys (m : List (κ × β)) : List κ := m.map Prod.fst

omit [LinearOrder κ] in
@[simp] theorem keys_cons (e : κ × β) (m : List (κ × β)) : keys (e :: m) = e.1 :: keys m := rfl

theorem find?_eq_none {m : List (κ × β)} {k : κ} : find? m k = none ↔ k ∉ keys m := by
  induction m with
  | nil => simp [find?, keys]
  | cons e m ih =>
    obtain ⟨k', v⟩ := e
    by_cases h : k = k' <;> simp [find?, h, ih]

theorem find?_isSome {m : List (κ × β)} {k : κ} : (find? m k).isSome ↔ k ∈ keys m := by
  rw [← not_iff_not, ← find?_eq_none]; simp

theorem mem_of_find? {m : List (κ × β)} {k : κ} {v : β} (h : find? m k = some v) : (k, v) ∈ m := by
  induction m with
  | nil => simp [find?] at h
  | cons e m ih =>
    obtain ⟨k', v'⟩ := e
    by_cases hk : k = k'
    · simp only [find?, hk, if_true, Option.some.injEq] at h
      simp [hk, h]
    · simp only [find?, hk, if_false] at h
      exact List.mem_cons_of_mem _ (ih h)

theorem Sorted.nodup {m : List (κ × β)} (h : Sorted m) : (keys m).Nodup :=
  List.Pairwise.imp (fun hab => ne_of_lt hab) h

theorem find?_of_mem {m : List (κ × β)} (hn : (keys m).Nodup) {k : κ} {v : β} (h : (k, v) ∈ m) :
    find? m k = some v := by
  induction m with
  | nil => simp at h
  | cons e m ih =>
    obtain ⟨k', v'⟩ := e
    rw [keys_cons, List.nodup_cons] at hn
    rcases List.mem_cons.1 h with h | h'
    · simp only [Prod.mk.injEq] at h
      simp [find?, h.1, h.2]
    · have hne : k ≠ k' := by
        rintro rfl
        exact hn.1 (List.mem_map.2 ⟨(k, v), h', rfl⟩)
      simp [find?, hne, ih hn.2 h']

theorem find?_iff_mem {m : List (κ × β)} (hn : (keys m).Nodup) {k : κ} {v : β} :
    find? m k = some v ↔ (k, v) ∈ m := ⟨mem_of_find?, find?_of_mem hn⟩

theorem mem_keys_set {m : List (κ × β)} {k k' : κ} {v : β} :
    k' ∈ keys (set m k v) ↔ k' = k ∨ k' ∈ keys m := by
  induction m with
  | nil => simp [set, keys]
  | cons e m ih =>
    obtain ⟨k0, v0⟩ := e
    unfold set
    split
    · simp
    · split
      · rename_i h; simp [h]
      · simp [ih]; tauto

theorem Sorted.set {m : List (κ × β)} (h : Sorted m) (k : κ) (v : β) : Sorted (set m k v) := by
  induction m with
  | nil => simp [OMap.set, Sorted]
  | cons e m ih =>
    obtain ⟨k0, v0⟩ := e
    unfold Sorted at h
    rw [List.map_cons, List.pairwise_cons] at h
    unfold OMap.set
    split
    · rename_i hlt
      simp only [Sorted, List.map_cons, List.pairwise_cons, List.mem_cons]
      refine ⟨?_, h⟩
      rintro a (rfl | ha)
      · exact hlt
      · exact lt_trans hlt (h.1 a ha)
    · split
      · rename_i _ heq
        subst heq
        simp only [Sorted, List.map_cons, List.pairwise_cons]
        exact h
      · rename_i h1 h2
        have hlt : k0 < k := lt_of_le_of_ne (not_lt.1 h1) (fun h => h2 h.symm)
        have := ih h.2
        simp only [Sorted, List.map_cons, List.pairwise_cons]
        refine ⟨?_, this⟩
        intro a ha
        rcases mem_keys_set.1 ha with rfl | ha
        · exact hlt
        · exact h.1 a ha

theorem find?_set (m : List (κ × β)) (k k' : κ) (v : β) :
    find? (set m k v) k' = if k' = k then some v else find? m k' := by
  induction m with
  | nil => simp [set, find?]
  | cons e m ih =>
    obtain ⟨k0, v0⟩ := e
    unfold set
    split
    · simp [find?]
    · split
      · rename_i h; subst h; by_cases hk : k' = k <;> simp [find?, hk]
      · rename_i _ h
        by_cases hk : k' = k0
        · have : k' ≠ k := fun h' => h (h' ▸ hk)
          subst hk
          simp [find?, this]
        · simp [find?, hk, ih]

theorem set_append {m : List (κ × β)} {k : κ} {v : β} (h : ∀ k' ∈ keys m, k' < k) :
    set m k v = m ++ [(k, v)] := by
  induction m with
  | nil => rfl
  | cons e m ih =>
    obtain ⟨k0, v0⟩ := e
    have h0 : k0 < k := h k0 (by simp)
    unfold set
    rw [if_neg (not_lt.2 h0.le), if_neg (ne_of_gt h0), ih (fun k' hk' => h k' (by simp [hk']))]
    rfl

theorem foldl_set_sorted (m l : List (κ × β)) (h : Sorted (m ++ l)) :
    l.foldl (fun m e => set m e.1 e.2) m = m ++ l := by
  induction l generalizing m with
  | nil => simp
  | cons e l ih =>
    have h1 : set m e.1 e.2 = m ++ [e] := by
      apply set_append
      intro k' hk'
      unfold Sorted at h
      rw [List.map_append, List.pairwise_append] at h
      exact h.2.2 k' hk' e.1 (by simp)
    rw [List.foldl_cons, h1, ih _ (by simpa using h)]
    simp

/-- Inserting ascending entries into an empty map gives exactly these entries. -/
theorem ofList_sorted {l : List (κ × β)} (h : Sorted l) : ofList l = l := by
  unfold ofList
  rw [foldl_set_sorted [] l (by simpa using h)]
  rfl

theorem sorted_foldl_set (m l : List (κ × β)) (h : Sorted m) :
    Sorted (l.foldl (fun m e => set m e.1 e.2) m) := by
  induction l generalizing m with
  | nil => exact h
  | cons e l ih => exact ih _ (h.set e.1 e.2)

theorem Sorted.filter {m : List (κ × β)} (h : Sorted m) (p : κ × β → Bool) :
    Sorted (m.filter p) :=
  List.Pairwise.sublist (List.Sublist.map _ List.filter_sublist) h

theorem Sorted.erase {m : List (κ × β)} (h : Sorted m) (k : κ) : Sorted (erase m k) := h.filter _

theorem find?_erase (m : List (κ × β)) (k k' : κ) :
    find? (erase m k) k' = if k' = k then none else find? m k' := by
  unfold erase
  induction m with
  | nil => simp [find?]
  | cons e m ih =>
    obtain ⟨k0, v0⟩ := e
    by_cases h0 : k0 = k
    · subst h0
      by_cases hk : k' = k0
      · simp_all
      · simp [find?, hk, ih]
    · by_cases hk : k' = k0
      · subst hk; simp [find?, h0]
      · simp [find?, h0, hk, ih]

theorem find?_map_val {γ : Type} (m : List (κ × β)) (f : κ → β → γ) (k : κ) :
    find? (m.map fun e => (e.1, f e.1 e.2)) k = (find? m k).map (f k) := by
  induction m with
  | nil => rfl
  | cons e m ih =>
    obtain ⟨k0, v0⟩ := e
    by_cases h : k = k0
    · subst h; simp [find?]
    · simp [find?, h, ih]

/-- Two ascending maps with the same lookups are equal. -/
theorem ext {m n : List (κ × β)} (hm : Sorted m) (hn : Sorted n)
    (h : ∀ k, find? m k = find? n k) : m = n := by
  induction m generalizing n with
  | nil =>
    cases n with
    | nil => rfl
    | cons e n => have := h e.1; simp [find?] at this
  | cons e m ih =>
    obtain ⟨k, v⟩ := e
    cases n with
    | nil => have := h k; simp [find?] at this
    | cons e' n =>
      obtain ⟨k', v'⟩ := e'
      have hm1 := hm; have hn1 := hn
      unfold Sorted at hm1 hn1
      rw [List.map_cons, List.pairwise_cons] at hm1 hn1
      have hk : k = k' := by
        rcases lt_trichotomy k k' with hlt | heq | hgt
        · exfalso
          have h1 := h k
          have h2 : find? n k = none := find?_eq_none.2 (fun hin => lt_asymm hlt (hn1.1 k hin))
          simp [find?, ne_of_lt hlt, h2] at h1
        · exact heq
        · exfalso
          have h1 := h k'
          have h2 : find? m k' = none := find?_eq_none.2 (fun hin => lt_asymm hgt (hm1.1 k' hin))
          simp [find?, ne_of_lt hgt, h2] at h1
      subst hk
      have hv : v = v' := by have := h k; simpa [find?] using this
      subst hv
      congr 1
      apply ih hm1.2 hn1.2
      intro k0
      by_cases hk0 : k0 = k
      · subst hk0
        have h1 : find? m k0 = none := find?_eq_none.2 (fun hin => lt_irrefl _ (hm1.1 k0 hin))
        have h2 : find? n k0 = none := find?_eq_none.2 (fun hin => lt_irrefl _ (hn1.1 k0 hin))
        rw [h1, h2]
      · have := h k0
        simpa [find?, hk0] using this

theorem emplace_eq (m : List (κ × β)) (hm : Sorted m) (k : κ) (v : β) :
    emplace m k v = if k ∈ keys m then m else set m k v := by
  induction m with
  | nil => simp [emplace, set, keys]
  | cons e m ih =>
    obtain ⟨k0, v0⟩ := e
    unfold Sorted at hm
    rw [List.map_cons, List.pairwise_cons] at hm
    unfold emplace set
    by_cases h1 : k < k0
    · have : k ∉ keys ((k0, v0) :: m) := by
        intro hin
        rcases List.mem_cons.1 hin with h | h
        · exact absurd h (ne_of_lt h1)
        · exact lt_asymm h1 (hm.1 k h)
      rw [if_pos h1, if_neg this, if_pos h1]
    · rw [if_neg h1, if_neg h1]
      by_cases h2 : k = k0
      · simp [h2]
      · rw [if_neg h2, if_neg h2, ih hm.2]
        by_cases h3 : k ∈ keys m
        · simp [h3]
        · rw [if_neg h3, if_neg]
          simp [h2, h3]

end OMap
end TAT
