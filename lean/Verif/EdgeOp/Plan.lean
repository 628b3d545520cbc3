import Verif.EdgeOp.Lead
import Verif.Tensor.Props
import Mathlib.Data.List.Nodup

/-!
# The transposition plan
-/

namespace TAT

variable {ν σ α : Type}

theorem flagsFrom_map {β γ : Type} (f : β → γ) (k : ℕ) (groups : List (List β)) :
    flagsFrom k (groups.map (List.map f)) = flagsFrom k groups := by
  induction groups generalizing k with
  | nil => rfl
  | cons g gs ih => simp only [List.map_cons, flagsFrom, List.length_map, ih]

theorem flagsOf_map {β γ : Type} (f : β → γ) (groups : List (List β)) :
    flagsOf (groups.map (List.map f)) = flagsOf groups := flagsFrom_map f 0 groups

theorem flagsFrom_length {β : Type} (k : ℕ) (groups : List (List β)) :
    (flagsFrom k groups).length = groups.flatten.length := by
  induction groups generalizing k with
  | nil => rfl
  | cons g gs ih => simp [flagsFrom, ih]

theorem flagsOf_singletons {β : Type} (l : List β) :
    flagsOf (l.map fun x => [x]) = List.range l.length := by
  have : ∀ k, flagsFrom k (l.map fun x => [x]) = List.range' k l.length := by
    induction l with
    | nil => intro k; rfl
    | cons x l ih =>
      intro k
      simp only [List.map_cons, flagsFrom, ih, List.length_cons, List.range'_succ]
      rfl
  rw [flagsOf, this, List.range_eq_range']

section plan
variable [LinearOrder ν]

theorem nameToIndex_fold {names : List ν} (hn : names.Nodup) (k : ℕ) (hk : k ≤ names.length) (n : ν) :
    OMap.find? ((List.range k).foldl (indexStep names) []) n =
      if names.idxOf n < k then some (names.idxOf n) else none := by
  induction k with
  | zero => simp [OMap.find?]
  | succ k ih =>
    rw [List.range_succ, List.foldl_append, List.foldl_cons, List.foldl_nil]
    have hlt : k < names.length := by omega
    have hstep : ∀ m, indexStep names m k = OMap.set m names[k] k := by
      intro m
      unfold indexStep
      rw [List.getElem?_eq_getElem hlt]
    rw [hstep, OMap.find?_set, ih (by omega)]
    have hidx : names.idxOf names[k] = k := hn.idxOf_getElem k hlt
    by_cases h : n = names[k]
    · rw [if_pos h, h, hidx, if_pos (by omega)]
    · rw [if_neg h]
      have hne : names.idxOf n ≠ k := by
        intro he
        apply h
        have : names.idxOf n < names.length := by omega
        have := List.getElem_idxOf this
        rw [← this]
        simp only [he]
      by_cases h2 : names.idxOf n < k
      · rw [if_pos h2, if_pos (by omega)]
      · rw [if_neg h2, if_neg (by omega)]

theorem nameToIndex_find {names : List ν} (hn : names.Nodup) (n : ν) :
    OMap.find? (nameToIndex names) n = if n ∈ names then some (names.idxOf n) else none := by
  unfold nameToIndex
  rw [nameToIndex_fold hn _ (le_refl _)]
  simp only [List.idxOf_lt_length_iff]

theorem planLoop_ok {A B : List ν} (hA : A.Nodup) (h : ∀ n ∈ B, n ∈ A) :
    planLoop (nameToIndex A) B = .ok (B.map fun n => A.idxOf n) := by
  induction B with
  | nil => rfl
  | cons n B ih =>
    rw [planLoop, planOne, nameToIndex_find hA, if_pos (h n (by simp)),
      ih fun x hx => h x (by simp [hx])]
    rfl

theorem planLoop_error {A B : List ν} (hA : A.Nodup) (h : ∃ n ∈ B, n ∉ A) :
    planLoop (nameToIndex A) B = .error "Tensor to transpose with incompatible name list" := by
  induction B with
  | nil => obtain ⟨n, hn, _⟩ := h; simp at hn
  | cons n B ih =>
    rw [planLoop, planOne, nameToIndex_find hA]
    by_cases hn : n ∈ A
    · rw [if_pos hn]
      obtain ⟨x, hx, hx'⟩ := h
      rcases List.mem_cons.1 hx with rfl | hx
      · exact absurd hn hx'
      · simp only [Outcome.bind]
        rw [ih ⟨x, hx, hx'⟩]
    · rw [if_neg hn]; rfl

theorem getD_map_idxOf {β : Type} (f : ν → β) (d : β) {A : List ν} {n : ν} (h : n ∈ A) :
    (A.map f).getD (A.idxOf n) d = f n := by
  have := List.idxOf_lt_length_iff.2 h
  rw [List.getD_eq_getElem _ _ (by simpa using this), List.getElem_map, List.getElem_idxOf]

theorem gather_perm {β : Type} (f : ν → β) (d : β) {A B : List ν} (h : ∀ n ∈ B, n ∈ A) :
    gather d (B.map fun n => A.idxOf n) (A.map f) = B.map f := by
  unfold gather
  rw [List.map_map]
  exact List.map_congr_left fun n hn => getD_map_idxOf f d (h n hn)

theorem scatter_perm {β : Type} (f : ν → β) (d : β) {A B : List ν} (hA : A.Nodup) (hB : B.Nodup)
    (hp : A.Perm B) : scatter d (A.map fun n => B.idxOf n) (A.map f) = B.map f := by
  unfold scatter
  rw [List.length_map]
  have key : ∀ k, k ≤ A.length →
      ((List.range k).foldl (fun l i => l.set ((A.map fun n => B.idxOf n).getD i 0)
        ((A.map f).getD i d)) (List.replicate A.length d)).length = A.length ∧
      ∀ n ∈ A, A.idxOf n < k →
        ((List.range k).foldl (fun l i => l.set ((A.map fun n => B.idxOf n).getD i 0)
          ((A.map f).getD i d)) (List.replicate A.length d))[B.idxOf n]? = some (f n) := by
    intro k
    induction k with
    | zero => intro _; exact ⟨by simp, by simp⟩
    | succ k ih =>
      intro hk
      obtain ⟨ih1, ih2⟩ := ih (by omega)
      rw [List.range_succ, List.foldl_append, List.foldl_cons, List.foldl_nil]
      refine ⟨by rw [List.length_set]; exact ih1, fun n hn hnk => ?_⟩
      have e1 : (A.map fun n => B.idxOf n).getD k 0 = B.idxOf A[k] := by
        rw [List.getD_eq_getElem _ _ (by simp; omega), List.getElem_map]
      have e2 : (A.map f).getD k d = f A[k] := by
        rw [List.getD_eq_getElem _ _ (by simp; omega), List.getElem_map]
      rw [e1, e2]
      by_cases he : n = A[k]
      · subst he
        rw [List.getElem?_set_self]
        rw [ih1, hp.length_eq, List.idxOf_lt_length_iff]
        exact hp.subset hn
      · rw [List.getElem?_set_ne, ih2 n hn]
        · have : A.idxOf n ≠ k := by
            intro h
            apply he
            have h1 := List.getElem_idxOf (List.idxOf_lt_length_iff.2 hn)
            rw [← h1]
            simp only [h]
          omega
        · intro h
          apply he
          exact ((List.idxOf_inj (hp.subset (List.getElem_mem (by omega)))).1 h).symm
  obtain ⟨k1, k2⟩ := key A.length (le_refl _)
  apply List.ext_getElem?
  intro i
  by_cases hi : i < B.length
  · have h2 := k2 B[i] (hp.mem_iff.2 (List.getElem_mem hi))
      (List.idxOf_lt_length_iff.2 (hp.mem_iff.2 (List.getElem_mem hi)))
    rw [hB.idxOf_getElem i hi] at h2
    rw [h2, List.getElem?_map, List.getElem?_eq_getElem hi]; rfl
  · rw [List.getElem?_eq_none (by rw [k1, hp.length_eq]; omega),
      List.getElem?_eq_none (by simp; omega)]

theorem range_eq_map_idxOf {B : List ν} (hB : B.Nodup) :
    List.range B.length = B.map fun n => B.idxOf n := by
  apply List.ext_getElem
  · simp
  · intro i h1 h2
    simp only [List.getElem_range, List.getElem_map]
    rw [hB.idxOf_getElem]

/-- The inverse plan. -/
theorem scatter_plan {A B : List ν} (hA : A.Nodup) (hB : B.Nodup) (hp : A.Perm B) :
    scatter 0 (B.map fun n => A.idxOf n) (List.range (B.map fun n => A.idxOf n).length) =
      A.map fun n => B.idxOf n := by
  rw [List.length_map, range_eq_map_idxOf hB, scatter_perm _ 0 hB hA hp.symm]

/-- The arguments of the transpose kernels built by `edge_operator` are consistent. -/
theorem planArgs_ok {A B : List ν} (hA : A.Nodup) (hB : B.Nodup) (hp : A.Perm B) (dim : ν → ℕ)
    (ls ld : List ℕ) (hls : ls.length = A.length) (hld : ld.length = B.length) :
    TransposeArgs.Ok {
      s2d := A.map fun n => B.idxOf n
      d2s := B.map fun n => A.idxOf n
      dimsS := A.map dim
      dimsD := B.map dim
      leadS := ls
      leadD := ld
      rank := (A.map fun n => B.idxOf n).length } := by
  have hlen := hp.length_eq
  have s2d : ∀ i, (h : i < A.length) → (A.map fun n => B.idxOf n).getD i 0 = B.idxOf A[i] := by
    intro i h
    rw [List.getD_eq_getElem _ _ (by simpa using h), List.getElem_map]
  have d2s : ∀ i, (h : i < B.length) → (B.map fun n => A.idxOf n).getD i 0 = A.idxOf B[i] := by
    intro i h
    rw [List.getD_eq_getElem _ _ (by simpa using h), List.getElem_map]
  have memB : ∀ i, (h : i < A.length) → A[i] ∈ B := fun i h => hp.subset (List.getElem_mem h)
  have memA : ∀ i, (h : i < B.length) → B[i] ∈ A := fun i h => hp.mem_iff.2 (List.getElem_mem h)
  constructor <;> simp only [List.length_map]
  · exact hlen.symm
  · exact hlen.symm
  · exact hls
  · omega
  · intro i hi
    rw [s2d i hi, hlen]
    exact List.idxOf_lt_length_iff.2 (memB i hi)
  · intro i hi
    rw [d2s i (by omega)]
    exact List.idxOf_lt_length_iff.2 (memA i (by omega))
  · intro i hi
    rw [s2d i hi, getD_map_idxOf (fun n => A.idxOf n) 0 (memB i hi), hA.idxOf_getElem]
  · intro i hi
    rw [d2s i (by omega), getD_map_idxOf (fun n => B.idxOf n) 0 (memA i (by omega)),
      hB.idxOf_getElem]
  · intro i hi
    rw [d2s i (by omega), getD_map_idxOf dim 0 (memA i (by omega)),
      List.getD_eq_getElem _ _ (by simp; omega), List.getElem_map]

end plan

end TAT
