import Verif.Square.UpdateModel
import Mathlib.Data.List.Perm.Basic
import Mathlib.Data.List.Perm.Subperm
import Mathlib.Data.List.Nodup
import Mathlib.Data.Bool.Basic
import Mathlib.Tactic.Ring
import Mathlib.Tactic.Linarith

/-!
# Lemmas about the order of the terms
-/

namespace TAT

theorem mem_counters {n : ℕ} {i : ℤ} : i ∈ counters n ↔ 0 ≤ i ∧ i < n := by
  rw [counters, List.mem_map]
  constructor
  · rintro ⟨k, hk, rfl⟩
    have := List.mem_range.1 hk
    exact ⟨Int.natCast_nonneg k, by show (k : ℤ) < n; exact_mod_cast this⟩
  · rintro ⟨h1, h2⟩
    refine ⟨i.toNat, List.mem_range.2 (by omega), ?_⟩
    show ((i.toNat : ℕ) : ℤ) = i
    omega

theorem counters_nodup (n : ℕ) : (counters n).Nodup :=
  List.nodup_range.map fun _ _ h => Int.ofNat.inj h

/-- A site of the lattice. -/
def Inside (M N : ℕ) (p : Pos) : Prop := (0 ≤ p.1 ∧ p.1 < M) ∧ 0 ≤ p.2 ∧ p.2 < N

theorem mem_candidates {M N : ℕ} {e : TermKey × Bool} : e ∈ markovCandidates M N ↔
    ∃ i j : ℤ, Inside M N (i, j) ∧ (e ∈ markovRow i j ∨ e ∈ markovColumn i j) := by
  rw [markovCandidates, List.mem_append, List.mem_flatMap, List.mem_flatMap]
  simp only [List.mem_flatMap, mem_counters, Inside]
  constructor
  · rintro (⟨i, hi, j, hj, h⟩ | ⟨j, hj, i, hi, h⟩)
    · exact ⟨i, j, ⟨hi, hj⟩, Or.inl h⟩
    · exact ⟨i, j, ⟨hi, hj⟩, Or.inr h⟩
  · rintro ⟨i, j, ⟨hi, hj⟩, h | h⟩
    · exact Or.inl ⟨i, hi, j, hj, h⟩
    · exact Or.inr ⟨j, hj, i, hi, h⟩

theorem flatMap_nodup {α β : Type} {l : List α} (hl : l.Nodup) {f : α → List β}
    (hf : ∀ a ∈ l, (f a).Nodup) (hd : ∀ a b x, x ∈ f a → x ∈ f b → a = b) : (l.flatMap f).Nodup := by
  rw [List.nodup_flatMap]
  refine ⟨hf, hl.imp ?_⟩
  intro a b hab
  rw [Function.onFun, List.disjoint_left]
  exact fun x h1 h2 => hab (hd a b x h1 h2)

theorem markovRow_key {i j i' j' : ℤ} {k : TermKey} (h : k ∈ (markovRow i j).map Prod.fst)
    (h' : k ∈ (markovRow i' j').map Prod.fst) : i = i' ∧ j = j' := by
  simp only [markovRow, List.map_cons, List.map_nil, List.mem_cons, List.not_mem_nil, or_false] at h h'
  rcases h with rfl | rfl | rfl <;> rcases h' with h' | h' | h' <;>
    simp only [List.cons.injEq, Prod.mk.injEq, reduceCtorEq, and_false, and_true] at h' <;>
    omega

theorem markovColumn_key {i j i' j' : ℤ} {k : TermKey} (h : k ∈ (markovColumn i j).map Prod.fst)
    (h' : k ∈ (markovColumn i' j').map Prod.fst) : i = i' ∧ j = j' := by
  simp only [markovColumn, List.map_cons, List.map_nil, List.mem_cons, List.not_mem_nil, or_false] at h h'
  rcases h with rfl | rfl <;> rcases h' with h' | h' <;>
    simp only [List.cons.injEq, Prod.mk.injEq, and_true] at h' <;>
    omega

theorem markovRow_column {i j i' j' : ℤ} {k : TermKey} (h : k ∈ (markovRow i j).map Prod.fst)
    (h' : k ∈ (markovColumn i' j').map Prod.fst) : False := by
  simp only [markovRow, markovColumn, List.map_cons, List.map_nil, List.mem_cons, List.not_mem_nil,
    or_false] at h h'
  rcases h with rfl | rfl | rfl <;> rcases h' with h' | h' <;>
    simp only [List.cons.injEq, Prod.mk.injEq, reduceCtorEq, and_false, and_true] at h' <;>
    omega

theorem candidates_nodup (M N : ℕ) : ((markovCandidates M N).map Prod.fst).Nodup := by
  rw [markovCandidates, List.map_append, List.map_flatMap, List.map_flatMap]
  simp only [List.map_flatMap]
  rw [List.nodup_append']
  refine ⟨?_, ?_, ?_⟩
  · refine flatMap_nodup (counters_nodup M) (fun i _ => flatMap_nodup (counters_nodup N) ?_ ?_) ?_
    · intro j _
      simp [markovRow]
    · intro a b x h1 h2
      exact (markovRow_key h1 h2).2
    · intro a b x h1 h2
      obtain ⟨j, -, h1⟩ := List.mem_flatMap.1 h1
      obtain ⟨j', -, h2⟩ := List.mem_flatMap.1 h2
      exact (markovRow_key h1 h2).1
  · refine flatMap_nodup (counters_nodup N) (fun j _ => flatMap_nodup (counters_nodup M) ?_ ?_) ?_
    · intro i _
      simp [markovColumn]
    · intro a b x h1 h2
      exact (markovColumn_key h1 h2).1
    · intro a b x h1 h2
      obtain ⟨j, -, h1⟩ := List.mem_flatMap.1 h1
      obtain ⟨j', -, h2⟩ := List.mem_flatMap.1 h2
      exact (markovColumn_key h1 h2).2
  · rw [List.disjoint_left]
    intro x h1 h2
    obtain ⟨i, -, h1⟩ := List.mem_flatMap.1 h1
    obtain ⟨j, -, h1⟩ := List.mem_flatMap.1 h1
    obtain ⟨j', -, h2⟩ := List.mem_flatMap.1 h2
    obtain ⟨i', -, h2⟩ := List.mem_flatMap.1 h2
    exact markovRow_column h1 h2

/-- Groups by tests of which at most one holds contain all elements for which one holds. -/
theorem groups_perm {α : Type} (tests : List (α → Bool)) (l : List α)
    (h : tests.Pairwise fun p q => ∀ x, p x = true → q x = false) :
    ((tests.map fun p => l.filter p).flatten).Perm (l.filter fun x => tests.any fun p => p x) := by
  induction tests with
  | nil => simp
  | cons p tests ih =>
    rw [List.pairwise_cons] at h
    rw [List.map_cons, List.flatten_cons]
    refine ((ih h.2).append_left _).trans ?_
    have : ∀ l : List α, (l.filter p ++ l.filter fun x => tests.any fun q => q x).Perm
        (l.filter fun x => p x || tests.any fun q => q x) := by
      intro l
      induction l with
      | nil => simp
      | cons a l ihl =>
        cases hp : p a with
        | true =>
          have hq : (tests.any fun q => q a) = false := by
            rw [List.any_eq_false]
            intro q hq
            simp [h.1 q hq a hp]
          rw [List.filter_cons_of_pos hp, List.filter_cons_of_neg (by rw [hq]; simp),
            List.filter_cons_of_pos (by rw [hp]; rfl)]
          exact List.Perm.cons _ ihl
        | false =>
          cases hq : tests.any fun q => q a with
          | true =>
            rw [List.filter_cons_of_neg (by rw [hp]; simp), List.filter_cons_of_pos (p := fun x => tests.any fun q => q x) hq,
              List.filter_cons_of_pos (by rw [hp, hq]; rfl)]
            exact List.perm_middle.trans (ihl.cons _)
          | false =>
            rw [List.filter_cons_of_neg (by rw [hp]; simp),
              List.filter_cons_of_neg (by rw [hq]; simp),
              List.filter_cons_of_neg (by rw [hp, hq]; simp)]
            exact ihl
    exact this l

theorem isHorizontal_iff {parity : ℤ} {k : TermKey} : isHorizontal parity k = true ↔
    ∃ x y : ℤ, y.tmod 2 = parity ∧ (k = [(x, y), (x, y + 1)] ∨ k = [(x, y + 1), (x, y)]) := by
  constructor
  · intro h
    match k, h with
    | [(x1, y1), (x2, y2)], h =>
      obtain ⟨rfl, ⟨rfl, hh⟩ | ⟨rfl, hh⟩⟩ := of_decide_eq_true h
      · exact ⟨_, _, hh, Or.inl rfl⟩
      · exact ⟨_, _, hh, Or.inr rfl⟩
  · rintro ⟨x, y, h, rfl | rfl⟩
    · exact decide_eq_true ⟨rfl, Or.inl ⟨rfl, h⟩⟩
    · exact decide_eq_true ⟨rfl, Or.inr ⟨rfl, h⟩⟩

theorem isVertical_iff {parity : ℤ} {k : TermKey} : isVertical parity k = true ↔
    ∃ x y : ℤ, x.tmod 2 = parity ∧ (k = [(x, y), (x + 1, y)] ∨ k = [(x + 1, y), (x, y)]) := by
  constructor
  · intro h
    match k, h with
    | [(x1, y1), (x2, y2)], h =>
      obtain ⟨rfl, ⟨rfl, hh⟩ | ⟨rfl, hh⟩⟩ := of_decide_eq_true h
      · exact ⟨_, _, hh, Or.inl rfl⟩
      · exact ⟨_, _, hh, Or.inr rfl⟩
  · rintro ⟨x, y, h, rfl | rfl⟩
    · exact decide_eq_true ⟨rfl, Or.inl ⟨rfl, h⟩⟩
    · exact decide_eq_true ⟨rfl, Or.inr ⟨rfl, h⟩⟩

theorem isSingle_iff {k : TermKey} : isSingle k = true ↔ ∃ p, k = [p] := by
  match k with
  | [] => simp [isSingle]
  | [p] => simp [isSingle]
  | _ :: _ :: _ => simp [isSingle]

theorem groupTests_exclusive : groupTests.Pairwise fun p q => ∀ x, p x = true → q x = false := by
  have neg : ∀ {p : TermKey → Bool} {x}, (p x = true → False) → p x = false := fun h =>
    Bool.eq_false_iff.2 h
  simp only [groupTests, List.pairwise_cons, List.mem_cons, List.not_mem_nil, or_false, forall_eq_or_imp,
    forall_eq, IsEmpty.forall_iff, implies_true, List.Pairwise.nil, and_true]
  refine ⟨⟨?_, ?_, ?_, ?_⟩, ⟨?_, ?_, ?_⟩, ⟨?_, ?_⟩, ?_⟩ <;> intro k h <;> refine neg fun h' => ?_ <;>
    simp only [isSingle_iff, isHorizontal_iff, isVertical_iff] at h h'
  iterate 4
    · obtain ⟨p, rfl⟩ := h
      obtain ⟨x, y, -, h | h⟩ := h' <;> simp at h
  all_goals
    obtain ⟨x, y, hp, rfl | rfl⟩ := h <;> obtain ⟨x', y', hp', h | h⟩ := h' <;>
      simp only [List.cons.injEq, Prod.mk.injEq, and_true] at h <;>
      first
      | omega
      | (have e : x = x' := by omega
         subst e
         exact absurd (hp.symm.trans hp') (by decide))
      | (have e : y = y' := by omega
         subst e
         exact absurd (hp.symm.trans hp') (by decide))

end TAT
