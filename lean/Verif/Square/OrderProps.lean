import Verif.Square.OrderLemmas

/-!
# C58: every term of the Hamiltonian is used exactly once
-/

namespace TAT

/-- **C58.**  If `_markov_sampling_positions_sequence` returns, each term of the Hamiltonian is in the
sequence exactly once and nothing else is. -/
theorem C58_markov_each_once (M N : ℕ) (keys : List TermKey)
    (l : List (TermKey × Bool)) (h : markovSequence M N keys = .ok l) : (l.map Prod.fst).Perm keys := by
  rw [markovSequence] at h
  split at h
  · cases h
  · rename_i hlen
    obtain rfl := Outcome.ok.inj h
    have hsub : (((markovCandidates M N).filter fun e => keys.contains e.1).map Prod.fst) ⊆ keys := by
      intro k hk
      obtain ⟨e, he, rfl⟩ := List.mem_map.1 hk
      simpa using (List.mem_filter.1 he).2
    have hnd : (((markovCandidates M N).filter fun e => keys.contains e.1).map Prod.fst).Nodup :=
      (candidates_nodup M N).sublist (List.filter_sublist.map _)
    refine (List.subperm_of_subset hnd hsub).perm_of_length_le ?_
    rw [List.length_map]
    push Not at hlen
    exact hlen.ge

/-- A site of the lattice, or two neighbours of which the left or upper one is a site of the lattice, in
any order. -/
def MarkovTerm (M N : ℕ) (k : TermKey) : Prop :=
  ∃ p, Inside M N p ∧ (k = [p] ∨ k = [p, (p.1, p.2 + 1)] ∨ k = [(p.1, p.2 + 1), p] ∨
    k = [p, (p.1 + 1, p.2)] ∨ k = [(p.1 + 1, p.2), p])

theorem markovTerm_iff {M N : ℕ} {k : TermKey} :
    k ∈ (markovCandidates M N).map Prod.fst ↔ MarkovTerm M N k := by
  rw [List.mem_map]
  constructor
  · rintro ⟨⟨k, b⟩, h, rfl⟩
    obtain ⟨i, j, hin, h⟩ := mem_candidates.1 h
    refine ⟨(i, j), hin, ?_⟩
    simp only [markovRow, markovColumn, List.mem_cons, Prod.mk.injEq, List.not_mem_nil, or_false] at h
    tauto
  · rintro ⟨⟨i, j⟩, hin, h⟩
    simp only [mem_candidates]
    rcases h with rfl | rfl | rfl | rfl | rfl
    · exact ⟨(_, false), ⟨i, j, hin, Or.inl (by simp [markovRow])⟩, rfl⟩
    · exact ⟨(_, false), ⟨i, j, hin, Or.inl (by simp [markovRow])⟩, rfl⟩
    · exact ⟨(_, false), ⟨i, j, hin, Or.inl (by simp [markovRow])⟩, rfl⟩
    · exact ⟨(_, true), ⟨i, j, hin, Or.inr (by simp [markovColumn])⟩, rfl⟩
    · exact ⟨(_, true), ⟨i, j, hin, Or.inr (by simp [markovColumn])⟩, rfl⟩

/-- **C58.**  It returns exactly if all terms are such; otherwise it throws. -/
theorem C58_markov_supported (M N : ℕ) (keys : List TermKey) (hk : keys.Nodup) :
    ((∃ l, markovSequence M N keys = .ok l) ↔ ∀ k ∈ keys, MarkovTerm M N k) ∧
    ((∀ l, markovSequence M N keys ≠ .ok l) →
      markovSequence M N keys = .error "Unsupported markov sampling style") := by
  refine ⟨⟨?_, ?_⟩, ?_⟩
  · rintro ⟨l, h⟩ k hkk
    have hp := C58_markov_each_once M N keys l h
    rw [← hp.mem_iff] at hkk
    obtain ⟨e, he, rfl⟩ := List.mem_map.1 hkk
    rw [markovSequence] at h
    split at h
    · cases h
    · obtain rfl := Outcome.ok.inj h
      exact markovTerm_iff.1 (List.mem_map_of_mem (List.mem_filter.1 he).1)
  · intro h
    refine ⟨_, if_neg ?_⟩
    rw [not_not]
    have hsub : keys ⊆ ((markovCandidates M N).filter fun e => keys.contains e.1).map Prod.fst := by
      intro k hkk
      obtain ⟨e, he, rfl⟩ := List.mem_map.1 (markovTerm_iff.2 (h k hkk))
      exact List.mem_map_of_mem (List.mem_filter.2 ⟨he, by simpa using hkk⟩)
    have hsub' : (((markovCandidates M N).filter fun e => keys.contains e.1).map Prod.fst) ⊆ keys := by
      intro k hk
      obtain ⟨e, he, rfl⟩ := List.mem_map.1 hk
      simpa using (List.mem_filter.1 he).2
    have hnd : (((markovCandidates M N).filter fun e => keys.contains e.1).map Prod.fst).Nodup :=
      (candidates_nodup M N).sublist (List.filter_sublist.map _)
    have h1 := (List.subperm_of_subset hnd hsub').length_le
    have h2 := (List.subperm_of_subset hk hsub).length_le
    rw [List.length_map] at h1 h2
    omega
  · intro h
    rw [markovSequence] at h ⊢
    split
    · rfl
    · rename_i hl
      rw [if_neg hl] at h
      exact absurd rfl (h _)

/-- **C58.**  A bond out of the lattice, to the right or below, is not rejected. -/
theorem C58_markov_outside (M N : ℕ) (i : ℤ) (hi : 0 ≤ i ∧ i < M) (hN : 0 < N) :
    ∃ l, markovSequence M N [[(i, N - 1), (i, N)]] = .ok l := by
  refine (C58_markov_supported M N _ (by simp)).1.2 ?_
  intro k hk
  rw [List.mem_singleton] at hk
  subst hk
  refine ⟨(i, N - 1), ⟨hi, ?_, ?_⟩, Or.inr (Or.inl ?_)⟩
  · show (0 : ℤ) ≤ N - 1
    omega
  · show (N : ℤ) - 1 < N
    omega
  · simp

/-- **C58.**  If `_simple_update_positions_sequence` returns, each term of the Hamiltonian is in exactly one
of the groups, exactly once. -/
theorem C58_groups_each_once (keys : List TermKey) (groups : List (List TermKey))
    (h : updateGroups keys = .ok groups) : groups.flatten.Perm keys ∧ groups.length = 5 := by
  rw [updateGroups] at h
  split at h
  · cases h
  · rename_i hlen
    obtain rfl := Outcome.ok.inj h
    have hp := groups_perm groupTests keys groupTests_exclusive
    refine ⟨?_, by simp [groupTests]⟩
    have hl := hp.length_eq
    rw [List.length_flatten] at hl
    push Not at hlen
    have : (keys.filter fun x => groupTests.any fun p => p x) = keys := by
      rw [List.filter_eq_self]
      exact List.length_filter_eq_length_iff.1 (hl.symm.trans hlen)
    rwa [this] at hp

/-- One site, or two neighbours of which the left or upper one has a column or row which is not negative. -/
def UpdateTermKey (k : TermKey) : Prop :=
  (∃ p, k = [p]) ∨
  (∃ x y : ℤ, (0 ≤ y ∨ y.tmod 2 = 0) ∧ (k = [(x, y), (x, y + 1)] ∨ k = [(x, y + 1), (x, y)])) ∨
  ∃ x y : ℤ, (0 ≤ x ∨ x.tmod 2 = 0) ∧ (k = [(x, y), (x + 1, y)] ∨ k = [(x + 1, y), (x, y)])

theorem tmod_two {y : ℤ} : (0 ≤ y ∨ y.tmod 2 = 0) ↔ (y.tmod 2 = 0 ∨ y.tmod 2 = 1) := by
  rcases le_or_gt 0 y with h | h
  · rw [Int.tmod_eq_emod_of_nonneg h]
    omega
  · have : y.tmod 2 ≠ 1 := by
      intro e
      have h1 := Int.neg_tmod (a := y) (b := 2)
      rw [Int.tmod_eq_emod_of_nonneg (by omega)] at h1
      omega
    omega

theorem tmod_succ {y : ℤ} : y.tmod 2 ≠ (y + 1).tmod 2 := by
  intro h
  have e1 := Int.dvd_iff_tmod_eq_zero (a := 2) (b := y)
  have e2 := Int.dvd_iff_tmod_eq_zero (a := 2) (b := y + 1)
  rw [h] at e1
  omega

/-- **C58.**  It returns exactly if all terms are such; otherwise it throws. -/
theorem C58_groups_supported (keys : List TermKey) :
    ((∃ groups, updateGroups keys = .ok groups) ↔ ∀ k ∈ keys, UpdateTermKey k) ∧
    ((∀ groups, updateGroups keys ≠ .ok groups) →
      updateGroups keys = .error "Unsupported simple update style") := by
  have key : ∀ k, (groupTests.any fun p => p k) = true ↔ UpdateTermKey k := by
    intro k
    simp only [groupTests, List.any_cons, List.any_nil, Bool.or_false, Bool.or_eq_true, isSingle_iff,
      isHorizontal_iff, isVertical_iff, UpdateTermKey, tmod_two]
    constructor
    · rintro (h | ⟨x, y, h, h'⟩ | ⟨x, y, h, h'⟩ | ⟨x, y, h, h'⟩ | ⟨x, y, h, h'⟩)
      · exact Or.inl h
      · exact Or.inr (Or.inl ⟨x, y, Or.inl h, h'⟩)
      · exact Or.inr (Or.inl ⟨x, y, Or.inr h, h'⟩)
      · exact Or.inr (Or.inr ⟨x, y, Or.inl h, h'⟩)
      · exact Or.inr (Or.inr ⟨x, y, Or.inr h, h'⟩)
    · rintro (h | ⟨x, y, h | h, h'⟩ | ⟨x, y, h | h, h'⟩)
      · exact Or.inl h
      · exact Or.inr (Or.inl ⟨x, y, h, h'⟩)
      · exact Or.inr (Or.inr (Or.inl ⟨x, y, h, h'⟩))
      · exact Or.inr (Or.inr (Or.inr (Or.inl ⟨x, y, h, h'⟩)))
      · exact Or.inr (Or.inr (Or.inr (Or.inr ⟨x, y, h, h'⟩)))
  have hp := (groups_perm groupTests keys groupTests_exclusive).length_eq
  rw [List.length_flatten] at hp
  refine ⟨⟨?_, ?_⟩, ?_⟩
  · rintro ⟨groups, h⟩ k hk
    rw [updateGroups] at h
    split at h
    · cases h
    · rename_i hlen
      push Not at hlen
      exact (key k).1 (List.length_filter_eq_length_iff.1 (hp.symm.trans hlen) k hk)
  · intro h
    refine ⟨_, if_neg ?_⟩
    rw [not_not]
    exact hp.trans (List.length_filter_eq_length_iff.2 fun k hk => (key k).2 (h k hk))
  · intro h
    rw [updateGroups] at h ⊢
    split
    · rfl
    · rename_i hl
      rw [if_neg hl] at h
      exact absurd rfl (h _)

/-- **C58.**  Two different terms of a group have no site in common, unless they are the same bond listed
in both orders. -/
theorem C58_groups_disjoint (keys : List TermKey) (groups : List (List TermKey))
    (h : updateGroups keys = .ok groups) (group : List TermKey) (hg : group ∈ groups) (k k' : TermKey)
    (hk : k ∈ group) (hk' : k' ∈ group) (hne : k ≠ k') : (∀ p ∈ k, p ∉ k') ∨ k' = k.reverse := by
  rw [updateGroups] at h
  split at h
  · cases h
  obtain rfl := Outcome.ok.inj h
  obtain ⟨test, ht, rfl⟩ := List.mem_map.1 hg
  have h1 := (List.mem_filter.1 hk).2
  have h2 := (List.mem_filter.1 hk').2
  have hor : ∀ parity, isHorizontal parity k = true → isHorizontal parity k' = true →
      (∀ p ∈ k, p ∉ k') ∨ k' = k.reverse := by
    intro parity h1 h2
    obtain ⟨x, y, hp, h1⟩ := isHorizontal_iff.1 h1
    obtain ⟨x', y', hp', h2⟩ := isHorizontal_iff.1 h2
    by_cases e : x = x' ∧ y = y'
    · obtain ⟨rfl, rfl⟩ := e
      rcases h1 with rfl | rfl <;> rcases h2 with rfl | rfl
      · exact absurd rfl hne
      · exact Or.inr rfl
      · exact Or.inr rfl
      · exact absurd rfl hne
    · left
      have hy : y + 1 ≠ y' ∧ y' + 1 ≠ y := by
        constructor
        · rintro rfl
          exact tmod_succ (hp.trans hp'.symm)
        · rintro rfl
          exact tmod_succ (hp'.trans hp.symm)
      intro p hpk hpk'
      rcases h1 with rfl | rfl <;> rcases h2 with rfl | rfl <;>
        simp only [List.mem_cons, List.not_mem_nil, or_false] at hpk hpk' <;>
        rcases hpk with rfl | rfl <;> rcases hpk' with h | h <;>
        simp only [Prod.mk.injEq] at h <;> omega
  have ver : ∀ parity, isVertical parity k = true → isVertical parity k' = true →
      (∀ p ∈ k, p ∉ k') ∨ k' = k.reverse := by
    intro parity h1 h2
    obtain ⟨x, y, hp, h1⟩ := isVertical_iff.1 h1
    obtain ⟨x', y', hp', h2⟩ := isVertical_iff.1 h2
    by_cases e : x = x' ∧ y = y'
    · obtain ⟨rfl, rfl⟩ := e
      rcases h1 with rfl | rfl <;> rcases h2 with rfl | rfl
      · exact absurd rfl hne
      · exact Or.inr rfl
      · exact Or.inr rfl
      · exact absurd rfl hne
    · left
      have hy : x + 1 ≠ x' ∧ x' + 1 ≠ x := by
        constructor
        · rintro rfl
          exact tmod_succ (hp.trans hp'.symm)
        · rintro rfl
          exact tmod_succ (hp'.trans hp.symm)
      intro p hpk hpk'
      rcases h1 with rfl | rfl <;> rcases h2 with rfl | rfl <;>
        simp only [List.mem_cons, List.not_mem_nil, or_false] at hpk hpk' <;>
        rcases hpk with rfl | rfl <;> rcases hpk' with h | h <;>
        simp only [Prod.mk.injEq] at h <;> omega
  simp only [groupTests, List.mem_cons, List.not_mem_nil, or_false] at ht
  rcases ht with rfl | rfl | rfl | rfl | rfl
  · obtain ⟨p, rfl⟩ := isSingle_iff.1 h1
    obtain ⟨q, rfl⟩ := isSingle_iff.1 h2
    left
    intro r hr hr'
    rw [List.mem_singleton] at hr hr'
    exact hne (by rw [← hr, ← hr'])
  · exact hor 0 h1 h2
  · exact hor 1 h1 h2
  · exact ver 0 h1 h2
  · exact ver 1 h1 h2

/-- All sites and bonds of two rows of two sites, one bond reversed. -/
def sampleKeys : List TermKey :=
  [[(0, 0)], [(0, 0), (0, 1)], [(0, 0), (1, 0)], [(0, 1)], [(1, 0)], [(1, 1)], [(1, 1), (0, 1)],
    [(1, 1), (1, 0)]]

example : sampleKeys.Nodup ∧ (∀ k ∈ sampleKeys, UpdateTermKey k) := by
  refine ⟨by decide, fun k hk => ?_⟩
  have := (C58_groups_supported sampleKeys).1.1 ⟨[[[(0, 0)], [(0, 1)], [(1, 0)], [(1, 1)]],
    [[(0, 0), (0, 1)], [(1, 1), (1, 0)]], [], [[(0, 0), (1, 0)], [(1, 1), (0, 1)]], []],
    by decide +kernel⟩
  exact this k hk

example : markovSequence 2 2 sampleKeys = .ok [([(0, 0)], false), ([(0, 0), (0, 1)], false),
    ([(0, 1)], false), ([(1, 0)], false), ([(1, 1), (1, 0)], false), ([(1, 1)], false),
    ([(0, 0), (1, 0)], true), ([(1, 1), (0, 1)], true)] := by decide +kernel

/-- A next-nearest neighbour is not supported. -/
example : markovSequence 2 2 [[(0, 0), (1, 1)]] = .error "Unsupported markov sampling style" ∧
    updateGroups [[(0, 0), (1, 1)]] = .error "Unsupported simple update style" := by decide +kernel

end TAT
