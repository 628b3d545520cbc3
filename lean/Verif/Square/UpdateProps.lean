import Verif.Square.UpdateLemmas

/-!
# C59: the parallel simple update is the sequential one
-/

namespace TAT

variable {U T E : Type}

/-- Two horizontal bonds of a group are independent. -/
theorem independent_hor {p q : Pos} (hm : p.2.tmod 2 = q.2.tmod 2) (hne : p ≠ q) :
    Independent (.hor p) (.hor q) := by
  obtain ⟨x, y⟩ := p
  obtain ⟨x', y'⟩ := q
  have h1 : y + 1 ≠ y' := by
    rintro rfl
    exact tmod_succ hm
  have h2 : y' + 1 ≠ y := by
    rintro rfl
    exact tmod_succ hm.symm
  have h3 : x = x' → y ≠ y' := fun e1 e2 => hne (by rw [e1, e2])
  intro c
  constructor
  · rintro (rfl | rfl | rfl) <;> simp [Bond.reads, aroundCell] <;> omega
  · rintro (rfl | rfl | rfl) <;> simp [Bond.reads, aroundCell] <;> omega

/-- Two vertical bonds of a group are independent. -/
theorem independent_ver {p q : Pos} (hm : p.1.tmod 2 = q.1.tmod 2) (hne : p ≠ q) :
    Independent (.ver p) (.ver q) := by
  obtain ⟨x, y⟩ := p
  obtain ⟨x', y'⟩ := q
  have h1 : x + 1 ≠ x' := by
    rintro rfl
    exact tmod_succ hm
  have h2 : x' + 1 ≠ x := by
    rintro rfl
    exact tmod_succ hm.symm
  have h3 : x = x' → y ≠ y' := fun e1 e2 => hne (by rw [e1, e2])
  intro c
  constructor
  · rintro (rfl | rfl | rfl) <;> simp [Bond.reads, aroundCell] <;> omega
  · rintro (rfl | rfl | rfl) <;> simp [Bond.reads, aroundCell] <;> omega

/-- No bond is listed in both orders. -/
def NoReversed (keys : List TermKey) : Prop := ∀ p q : Pos, [p, q] ∈ keys → [q, p] ∉ keys

theorem isBond_inj {key key' : TermKey} {b : Bond} (h : IsBond key b) (h' : IsBond key' b) :
    key = key' ∨ ∃ p q, key = [p, q] ∧ key' = [q, p] := by
  cases b with
  | single p =>
    have h : key = [p] := h
    have h' : key' = [p] := h'
    exact Or.inl (h.trans h'.symm)
  | hor p =>
    rcases h with rfl | rfl <;> rcases h' with rfl | rfl
    · exact Or.inl rfl
    · exact Or.inr ⟨_, _, rfl, rfl⟩
    · exact Or.inr ⟨_, _, rfl, rfl⟩
    · exact Or.inl rfl
  | ver p =>
    rcases h with rfl | rfl <;> rcases h' with rfl | rfl
    · exact Or.inl rfl
    · exact Or.inr ⟨_, _, rfl, rfl⟩
    · exact Or.inr ⟨_, _, rfl, rfl⟩
    · exact Or.inl rfl

/-- The keys of one group are terms, two different ones of which are independent. -/
theorem group_bonds (test : TermKey → Bool) (ht : test ∈ groupTests) :
    ∃ good : Bond → Prop, (∀ k, test k = true → ∃ b, IsBond k b ∧ good b) ∧
      ∀ b b', good b → good b' → b ≠ b' → Independent b b' := by
  have hor : ∀ parity, ∃ good : Bond → Prop,
      (∀ k, isHorizontal parity k = true → ∃ b, IsBond k b ∧ good b) ∧
      ∀ b b', good b → good b' → b ≠ b' → Independent b b' := by
    intro parity
    refine ⟨fun b => ∃ p : Pos, b = .hor p ∧ p.2.tmod 2 = parity, fun k hk => ?_, ?_⟩
    · obtain ⟨x, y, hp, h⟩ := isHorizontal_iff.1 hk
      exact ⟨.hor (x, y), h, (x, y), rfl, hp⟩
    · rintro b b' ⟨p, rfl, hp⟩ ⟨q, rfl, hq⟩ hne
      exact independent_hor (hp.trans hq.symm) fun e => hne (by rw [e])
  have ver : ∀ parity, ∃ good : Bond → Prop,
      (∀ k, isVertical parity k = true → ∃ b, IsBond k b ∧ good b) ∧
      ∀ b b', good b → good b' → b ≠ b' → Independent b b' := by
    intro parity
    refine ⟨fun b => ∃ p : Pos, b = .ver p ∧ p.1.tmod 2 = parity, fun k hk => ?_, ?_⟩
    · obtain ⟨x, y, hp, h⟩ := isVertical_iff.1 hk
      exact ⟨.ver (x, y), h, (x, y), rfl, hp⟩
    · rintro b b' ⟨p, rfl, hp⟩ ⟨q, rfl, hq⟩ hne
      exact independent_ver (hp.trans hq.symm) fun e => hne (by rw [e])
  simp only [groupTests, List.mem_cons, List.not_mem_nil, or_false] at ht
  rcases ht with rfl | rfl | rfl | rfl | rfl
  · refine ⟨fun b => ∃ p, b = .single p, fun k hk => ?_, ?_⟩
    · obtain ⟨p, rfl⟩ := isSingle_iff.1 hk
      exact ⟨.single p, rfl, p, rfl⟩
    · rintro b b' ⟨p, rfl⟩ ⟨q, rfl⟩ hne c
      have : p ≠ q := fun e => hne (by rw [e])
      constructor
      · intro h h'
        exact this (Cell.site.inj (Eq.trans (Eq.symm h) h'))
      · intro h h'
        exact this (Cell.site.inj (Eq.trans (Eq.symm h') h))
  · exact hor 0
  · exact hor 1
  · exact ver 0
  · exact ver 1

/-- A group with its updaters. -/
theorem group_of {updater : TermKey → Option U} {keys : List TermKey} (hk : keys.Nodup)
    (hr : NoReversed keys) (hu : ∀ k ∈ keys, (updater k).isSome = true) {test : TermKey → Bool}
    (ht : test ∈ groupTests) : ∃ l : List (Bond × U), GroupOf updater (keys.filter test) l ∧
      l.Pairwise fun e e' => Independent e.1 e'.1 := by
  obtain ⟨good, g1, g2⟩ := group_bonds test ht
  have main : ∀ l : List TermKey, l.Nodup → (∀ k ∈ l, k ∈ keys ∧ test k = true) →
      ∃ l' : List (Bond × U), GroupOf updater l l' ∧ (∀ e ∈ l', good e.1 ∧ ∃ k ∈ l, IsBond k e.1) ∧
        l'.Pairwise fun e e' => Independent e.1 e'.1 := by
    intro l hl h
    induction l with
    | nil => exact ⟨[], .nil, by simp, .nil⟩
    | cons k l ih =>
      rw [List.nodup_cons] at hl
      obtain ⟨l', h1, h2, h3⟩ := ih hl.2 fun k hk => h k (by simp [hk])
      obtain ⟨hkk, htk⟩ := h k (by simp)
      obtain ⟨b, hb, hgood⟩ := g1 k htk
      obtain ⟨u, hu⟩ := Option.isSome_iff_exists.1 (hu k hkk)
      refine ⟨(b, u) :: l', .cons ⟨hb, hu⟩ h1, ?_, ?_⟩
      · intro e he
        rcases List.mem_cons.1 he with rfl | he
        · exact ⟨hgood, k, by simp, hb⟩
        · obtain ⟨x, k', hk', y⟩ := h2 e he
          exact ⟨x, k', by simp [hk'], y⟩
      · rw [List.pairwise_cons]
        refine ⟨fun e he => ?_, h3⟩
        obtain ⟨x, k', hk', y⟩ := h2 e he
        refine g2 _ _ hgood x ?_
        intro e'
        have e' : b = e.1 := e'
        rcases isBond_inj hb (e' ▸ y) with rfl | ⟨p, q, rfl, rfl⟩
        · exact hl.1 hk'
        · exact hr p q hkk (h _ (by simp [hk'])).1
  obtain ⟨l', h1, -, h3⟩ := main (keys.filter test) (hk.filter _) fun k hk =>
    ⟨(List.mem_filter.1 hk).1, (List.mem_filter.1 hk).2⟩
  exact ⟨l', h1, h3⟩

theorem sequentialUpdate_append (ops : UpdateOps U T E) (updater : TermKey → Option U)
    (l l' : List TermKey) (s : UpdateState T E) : sequentialUpdate ops updater (l ++ l') s =
      (sequentialUpdate ops updater l s).bind fun s' => sequentialUpdate ops updater l' s' := by
  induction l generalizing s with
  | nil => rfl
  | cons k l ih =>
    rw [List.cons_append, sequentialUpdate, sequentialUpdate]
    cases updater k with
    | none => rfl
    | some u =>
      show (updateTerm ops u k s).bind _ = ((updateTerm ops u k s).bind _).bind _
      cases updateTerm ops u k s with
      | ok s' => exact ih s'
      | error m => rfl
      | ub => rfl

/-- The sequence of the terms which the update is meant to run through: all groups and all groups backwards,
again and again. -/
def updateSequence (groups : List (List TermKey)) (steps : ℕ) : List TermKey :=
  ((List.replicate steps (groups ++ groups.reverse)).flatten).flatten

/-- **C59.**  On any number of processes which have the same lattice, the simple update leaves all of them
with the lattice which one process gets that applies one term after the other.  No bond may be listed in both
orders. -/
theorem C59_parallel_is_sequential (ops : UpdateOps U T E) (empty : E) (updater : TermKey → Option U)
    (size steps : ℕ) (hsize : 0 < size) (keys : List TermKey) (hk : keys.Nodup) (hr : NoReversed keys)
    (hu : ∀ k ∈ keys, (updater k).isSome = true) (groups : List (List TermKey))
    (hg : updateGroups keys = .ok groups) (s : UpdateState T E) (P : Processes T E)
    (hP : ∀ r < size, P r = s) :
    ∃ s' P', sequentialUpdate ops updater (updateSequence groups steps) s = .ok s' ∧
      simpleUpdate ops empty updater size steps keys P = .ok P' ∧ ∀ r < size, P' r = s' := by
  have hall : ∀ group ∈ groups, ∃ l : List (Bond × U), GroupOf updater group l ∧
      l.Pairwise fun e e' => Independent e.1 e'.1 := by
    intro group hgr
    rw [updateGroups] at hg
    split at hg
    · cases hg
    · obtain rfl := Outcome.ok.inj hg
      obtain ⟨test, ht, rfl⟩ := List.mem_map.1 hgr
      exact group_of hk hr hu ht
  have main : ∀ (L : List (List TermKey)), (∀ g ∈ L, g ∈ groups) → ∀ (s : UpdateState T E)
      (P : Processes T E), (∀ r < size, P r = s) →
      ∃ s' P', sequentialUpdate ops updater L.flatten s = .ok s' ∧
        L.foldlM (updateGroup ops empty updater size) P = .ok P' ∧ ∀ r < size, P' r = s' := by
    intro L hL
    induction L with
    | nil =>
      intro s P hP
      exact ⟨s, P, rfl, rfl, hP⟩
    | cons g L ih =>
      intro s P hP
      obtain ⟨l, h1, h2⟩ := hall g (hL g (by simp))
      obtain ⟨P1, k1, k2⟩ := updateGroup_eq ops empty hsize h1 h2 s P hP
      obtain ⟨s', P', j1, j2, j3⟩ := ih (fun g hg => hL g (by simp [hg])) _ P1 k2
      refine ⟨s', P', ?_, ?_, j3⟩
      · rw [List.flatten_cons, sequentialUpdate_append, sequentialUpdate_eq ops h1]
        exact j1
      · rw [List.foldlM_cons, k1]
        exact j2
  obtain ⟨s', P', h1, h2, h3⟩ := main ((List.replicate steps (groups ++ groups.reverse)).flatten) (by
    intro g hg
    obtain ⟨l, hl, hg⟩ := List.mem_flatten.1 hg
    rw [List.mem_replicate] at hl
    rw [hl.2] at hg
    simpa using hg) s P hP
  refine ⟨s', P', h1, ?_, h3⟩
  rw [simpleUpdate, hg]
  exact h2

/-- **C59.**  In the sequence each term is used twice in each step. -/
theorem C59_twice_per_step (keys : List TermKey) (groups : List (List TermKey))
    (hg : updateGroups keys = .ok groups) (steps : ℕ) (k : TermKey) :
    (updateSequence groups steps).count k = 2 * steps * keys.count k := by
  have h := (C58_groups_each_once keys groups hg).1.count_eq k
  have h' : groups.reverse.flatten.count k = groups.flatten.count k :=
    (List.Perm.flatten (List.reverse_perm groups)).count_eq k
  induction steps with
  | zero => simp [updateSequence]
  | succ n ih =>
    rw [updateSequence] at ih ⊢
    rw [List.replicate_succ, List.flatten_cons, List.flatten_append, List.count_append, ih,
      List.flatten_append, List.count_append, h', h]
    ring

/-- **C59.**  The order in which the two sites of a bond are listed makes no difference to what is done with
the operator: the left (upper) site always gets the first pair of its edges.  So a term which is not
symmetric under exchange of its sites, listed as `[right, left]`, is applied the wrong way round. -/
theorem C59_order_ignored (ops : UpdateOps U T E) (u : U) (s : UpdateState T E) (p : Pos) :
    updateTerm ops u [(p.1, p.2 + 1), p] s = updateTerm ops u [p, (p.1, p.2 + 1)] s ∧
    updateTerm ops u [(p.1 + 1, p.2), p] s = updateTerm ops u [p, (p.1 + 1, p.2)] s := by
  constructor
  · rw [updateTerm_bond ops u (b := .hor p) (Or.inr rfl), updateTerm_bond ops u (b := .hor p) (Or.inl rfl)]
  · rw [updateTerm_bond ops u (b := .ver p) (Or.inr rfl), updateTerm_bond ops u (b := .ver p) (Or.inl rfl)]

/-- **C59.**  A term without updater makes the update fail instead of being left out. -/
theorem C59_missing_updater (ops : UpdateOps U T E) (updater : TermKey → Option U) (k : TermKey)
    (keys : List TermKey) (s : UpdateState T E) (h : updater k = none) :
    sequentialUpdate ops updater (k :: keys) s = .error "map::at" := by
  rw [sequentialUpdate, h]

/-! ## Examples -/

/-- Some arithmetic which does not commute. -/
def sampleOps : UpdateOps ℤ ℤ ℤ where
  single u a := 2 * a + u
  horizontal u a l b r := (2 * a + u + (l.map fun e => e.getD 1).sum, a - b, 3 * b + a + (r.map fun e => e.getD 1).sum)
  vertical u a l b r := (3 * a + u + (l.map fun e => e.getD 2).sum, a + b, 5 * b - a + (r.map fun e => e.getD 1).sum)

def sampleState : UpdateState ℤ ℤ := ⟨fun p => 3 * p.1 + p.2 + 1, fun _ _ => none⟩

def sampleUpdater (k : TermKey) : Option ℤ := some (k.map fun p => p.1 + 2 * p.2 + 1).sum

/-- What is read off a state. -/
def sampleRead (s : UpdateState ℤ ℤ) : List ℤ × List (Option ℤ) :=
  ([s.site (0, 0), s.site (0, 1), s.site (1, 0), s.site (1, 1)],
    [s.env false (0, 0), s.env false (1, 0), s.env true (0, 0), s.env true (0, 1)])

/-- The hypotheses hold for a lattice of two rows of two sites. -/
example : sampleKeys.Nodup ∧ NoReversed sampleKeys ∧
    (∀ k ∈ sampleKeys, (sampleUpdater k).isSome = true) ∧
    ∃ groups, updateGroups sampleKeys = .ok groups := by
  refine ⟨by decide, ?_, fun _ _ => rfl, [[[(0, 0)], [(0, 1)], [(1, 0)], [(1, 1)]],
    [[(0, 0), (0, 1)], [(1, 1), (1, 0)]], [], [[(0, 0), (1, 0)], [(1, 1), (0, 1)]], []],
    by decide +kernel⟩
  intro p q h h'
  have : ∀ k ∈ sampleKeys, k.length = 2 → k.reverse ∉ sampleKeys := by decide
  exact this [p, q] h rfl h'

/-- Three processes get what one gets, and something happens. -/
example : ((simpleUpdate sampleOps 0 sampleUpdater 3 1 sampleKeys fun _ => sampleState).bind
      fun P => Outcome.ok [sampleRead (P 0), sampleRead (P 1), sampleRead (P 2)]) =
    .ok (List.replicate 3
      ([1119, 3209, 2856, 8750], [some (-171), some (-517), some 181, some 336])) := by
  decide +kernel

/-- A bond listed in both orders. -/
def bothOrders : List TermKey := [[(0, 0), (0, 1)], [(0, 1), (0, 0)]]

/-- **C59.**  The claim is false if a bond is listed in both orders: two processes update it at the same
time, and the result of the first is lost. -/
theorem C59_both_orders :
    ((simpleUpdate sampleOps 0 sampleUpdater 1 1 bothOrders fun _ => sampleState).bind
      fun P => Outcome.ok ((P 0).site (0, 0))) ≠
    (simpleUpdate sampleOps 0 sampleUpdater 2 1 bothOrders fun _ => sampleState).bind
      fun P => Outcome.ok ((P 0).site (0, 0)) := by
  decide +kernel

end TAT
