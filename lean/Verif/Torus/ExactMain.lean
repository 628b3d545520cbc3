import Verif.Torus.Exact

/-!
# Helper lemmas: `get_exact` of `examples/PBC.cpp`, the loops
-/

namespace TAT.Torus

open TAT.Grid (IsSite sides GridEnvOk Lab labName labText labText_injective movedLegs moves gridLegs numbered)

set_option linter.unusedSectionVars false
set_option linter.unusedSimpArgs false

variable {ν α β : Type} [LinearOrder ν] [Field α] [LinearOrder β] [Zero β] {e : AuxEnv ν α β} {L : ℕ}

/-- All pairs of `contract_names`. -/
def allLabs (L i j : ℕ) : List (Lab × Lab) :=
  [((.right, some i), (.left, some i)), ((.down, some j), (.up, some j))] ++
  (if j + 1 = L then [((Side.left, some i), (Side.right, some i))] else []) ++
  (if i + 1 = L then [((Side.up, some j), (Side.down, some j))] else [])

theorem exactPairs_labs (e : AuxEnv ν α β) (L i j : ℕ) :
    (exactPairs L i j).map (fun p => (e.nm p.1, e.nm p.2)) =
      (allLabs L i j).map fun p => (labName e.nm p.1, labName e.nm p.2) := by
  unfold exactPairs allLabs
  split_ifs <;> rfl

theorem known_labs {ι : Lab → ν} {t1 t2 : Tensor ν NoSymmetry α} {T1 T2 : Lab → Option ℕ} (h1 : HasLegs ι t1 T1)
    (h2 : HasLegs ι t2 T2) (P : List (Lab × Lab)) :
    knownPairs t1 t2 (P.map fun p => (ι p.1, ι p.2)) =
      (P.filter fun c => (T1 c.1).isSome && (T2 c.2).isSome).map fun p => (ι p.1, ι p.2) := by
  unfold knownPairs
  rw [List.filter_map]
  refine congrArg _ (List.filter_congr fun c _ => ?_)
  have a : ι c.1 ∈ t1.names ↔ (T1 c.1).isSome = true := by
    rw [← leg_ne_none, Option.isSome_iff_ne_none, ← h1.legs c.1]
    rfl
  have b : ι c.2 ∈ t2.names ↔ (T2 c.2).isSome = true := by
    rw [← leg_ne_none, Option.isSome_iff_ne_none, ← h2.legs c.2]
    rfl
  simp only [Function.comp, a, b]
  simp

theorem moved (he : GridEnvOk e sides) {t : Tensor ν NoSymmetry α} {l r u d : Option ℕ} (i j : ℕ)
    (h : IsSite e.nm sides t l r u d) :
    HasLegs (labName e.nm) (e.rename t [("up", numbered "up" j), ("down", numbered "down" j),
        ("left", numbered "left" i), ("right", numbered "right" i)]) (movedLegs i j l r u d) ∧
      ∀ f, gval (labName e.nm) (e.rename t [("up", numbered "up" j), ("down", numbered "down" j),
        ("left", numbered "left" i), ("right", numbered "right" i)]) f =
        Grid.elem e.nm sides t (f (.left, some i)) (f (.right, some i)) (f (.up, some j)) (f (.down, some j)) := by
  have hι : Function.Injective (labName e.nm) := he.inj.comp labText_injective
  obtain ⟨s1, s2⟩ := Grid.IsSite.grid he h
  obtain ⟨m1, m2⟩ := label_rename hι s1 (moves i j) (by simp [moves]) (by simp [moves]) (by simp [moves, gridLegs])
  refine ⟨⟨m1.dense, m1.only, fun g => (m1.legs g).trans ?_⟩, fun f => (m2 f).trans ?_⟩
  · obtain ⟨x, o⟩ := g
    cases o with
    | none => cases x <;> simp [renameLegs, moves, gridLegs, movedLegs]
    | some k =>
      by_cases h1 : i = k
      · by_cases h2 : j = k
        · cases x <;> simp [renameLegs, moves, gridLegs, movedLegs, h1, h2]
        · have h2' : ¬ k = j := fun h => h2 h.symm
          cases x <;> simp [renameLegs, moves, gridLegs, movedLegs, h1, h2, h2']
      · have h1' : ¬ k = i := fun h => h1 h.symm
        by_cases h2 : j = k
        · cases x <;> simp [renameLegs, moves, gridLegs, movedLegs, h1, h1', h2]
        · have h2' : ¬ k = j := fun h => h2 h.symm
          cases x <;> simp [renameLegs, moves, gridLegs, movedLegs, h1, h1', h2, h2']
  · rw [s2]
    have q : ∀ x, renameTo (moves i j) (x, none) = (x, some (match x with | .up => j | .down => j | .left => i | .right => i)) := by
      intro x
      cases x <;> simp [renameTo, moves]
    rw [q, q, q, q]

theorem mem_known (hL : 2 ≤ L) (i j : Fin L) (c : Lab × Lab) : c ∈ knownLabs i j ↔
    ((j : ℕ) ≠ 0 ∧ c = ((.right, some (i : ℕ)), (.left, some (i : ℕ)))) ∨
    ((i : ℕ) ≠ 0 ∧ c = ((.down, some (j : ℕ)), (.up, some (j : ℕ)))) ∨
    ((j : ℕ) + 1 = L ∧ c = ((.left, some (i : ℕ)), (.right, some (i : ℕ)))) ∨
    ((i : ℕ) + 1 = L ∧ c = ((.up, some (j : ℕ)), (.down, some (j : ℕ)))) := by
  have h : ∀ (q : Prop) [Decidable q] (x : Lab × Lab), c ∈ (if q then [x] else []) ↔ q ∧ c = x := fun q _ x => by
    split <;> simp_all
  rw [closing_cases hL, List.mem_append, List.mem_append, List.mem_append, h, h, h, h]
  tauto

theorem mem_first (hL : 2 ≤ L) (i j : Fin L) (g : Lab) : g ∈ (knownLabs i j).map Prod.fst ↔
    ((j : ℕ) ≠ 0 ∧ g = (.right, some (i : ℕ))) ∨ ((i : ℕ) ≠ 0 ∧ g = (.down, some (j : ℕ))) ∨
    ((j : ℕ) + 1 = L ∧ g = (.left, some (i : ℕ))) ∨ ((i : ℕ) + 1 = L ∧ g = (.up, some (j : ℕ))) := by
  rw [List.mem_map]
  constructor
  · rintro ⟨c, hc, rfl⟩
    rw [mem_known hL] at hc
    rcases hc with ⟨a, rfl⟩ | ⟨a, rfl⟩ | ⟨a, rfl⟩ | ⟨a, rfl⟩ <;> simp [a]
  · intro hg
    rcases hg with ⟨a, rfl⟩ | ⟨a, rfl⟩ | ⟨a, rfl⟩ | ⟨a, rfl⟩
    · exact ⟨_, (mem_known hL i j _).2 (Or.inl ⟨a, rfl⟩), rfl⟩
    · exact ⟨_, (mem_known hL i j _).2 (Or.inr (Or.inl ⟨a, rfl⟩)), rfl⟩
    · exact ⟨_, (mem_known hL i j _).2 (Or.inr (Or.inr (Or.inl ⟨a, rfl⟩))), rfl⟩
    · exact ⟨_, (mem_known hL i j _).2 (Or.inr (Or.inr (Or.inr ⟨a, rfl⟩))), rfl⟩

theorem mem_second (hL : 2 ≤ L) (i j : Fin L) (g : Lab) : g ∈ (knownLabs i j).map Prod.snd ↔
    ((j : ℕ) ≠ 0 ∧ g = (.left, some (i : ℕ))) ∨ ((i : ℕ) ≠ 0 ∧ g = (.up, some (j : ℕ))) ∨
    ((j : ℕ) + 1 = L ∧ g = (.right, some (i : ℕ))) ∨ ((i : ℕ) + 1 = L ∧ g = (.down, some (j : ℕ))) := by
  rw [List.mem_map]
  constructor
  · rintro ⟨c, hc, rfl⟩
    rw [mem_known hL] at hc
    rcases hc with ⟨a, rfl⟩ | ⟨a, rfl⟩ | ⟨a, rfl⟩ | ⟨a, rfl⟩ <;> simp [a]
  · intro hg
    rcases hg with ⟨a, rfl⟩ | ⟨a, rfl⟩ | ⟨a, rfl⟩ | ⟨a, rfl⟩
    · exact ⟨_, (mem_known hL i j _).2 (Or.inl ⟨a, rfl⟩), rfl⟩
    · exact ⟨_, (mem_known hL i j _).2 (Or.inr (Or.inl ⟨a, rfl⟩)), rfl⟩
    · exact ⟨_, (mem_known hL i j _).2 (Or.inr (Or.inr (Or.inl ⟨a, rfl⟩))), rfl⟩
    · exact ⟨_, (mem_known hL i j _).2 (Or.inr (Or.inr (Or.inr ⟨a, rfl⟩))), rfl⟩

theorem known_nodup (hL : 2 ≤ L) (i j : Fin L) :
    ((knownLabs i j).map Prod.fst).Nodup ∧ ((knownLabs i j).map Prod.snd).Nodup := by
  rw [closing_cases hL]
  split_ifs <;> simp

/-- The edges of the site at `i`, `j` with numbers. -/
abbrev siteLabs (h v : ℕ → ℕ → ℕ) (i j : ℕ) : Lab → Option ℕ :=
  movedLegs i j (some (h i j)) (some (h i (j + 1))) (some (v i j)) (some (v (i + 1) j))

theorem filter_known (hL : 2 ≤ L) (h v : ℕ → ℕ → ℕ) (i j : Fin L) :
    ((allLabs L i j).filter fun c => (openLegs L h v i j c.1).isSome && (siteLabs h v i j c.2).isSome) =
      knownLabs i j := by
  have hi := i.isLt
  have hj := j.isLt
  rw [closing_cases hL, allLabs, List.filter_append, List.filter_append]
  have p1 : (openLegs L h v i j (.right, some (i : ℕ))).isSome = decide ((j : ℕ) ≠ 0) := by
    by_cases a : (j : ℕ) = 0 <;> simp [openLegs, a]
    omega
  have p2 : (openLegs L h v i j (.left, some (i : ℕ))).isSome = decide ((j : ℕ) ≠ 0) := by
    by_cases a : (j : ℕ) = 0 <;> simp [openLegs, a]
    omega
  have p3 : (openLegs L h v i j (.down, some (j : ℕ))).isSome = decide ((i : ℕ) ≠ 0) := by
    by_cases a : (i : ℕ) = 0 <;> simp [openLegs, a]
    omega
  have p4 : (openLegs L h v i j (.up, some (j : ℕ))).isSome = decide ((i : ℕ) ≠ 0) := by
    by_cases a : (i : ℕ) = 0 <;> simp [openLegs, a]
    omega
  have q1 : (siteLabs h v i j (.up, some (j : ℕ))).isSome = true := by simp [movedLegs]
  have q2 : (siteLabs h v i j (.down, some (j : ℕ))).isSome = true := by simp [movedLegs]
  have q3 : (siteLabs h v i j (.left, some (i : ℕ))).isSome = true := by simp [movedLegs]
  have q4 : (siteLabs h v i j (.right, some (i : ℕ))).isSome = true := by simp [movedLegs]
  congr 1
  · congr 1
    · simp only [List.filter_cons, p1, p3, q1, q3, List.filter_nil, Bool.and_true, decide_eq_true_eq]
      split_ifs <;> rfl
    · split
      · have a : (j : ℕ) ≠ 0 := by omega
        simp only [List.filter_cons, p2, q4, List.filter_nil, Bool.and_true, decide_eq_true_eq]
        rw [if_pos a]
      · rfl
  · split
    · have a : (i : ℕ) ≠ 0 := by omega
      simp only [List.filter_cons, p4, q2, List.filter_nil, Bool.and_true, decide_eq_true_eq]
      rw [if_pos a]
    · rfl

theorem known_legs (hL : 2 ≤ L) {h v : ℕ → ℕ → ℕ} (i j : Fin L) (hw : h i L = h i 0) (hc : v L j = v 0 j) :
    ∀ c ∈ knownLabs i j, openLegs L h v i j c.1 = siteLabs h v i j c.2 := by
  have hi := i.isLt
  have hj := j.isLt
  intro c hcm
  rw [mem_known hL] at hcm
  rcases hcm with ⟨a, rfl⟩ | ⟨a, rfl⟩ | ⟨a, rfl⟩ | ⟨a, rfl⟩
  · simp only [openLegs, movedLegs]
    rw [if_pos ⟨trivial, by omega, by omega⟩, if_true]
  · simp only [openLegs, movedLegs]
    rw [if_pos (by omega), if_true, if_neg (by omega)]
  · simp only [openLegs, movedLegs]
    rw [if_pos ⟨trivial, by omega, by omega⟩, if_true, a, hw]
  · simp only [openLegs, movedLegs]
    rw [if_pos (by omega), if_true, a, hc]

theorem free_legs (hL : 2 ≤ L) (h v : ℕ → ℕ → ℕ) (i j : Fin L) (g : Lab)
    (h1 : g ∉ (knownLabs i j).map Prod.fst) (h2 : g ∉ (knownLabs i j).map Prod.snd) :
    openLegs L h v i j g = none ∨ siteLabs h v i j g = none := by
  have hi := i.isLt
  have hj := j.isLt
  rw [mem_first hL] at h1
  rw [mem_second hL] at h2
  obtain ⟨x, o⟩ := g
  cases o with
  | none => left; cases x <;> rfl
  | some k =>
    cases x <;> simp only [Prod.mk.injEq, reduceCtorEq, false_and, and_false, true_and, or_false, false_or,
      Option.some.injEq] at h1 h2 <;> simp only [openLegs, movedLegs]
    · by_cases a : k = j
      · left; rw [if_neg (by omega)]
      · right; rw [if_neg a]
    · by_cases a : k = j
      · left; rw [if_neg (by omega)]
      · right; rw [if_neg a]
    · by_cases a : k = i
      · left; rw [if_neg (by omega)]
      · right; rw [if_neg a]
    · by_cases a : k = i
      · left; rw [if_neg (by omega)]
      · right; rw [if_neg a]

theorem step_legs (hL : 2 ≤ L) (h v : ℕ → ℕ → ℕ) (i j : Fin L) (g : Lab) :
    contractLegs (openLegs L h v i j) (siteLabs h v i j) (knownLabs i j) g = openLegs L h v i (j + 1) g := by
  have hi := i.isLt
  have hj := j.isLt
  simp only [contractLegs, mem_first hL, mem_second hL]
  obtain ⟨x, o⟩ := g
  cases o with
  | none => cases x <;> simp [openLegs, movedLegs]
  | some k =>
    cases x <;> simp only [Prod.mk.injEq, reduceCtorEq, false_and, and_false, true_and, or_false, false_or,
      Option.some.injEq] <;> simp only [openLegs, movedLegs]
    · by_cases a : k = j
      · subst a
        by_cases b : (i : ℕ) = 0
        · rw [if_neg (by omega), if_neg (by omega), if_neg (by omega), if_pos rfl, if_pos (by omega), b]
          rfl
        · rw [if_pos (show (i : ℕ) ≠ 0 ∧ _ from ⟨b, rfl⟩)]
          by_cases d : (i : ℕ) + 1 = L
          · rw [if_pos ⟨d, rfl⟩, if_neg (by omega)]
            rfl
          · rw [if_neg (by omega), if_pos (by omega), if_pos (by omega)]
            rfl
      · simp only [a, and_false, if_false, Option.or_none]
        refine if_congr ?_ rfl rfl
        omega
    · by_cases a : k = j
      · subst a
        by_cases b : (i : ℕ) = 0
        · rw [if_neg (by omega), if_neg (by omega), if_neg (by omega), if_pos rfl, if_pos (by omega), if_pos (by omega)]
          rfl
        · rw [if_pos (show (i : ℕ) ≠ 0 ∧ _ from ⟨b, rfl⟩)]
          by_cases d : (i : ℕ) + 1 = L
          · rw [if_pos (show _ ∧ _ from ⟨d, rfl⟩), if_neg (by omega)]
            rfl
          · rw [if_neg (by omega), if_pos rfl, if_pos (by omega), if_pos (by omega)]
            rfl
      · simp only [a, and_false, if_false, Option.or_none]
        have hk : k < (j : ℕ) + 1 ↔ k < (j : ℕ) := by omega
        simp only [hk]
    · by_cases a : k = i
      · subst a
        by_cases b : (j : ℕ) = 0
        · rw [if_neg (by omega), if_neg (by omega), if_neg (by omega), if_pos rfl, if_pos (by omega), b]
          rfl
        · rw [if_pos (show (j : ℕ) ≠ 0 ∧ _ from ⟨b, rfl⟩)]
          by_cases d : (j : ℕ) + 1 = L
          · rw [if_pos ⟨d, rfl⟩, if_neg (by omega)]
            rfl
          · rw [if_neg (by omega), if_pos (by omega), if_pos (by omega)]
            rfl
      · rw [if_neg (by omega), if_neg (by omega), if_neg (by omega), if_neg a, if_neg (by omega)]
        rfl
    · by_cases a : k = i
      · subst a
        by_cases b : (j : ℕ) = 0
        · rw [if_neg (by omega), if_neg (by omega), if_neg (by omega), if_pos rfl, if_pos (by omega)]
          rfl
        · rw [if_pos (show (j : ℕ) ≠ 0 ∧ _ from ⟨b, rfl⟩)]
          by_cases d : (j : ℕ) + 1 = L
          · rw [if_pos (show _ ∧ _ from ⟨d, rfl⟩), if_neg (by omega)]
            rfl
          · rw [if_neg (by omega), if_pos rfl, if_pos (by omega)]
            rfl
      · rw [if_neg (by omega), if_neg (by omega), if_neg (by omega), if_neg a, if_neg (by omega)]
        rfl

theorem closing_dims (hL : 2 ≤ L) {h v : ℕ → ℕ → ℕ} (i j : Fin L) (b : Bond L) (hb : b ∈ closing i j) :
    (openLegs L h v i j (lab1 b)).getD 1 = bondDims h v b := by
  have hi := i.isLt
  have hj := j.isLt
  have n1 : (i : ℕ) + 1 = L → (next i : ℕ) = 0 := fun h => by rw [next_val, if_pos h]
  have n2 : (j : ℕ) + 1 = L → (next j : ℕ) = 0 := fun h => by rw [next_val, if_pos h]
  rw [mem_closing] at hb
  rcases hb with ⟨a, rfl⟩ | ⟨a, rfl⟩ | ⟨a, rfl⟩ | ⟨a, rfl⟩
  · simp only [lab1, bondDims, if_true, if_neg a, openLegs]
    rw [if_pos ⟨trivial, by omega, by omega⟩]
    rfl
  · simp only [lab1, bondDims, Bool.false_eq_true, if_false, if_neg a, openLegs]
    rw [if_pos ⟨by omega, by omega, by omega⟩, if_neg (by omega)]
    rfl
  · simp only [lab1, bondDims, if_true, n2 a, openLegs]
    rw [if_pos ⟨trivial, by omega, by omega⟩]
    rfl
  · simp only [lab1, bondDims, Bool.false_eq_true, if_false, if_true, n1 a, openLegs]
    rw [if_pos ⟨by omega, by omega, by omega⟩]
    rfl

theorem exactStep_ok (he : GridEnvOk e sides) (hL : 2 ≤ L) {site : ℕ → ℕ → Tensor ν NoSymmetry α}
    {h v : ℕ → ℕ → ℕ} (ht : IsTorus e.nm L site h v) (i j : Fin L) {r : Tensor ν NoSymmetry α}
    (hr : HasLegs (labName e.nm) r (openLegs L h v i j))
    (hv : ∀ f, gval (labName e.nm) r f =
      net (bondDims h v) (atBonds e.nm site) (closed L i j) (done L i j) fun b => f (lab1 b)) :
    ∃ r', exactStep e L site r (i, j) = .ok r' ∧ HasLegs (labName e.nm) r' (openLegs L h v i (j + 1)) ∧
      ∀ f, gval (labName e.nm) r' f =
        net (bondDims h v) (atBonds e.nm site) (closed L i (j + 1)) (done L i (j + 1)) fun b => f (lab1 b) := by
  have hι : Function.Injective (labName e.nm) := he.inj.comp labText_injective
  have hi := i.isLt
  have hj := j.isLt
  obtain ⟨m1, m2⟩ := moved he i j (ht.site i hi j hj)
  have hk := known_labs hr m1 (allLabs L i j)
  rw [filter_known hL] at hk
  obtain ⟨r', c1, c2, c3⟩ := label_contract hι e.ce he.gemm he.names hr m1 (knownLabs i j) (known_nodup hL i j).1
    (known_nodup hL i j).2 (known_legs hL i j (ht.row i hi) (ht.column j hj)) (free_legs hL h v i j)
  refine ⟨r', ?_, ⟨c2.dense, c2.only, fun g => (c2.legs g).trans (step_legs hL h v i j g)⟩, fun f => ?_⟩
  · rw [exactStep, AuxEnv.join, exactPairs_labs, C29_missing_ignored, hk]
    exact c1
  · rw [c3, ← closed_step hL, ← done_step]
    have hF : ∀ (x y : Lab → ℕ) (φ : Bond L → ℕ),
        (∀ b, b ∉ closed L i j → (∃ q ∈ done L i j, touch q b) → φ b = x (lab1 b)) →
        (∀ b, touch (i, j) b → φ b = y (lab2 (i, j) b)) →
        gval (labName e.nm) r x * gval (labName e.nm) (e.rename (site i j) [("up", numbered "up" j),
          ("down", numbered "down" j), ("left", numbered "left" i), ("right", numbered "right" i)]) y =
        net (bondDims h v) (atBonds e.nm site) (closed L i j) (insert (i, j) (done L i j)) φ := by
      intro x y φ h1 h2
      obtain ⟨a1, a2, a3, a4⟩ := lab2_site hL i j
      have hp : (i, j) ∉ done L i j := by simp [done]
      rw [hv, m2, ← net_site (atBonds_local e.nm site) hp fun b hb => touch_open hL hb]
      refine congrArg₂ (fun a b : α => a * b) ?_ ?_
      · exact net_congr (atBonds_local e.nm site) fun b hb hD => (h1 b hb hD).symm
      · rw [atBonds, h2 (true, i, j) (Or.inl rfl), h2 (true, i, next j) (Or.inr (Or.inl rfl)),
          h2 (false, i, j) (Or.inr (Or.inr (Or.inl rfl))), h2 (false, next i, j) (Or.inr (Or.inr (Or.inr rfl))),
          a1, a2, a3, a4]
    exact net_step (dims := fun g => (openLegs L h v i j g).getD 1) (closing i j) (closed L i j) (closing_nodup hL i j)
      (fun b hb => touch_open hL (touch_closing hb)) (closing_dims hL i j) hF
      (fun b hb b' h1 h2 h3 => lab1_inj hL hb h1 h2 h3)
      (fun b hb b' hb' h1 => lab2_inj hL (touch_closing hb) hb' h1) f f (fun b => f (lab1 b)) (fun _ _ _ _ => rfl)
      fun b hb hn => by rw [site_label hL hb hn]

end TAT.Torus
