import Verif.Torus.Net
import Verif.Torus.Spec
import Verif.Grid.Exact

/-!
# Helper lemmas: `get_exact` of `examples/PBC.cpp`
-/

namespace TAT.Torus

open TAT.Grid (IsSite sides GridEnvOk Lab labName labText_injective movedLegs moves gridLegs numbered)

set_option linter.unusedSectionVars false
set_option linter.unusedSimpArgs false

variable {ν α β : Type} [LinearOrder ν] [Field α] [LinearOrder β] [Zero β] {e : AuxEnv ν α β} {L : ℕ}

/-- The bonds: those on the left of a site with `true`, those above with `false`. -/
abbrev Bond (L : ℕ) := Bool × Fin L × Fin L

/-- The bonds of a site. -/
def touch (p : Fin L × Fin L) (b : Bond L) : Prop :=
  b = (true, p) ∨ b = (true, p.1, next p.2) ∨ b = (false, p) ∨ b = (false, next p.1, p.2)

theorem next_val (j : Fin L) : (next j : ℕ) = if (j : ℕ) + 1 = L then 0 else (j : ℕ) + 1 := by
  have := j.isLt
  show ((j : ℕ) + 1) % L = _
  split
  · simp_all
  · exact Nat.mod_eq_of_lt (by omega)

/-- The dimensions of the bonds. -/
def bondDims (h v : ℕ → ℕ → ℕ) (b : Bond L) : ℕ := if b.1 then h b.2.1 b.2.2 else v b.2.1 b.2.2

/-- The element of a site for given indices of the bonds. -/
def atBonds (nm : String → ν) (site : ℕ → ℕ → Tensor ν NoSymmetry α) (p : Fin L × Fin L) (x : Bond L → ℕ) : α :=
  Grid.elem nm sides (site p.1 p.2) (x (true, p)) (x (true, p.1, next p.2)) (x (false, p)) (x (false, next p.1, p.2))

theorem atBonds_local (nm : String → ν) (site : ℕ → ℕ → Tensor ν NoSymmetry α) :
    Local (atBonds (L := L) nm site) touch := by
  intro p x y h
  unfold atBonds
  rw [h (true, p) (Or.inl rfl), h (true, p.1, next p.2) (Or.inr (Or.inl rfl)),
    h (false, p) (Or.inr (Or.inr (Or.inl rfl))), h (false, next p.1, p.2) (Or.inr (Or.inr (Or.inr rfl)))]

/-- The sites before `j` in row `i` and in the rows before. -/
def done (L i j : ℕ) : Finset (Fin L × Fin L) :=
  Finset.univ.filter fun p => (p.1 : ℕ) < i ∨ ((p.1 : ℕ) = i ∧ (p.2 : ℕ) < j)

/-- The bonds both sites of which are done. -/
def closed (L i j : ℕ) : Finset (Bond L) :=
  Finset.univ.filter fun b =>
    if b.1 then (b.2.1 : ℕ) < i ∨ ((b.2.1 : ℕ) = i ∧ (((b.2.2 : ℕ) ≠ 0 ∧ (b.2.2 : ℕ) < j) ∨ j = L))
    else ((b.2.1 : ℕ) ≠ 0 ∧ ((b.2.1 : ℕ) < i ∨ ((b.2.1 : ℕ) = i ∧ (b.2.2 : ℕ) < j))) ∨
      ((b.2.1 : ℕ) = 0 ∧ (L ≤ i ∨ (i + 1 = L ∧ (b.2.2 : ℕ) < j)))

/-- The label of an open bond. -/
def lab1 (b : Bond L) : Lab :=
  if b.1 then (if (b.2.2 : ℕ) = 0 then (.left, some b.2.1) else (.right, some b.2.1))
  else (if (b.2.1 : ℕ) = 0 then (.up, some b.2.2) else (.down, some b.2.2))

/-- The label of a bond of a site. -/
def lab2 (p : Fin L × Fin L) (b : Bond L) : Lab :=
  if b.1 then (if b.2.2 = p.2 then (.left, some b.2.1) else (.right, some b.2.1))
  else (if b.2.1 = p.1 then (.up, some b.2.2) else (.down, some b.2.2))

/-- The bonds closed by a site. -/
def closing (i j : Fin L) : List (Bond L) :=
  (if (j : ℕ) ≠ 0 then [(true, i, j)] else []) ++ (if (i : ℕ) ≠ 0 then [(false, i, j)] else []) ++
  (if (j : ℕ) + 1 = L then [(true, i, next j)] else []) ++ (if (i : ℕ) + 1 = L then [(false, next i, j)] else [])

/-- The edges after `j` sites of row `i`. -/
def openLegs (L : ℕ) (h v : ℕ → ℕ → ℕ) (i j : ℕ) : Lab → Option ℕ
  | (.left, some k) => if k = i ∧ 0 < j ∧ j < L then some (h i 0) else none
  | (.right, some k) => if k = i ∧ 0 < j ∧ j < L then some (h i j) else none
  | (.up, some k) => if k < L ∧ (0 < i ∨ k < j) ∧ (i + 1 < L ∨ (i < L ∧ ¬ k < j)) then some (v 0 k) else none
  | (.down, some k) => if k < L ∧ (0 < i ∨ k < j) ∧ (i + 1 < L ∨ (i < L ∧ ¬ k < j)) then
      some (if k < j then v (i + 1) k else v i k) else none
  | _ => none

/-- The pairs of labels of `contract_names` which are known. -/
def knownLabs (i j : Fin L) : List (Lab × Lab) := (closing i j).map fun b => (lab1 b, lab2 (i, j) b)

theorem closing_cases (hL : 2 ≤ L) (i j : Fin L) : knownLabs i j =
    (if (j : ℕ) ≠ 0 then [((Side.right, some (i : ℕ)), (Side.left, some (i : ℕ)))] else []) ++
    (if (i : ℕ) ≠ 0 then [((Side.down, some (j : ℕ)), (Side.up, some (j : ℕ)))] else []) ++
    (if (j : ℕ) + 1 = L then [((Side.left, some (i : ℕ)), (Side.right, some (i : ℕ)))] else []) ++
    (if (i : ℕ) + 1 = L then [((Side.up, some (j : ℕ)), (Side.down, some (j : ℕ)))] else []) := by
  have hi := i.isLt
  have hj := j.isLt
  rw [knownLabs, closing]
  simp only [List.map_append]
  congr 1
  · congr 1
    · congr 1
      · split <;> simp_all [lab1, lab2]
      · split <;> simp_all [lab1, lab2]
    · split
      · rename_i h
        have h1 := next_val j
        rw [if_pos h] at h1
        have h2 : next j ≠ j := fun h' => by rw [h'] at h1; omega
        simp [lab1, lab2, h1, h2]
      · rfl
  · split
    · rename_i h
      have h1 := next_val i
      rw [if_pos h] at h1
      have h2 : next i ≠ i := fun h' => by rw [h'] at h1; omega
      simp [lab1, lab2, h1, h2]
    · rfl

theorem mem_closing (i j : Fin L) (b : Bond L) : b ∈ closing i j ↔
    ((j : ℕ) ≠ 0 ∧ b = (true, i, j)) ∨ ((i : ℕ) ≠ 0 ∧ b = (false, i, j)) ∨
    ((j : ℕ) + 1 = L ∧ b = (true, i, next j)) ∨ ((i : ℕ) + 1 = L ∧ b = (false, next i, j)) := by
  have h : ∀ (c : Prop) [Decidable c] (x : Bond L), b ∈ (if c then [x] else []) ↔ c ∧ b = x := fun c _ x => by
    split <;> simp_all
  rw [closing, List.mem_append, List.mem_append, List.mem_append, h, h, h, h]
  tauto

theorem closed_step (hL : 2 ≤ L) (i j : Fin L) :
    closed L i j ∪ (closing i j).toFinset = closed L i (j + 1) := by
  have hi := i.isLt
  have hj := j.isLt
  have n1 : (i : ℕ) + 1 = L → (next i : ℕ) = 0 := fun h => by rw [next_val, if_pos h]
  have n2 : (j : ℕ) + 1 = L → (next j : ℕ) = 0 := fun h => by rw [next_val, if_pos h]
  ext ⟨c, i', j'⟩
  have hi' := i'.isLt
  have hj' := j'.isLt
  simp only [closed, Finset.mem_union, Finset.mem_filter, Finset.mem_univ, true_and, List.mem_toFinset, mem_closing,
    Prod.mk.injEq, Fin.ext_iff]
  cases c
  · simp only [Bool.false_eq_true, reduceCtorEq, if_false, false_and, and_false, true_and, or_false, false_or]
    omega
  · simp only [Bool.false_eq_true, reduceCtorEq, if_true, false_and, and_false, true_and, or_false, false_or]
    omega

theorem done_step (i j : Fin L) : insert (i, j) (done L i j) = done L i (j + 1) := by
  ext ⟨i', j'⟩
  simp only [done, Finset.mem_insert, Finset.mem_filter, Finset.mem_univ, true_and, Prod.mk.injEq, Fin.ext_iff]
  omega

theorem next_ne (hL : 2 ≤ L) (j : Fin L) : next j ≠ j := fun h => by
  have h1 := congrArg Fin.val h
  have := j.isLt
  rw [next_val] at h1
  split at h1 <;> omega

theorem touch_closing {i j : Fin L} {b : Bond L} (h : b ∈ closing i j) : touch (i, j) b := by
  rw [mem_closing] at h
  unfold touch
  tauto

theorem closing_nodup (hL : 2 ≤ L) (i j : Fin L) : (closing i j).Nodup := by
  have h1 : j ≠ next j := (next_ne hL j).symm
  have h2 : i ≠ next i := (next_ne hL i).symm
  unfold closing
  split_ifs <;> simp [h1, h2]

theorem touch_open (hL : 2 ≤ L) {i j : Fin L} {b : Bond L} (h : touch (i, j) b) : b ∉ closed L i j := by
  have hi := i.isLt
  have hj := j.isLt
  have n1 := next_val i
  have n2 := next_val j
  obtain ⟨c, i', j'⟩ := b
  simp only [touch, Prod.mk.injEq, Fin.ext_iff] at h
  simp only [closed, Finset.mem_filter, Finset.mem_univ, true_and]
  cases c
  · simp only [Bool.false_eq_true, reduceCtorEq, if_false, false_and, true_and, false_or] at h ⊢
    split at n1 <;> omega
  · simp only [reduceCtorEq, if_true, false_and, true_and, or_false] at h ⊢
    split at n2 <;> omega

/-- Bonds which are open and have a site that is done. -/
theorem open_bond (hL : 2 ≤ L) {i j : Fin L} {b : Bond L} (hC : b ∉ closed L i j)
    (hD : ∃ q ∈ done L i j, touch q b) :
    (b.1 = true ∧ b.2.1 = i ∧ (j : ℕ) ≠ 0 ∧ ((b.2.2 : ℕ) = 0 ∨ b.2.2 = j)) ∨
    (b.1 = false ∧ ((b.2.1 : ℕ) = 0 ∨ ((b.2.2 : ℕ) < j ∧ b.2.1 = next i) ∨ (¬ (b.2.2 : ℕ) < j ∧ b.2.1 = i))) := by
  have hi := i.isLt
  have hj := j.isLt
  obtain ⟨⟨i1, j1⟩, hq, ht⟩ := hD
  have hi1 := i1.isLt
  have hj1 := j1.isLt
  have n1 := next_val i1
  have n2 := next_val j1
  have n3 := next_val i
  obtain ⟨c, i', j'⟩ := b
  have hi' := i'.isLt
  have hj' := j'.isLt
  simp only [touch, Prod.mk.injEq, Fin.ext_iff] at ht
  simp only [done, Finset.mem_filter, Finset.mem_univ, true_and] at hq
  simp only [closed, Finset.mem_filter, Finset.mem_univ, true_and] at hC
  simp only [Fin.ext_iff]
  cases c
  · simp only [Bool.false_eq_true, reduceCtorEq, if_false, false_and, true_and, false_or] at ht hC ⊢
    split at n1 <;> split at n3 <;> omega
  · simp only [reduceCtorEq, if_true, false_and, true_and, or_false] at ht hC ⊢
    split at n2 <;> omega

theorem lab1_inj (hL : 2 ≤ L) {i j : Fin L} {b b' : Bond L} (hb : b ∈ closing i j) (hC : b' ∉ closed L i j)
    (hD : ∃ q ∈ done L i j, touch q b') (h : lab1 b' = lab1 b) : b' = b := by
  have hi := i.isLt
  have hj := j.isLt
  have h1 := open_bond hL hC hD
  rw [mem_closing] at hb
  have n1 : (i : ℕ) + 1 = L → (next i : ℕ) = 0 := fun h => by rw [next_val, if_pos h]
  have n2 : (j : ℕ) + 1 = L → (next j : ℕ) = 0 := fun h => by rw [next_val, if_pos h]
  obtain ⟨c, i', j'⟩ := b
  obtain ⟨c', i2, j2⟩ := b'
  simp only [Prod.mk.injEq, Fin.ext_iff] at hb h1 ⊢
  cases c <;> cases c' <;>
    simp only [lab1, Bool.false_eq_true, reduceCtorEq, if_false, if_true, false_and, and_false, true_and, false_or,
      or_false] at hb h1 h ⊢
  · split at h <;> split at h <;> simp only [Prod.mk.injEq, Option.some.injEq, reduceCtorEq, false_and, true_and] at h <;>
      omega
  · split at h <;> split at h <;> simp at h
  · split at h <;> split at h <;> simp at h
  · split at h <;> split at h <;> simp only [Prod.mk.injEq, Option.some.injEq, reduceCtorEq, false_and, true_and] at h <;>
      omega

theorem lab2_site (hL : 2 ≤ L) (i j : Fin L) :
    lab2 (i, j) (true, i, j) = (.left, some (i : ℕ)) ∧ lab2 (i, j) (true, i, next j) = (.right, some (i : ℕ)) ∧
    lab2 (i, j) (false, i, j) = (.up, some (j : ℕ)) ∧ lab2 (i, j) (false, next i, j) = (.down, some (j : ℕ)) := by
  have h1 := next_ne hL i
  have h2 := next_ne hL j
  simp [lab2, h1, h2]

theorem lab2_inj (hL : 2 ≤ L) {i j : Fin L} {b b' : Bond L} (hb : touch (i, j) b) (hb' : touch (i, j) b')
    (h : lab2 (i, j) b' = lab2 (i, j) b) : b' = b := by
  obtain ⟨a1, a2, a3, a4⟩ := lab2_site hL i j
  rcases hb with rfl | rfl | rfl | rfl <;> rcases hb' with rfl | rfl | rfl | rfl <;>
    first
    | rfl
    | (simp only [a1, a2, a3, a4, Prod.mk.injEq, reduceCtorEq, false_and] at h)

theorem site_label (hL : 2 ≤ L) {i j : Fin L} {b : Bond L} (hb : touch (i, j) b) (h : b ∉ closing i j) :
    lab1 b = lab2 (i, j) b := by
  obtain ⟨a1, a2, a3, a4⟩ := lab2_site hL i j
  rw [mem_closing] at h
  push Not at h
  obtain ⟨h1, h2, h3, h4⟩ := h
  rcases hb with rfl | rfl | rfl | rfl
  · have : (j : ℕ) = 0 := by by_contra h0; exact h1 h0 rfl
    rw [a1]
    simp [lab1, this]
  · have : ¬ (j : ℕ) + 1 = L := fun h0 => h3 h0 rfl
    have n := next_val j
    rw [if_neg this] at n
    rw [a2]
    simp [lab1, n]
  · have : (i : ℕ) = 0 := by by_contra h0; exact h2 h0 rfl
    rw [a3]
    simp [lab1, this]
  · have : ¬ (i : ℕ) + 1 = L := fun h0 => h4 h0 rfl
    have n := next_val i
    rw [if_neg this] at n
    rw [a4]
    simp [lab1, n]

end TAT.Torus
