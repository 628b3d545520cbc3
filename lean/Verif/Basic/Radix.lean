import Mathlib.Data.List.Basic
import Mathlib.Data.List.GetD
import Mathlib.Data.List.Nodup
import Mathlib.Algebra.BigOperators.Group.List.Basic
import Mathlib.Algebra.Order.Ring.Nat
import Mathlib.Data.List.Forall2
import Mathlib.Tactic.Ring
import Mathlib.Tactic.Linarith

/-!
# Row-major (mixed radix) numbering of index tuples

Specification vocabulary: `rowMajor dims idx` is the position of the index tuple `idx` in a
row-major array of shape `dims`, `InBox dims idx` says that every index is below its dimension.
-/

namespace TAT

/-- Position of an index tuple in a row-major array. -/
def rowMajor : List ℕ → List ℕ → ℕ
  | _ :: ds, i :: is => i * ds.prod + rowMajor ds is
  | _, _ => 0

/-- Index tuple at a position of a row-major array. -/
def unravel : List ℕ → ℕ → List ℕ
  | [], _ => []
  | _ :: ds, n => (n / ds.prod) :: unravel ds (n % ds.prod)

/-- Every index is below its dimension (and the lengths agree). -/
def InBox (dims idx : List ℕ) : Prop := List.Forall₂ (fun d i => i < d) dims idx

theorem InBox.length {dims idx : List ℕ} (h : InBox dims idx) : dims.length = idx.length :=
  List.Forall₂.length_eq h

theorem InBox.prod_pos {dims idx : List ℕ} (h : InBox dims idx) : 0 < dims.prod := by
  induction h with
  | nil => simp
  | cons h1 _ ih =>
    rw [List.prod_cons]
    exact Nat.mul_pos (by omega) ih

theorem rowMajor_lt {dims idx : List ℕ} (h : InBox dims idx) : rowMajor dims idx < dims.prod := by
  induction h with
  | nil => simp [rowMajor]
  | @cons d i ds is h1 h2 ih =>
    simp only [rowMajor, List.prod_cons]
    have : (i + 1) * ds.prod ≤ d * ds.prod := Nat.mul_le_mul_right _ h1
    rw [Nat.add_mul, Nat.one_mul] at this
    omega

theorem unravel_length (dims : List ℕ) (n : ℕ) : (unravel dims n).length = dims.length := by
  induction dims generalizing n with
  | nil => rfl
  | cons d ds ih => simp [unravel, ih]

theorem unravel_rowMajor {dims idx : List ℕ} (h : InBox dims idx) :
    unravel dims (rowMajor dims idx) = idx := by
  induction h with
  | nil => rfl
  | @cons d i ds is h1 h2 ih =>
    have hlt := rowMajor_lt h2
    have hp : 0 < ds.prod := InBox.prod_pos h2
    simp only [rowMajor, unravel]
    rw [Nat.add_comm, Nat.add_mul_div_right _ _ hp, Nat.div_eq_of_lt hlt, Nat.zero_add,
      Nat.add_mul_mod_self_right, Nat.mod_eq_of_lt hlt, ih]

theorem inBox_unravel {dims : List ℕ} {n : ℕ} (h : n < dims.prod) : InBox dims (unravel dims n) := by
  induction dims generalizing n with
  | nil => exact List.Forall₂.nil
  | cons d ds ih =>
    rw [List.prod_cons] at h
    have hp : 0 < ds.prod := by
      rcases Nat.eq_zero_or_pos ds.prod with h0 | h0
      · rw [h0, Nat.mul_zero] at h; omega
      · exact h0
    refine List.Forall₂.cons ?_ (ih (Nat.mod_lt _ hp))
    exact Nat.div_lt_of_lt_mul (by rwa [Nat.mul_comm])

theorem rowMajor_unravel {dims : List ℕ} {n : ℕ} (h : n < dims.prod) :
    rowMajor dims (unravel dims n) = n := by
  induction dims generalizing n with
  | nil => simp at h; simp [rowMajor, h]
  | cons d ds ih =>
    rw [List.prod_cons] at h
    have hp : 0 < ds.prod := by
      rcases Nat.eq_zero_or_pos ds.prod with h0 | h0
      · rw [h0, Nat.mul_zero] at h; omega
      · exact h0
    simp only [unravel, rowMajor]
    rw [ih (Nat.mod_lt _ hp), Nat.mul_comm]
    exact Nat.div_add_mod n ds.prod

theorem rowMajor_inj {dims a b : List ℕ} (ha : InBox dims a) (hb : InBox dims b)
    (h : rowMajor dims a = rowMajor dims b) : a = b := by
  rw [← unravel_rowMajor ha, ← unravel_rowMajor hb, h]

/-- All index tuples of a box, in row-major (lexicographic) order. -/
def tuples : List ℕ → List (List ℕ)
  | [] => [[]]
  | d :: ds => (List.range d).flatMap fun i => (tuples ds).map (i :: ·)

theorem mem_tuples {dims idx : List ℕ} : idx ∈ tuples dims ↔ InBox dims idx := by
  induction dims generalizing idx with
  | nil =>
    simp only [tuples, List.mem_singleton, InBox]
    constructor
    · rintro rfl; exact List.Forall₂.nil
    · intro h; cases h; rfl
  | cons d ds ih =>
    simp only [tuples, List.mem_flatMap, List.mem_range, List.mem_map]
    constructor
    · rintro ⟨i, hi, is, his, rfl⟩
      exact List.Forall₂.cons hi (ih.1 his)
    · intro h
      cases h with
      | cons h1 h2 => exact ⟨_, h1, _, ih.2 h2, rfl⟩

theorem range_mul (a b : ℕ) :
    List.range (a * b) = (List.range a).flatMap fun i => (List.range b).map fun j => i * b + j := by
  induction a with
  | zero => simp
  | succ a ih =>
    rw [Nat.add_mul, Nat.one_mul, List.range_add, ih, List.range_succ, List.flatMap_append]
    simp

theorem tuples_eq (dims : List ℕ) : tuples dims = (List.range dims.prod).map (unravel dims) := by
  induction dims with
  | nil => simp [tuples, unravel]
  | cons d ds ih =>
    rw [tuples, List.prod_cons, range_mul, List.map_flatMap]
    apply List.flatMap_congr
    intro i _
    rw [ih, List.map_map, List.map_map]
    apply List.map_congr_left
    intro j hj
    have hj' := List.mem_range.1 hj
    have hp : 0 < ds.prod := by omega
    simp only [Function.comp, unravel]
    rw [Nat.add_comm, Nat.add_mul_div_right _ _ hp, Nat.div_eq_of_lt hj', Nat.zero_add,
      Nat.add_mul_mod_self_right, Nat.mod_eq_of_lt hj']

theorem tuples_length (dims : List ℕ) : (tuples dims).length = dims.prod := by
  rw [tuples_eq]; simp

theorem tuples_nodup (dims : List ℕ) : (tuples dims).Nodup := by
  rw [tuples_eq]
  refine List.Nodup.map_on ?_ List.nodup_range
  intro a ha b hb h
  rw [← rowMajor_unravel (List.mem_range.1 ha), ← rowMajor_unravel (List.mem_range.1 hb), h]

/-- Weight of digit `e`. -/
def weight (dims : List ℕ) (e : ℕ) : ℕ := (dims.drop (e + 1)).prod

theorem rowMajor_set {dims idx : List ℕ} (hl : dims.length = idx.length) {e : ℕ}
    (he : e < dims.length) (x : ℕ) :
    rowMajor dims (idx.set e x) + idx.getD e 0 * weight dims e =
      rowMajor dims idx + x * weight dims e := by
  induction dims generalizing idx e with
  | nil => simp at he
  | cons d ds ih =>
    cases idx with
    | nil => simp at hl
    | cons i is =>
      cases e with
      | zero => simp [rowMajor, weight]; ring
      | succ e =>
        have := ih (idx := is) (e := e) (by simpa using hl) (by simpa using he)
        simp only [List.set_cons_succ, rowMajor, weight, List.drop_succ_cons,
          List.getD_cons_succ] at *
        omega

theorem rowMajor_zeros (dims : List ℕ) (n : ℕ) : rowMajor dims (List.replicate n 0) = 0 := by
  induction dims generalizing n with
  | nil => simp [rowMajor]
  | cons d ds ih =>
    cases n with
    | zero => simp [rowMajor]
    | succ n => simp [List.replicate_succ, rowMajor, ih]

theorem inBox_iff {dims idx : List ℕ} :
    InBox dims idx ↔ dims.length = idx.length ∧ ∀ i, i < dims.length → idx.getD i 0 < dims.getD i 0 := by
  constructor
  · intro h
    refine ⟨h.length, ?_⟩
    induction h with
    | nil => simp
    | cons h1 h2 ih =>
      intro i hi
      cases i with
      | zero => simpa using h1
      | succ i => simpa using ih i (by simpa using hi)
  · rintro ⟨hl, h⟩
    induction dims generalizing idx with
    | nil =>
      cases idx with
      | nil => exact List.Forall₂.nil
      | cons _ _ => simp at hl
    | cons d ds ih =>
      cases idx with
      | nil => simp at hl
      | cons i is =>
        refine List.Forall₂.cons (by simpa using h 0 (by simp)) (ih (by simpa using hl) ?_)
        intro k hk
        simpa using h (k + 1) (by simpa using hk)

theorem InBox.set {dims idx : List ℕ} (h : InBox dims idx) {e x : ℕ} (hx : x < dims.getD e 0) :
    InBox dims (idx.set e x) := by
  rw [inBox_iff] at h ⊢
  refine ⟨by simpa using h.1, ?_⟩
  intro i hi
  by_cases hie : i = e
  · subst hie
    rw [List.getD_eq_getElem _ _ (by simp; omega)]
    simpa using hx
  · have := h.2 i hi
    rw [List.getD_eq_getElem?_getD, List.getElem?_set_ne (fun h => hie h.symm),
      ← List.getD_eq_getElem?_getD]
    exact this

theorem getD_set_self {l : List ℕ} {e x : ℕ} (h : e < l.length) : (l.set e x).getD e 0 = x := by
  rw [List.getD_eq_getElem _ _ (by simpa using h)]
  simp

theorem getD_set_ne {l : List ℕ} {e i x : ℕ} (h : e ≠ i) : (l.set e x).getD i 0 = l.getD i 0 := by
  rw [List.getD_eq_getElem?_getD, List.getElem?_set_ne h, ← List.getD_eq_getElem?_getD]

theorem weight_pred {dims : List ℕ} {e : ℕ} (he : e + 1 < dims.length) :
    weight dims e = dims.getD (e + 1) 0 * weight dims (e + 1) := by
  unfold weight
  rw [List.drop_eq_getElem_cons he, List.prod_cons, List.getD_eq_getElem _ _ he]

theorem weight_zero {dims : List ℕ} (h : 0 < dims.length) :
    dims.prod = dims.getD 0 0 * weight dims 0 := by
  cases dims with
  | nil => simp at h
  | cons d ds => simp [weight]

end TAT
