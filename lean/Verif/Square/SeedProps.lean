import Mathlib.Data.Int.ModEq
import Mathlib.Data.Set.Card
import Mathlib.Data.Nat.ModEq
import Mathlib.Order.Interval.Finset.Nat
import Mathlib.Tactic.IntervalCases
import Verif.Square.SeedModel

/-!
# C78: random numbers of several processes

`seed` with the same arguments and `merge_seed` leave all processes with the same engine, `markov` too.  `split_seed`
gives all processes different seeds.  With the engine of the GNU library different seeds do not always give different
streams; the numbers of the common engine for which two processes share their stream are counted, and the streams of
two processes are never independent: they differ by a fixed multiple of the difference of the ranks.
-/

namespace TAT

variable {E : Type}

/-- Two processes have the same engine. -/
def SameEngines (size : ℕ) (engine : ℕ → E) : Prop := ∀ i j, i < size → j < size → engine i = engine j

/-- No two processes have the same value. -/
def Apart {V : Type} (size : ℕ) (value : ℕ → V) : Prop := ∀ i j, i < size → j < size → value i = value j → i = j

/-- The seeds which `split_seed` uses when the engines agree: those of a common number. -/
def splitValue (common rank : ℕ) : ℕ := (common + rank) % 2 ^ 32

/-- `merge_seed` leaves all processes with the same engine, whatever they had; it does not use `std::random_device`. -/
theorem C78_merge (r : RandomEngine E) (device size : ℕ) (engine : ℕ → E) :
    SameEngines size (mergeSeed r device engine) ∧
      ∀ i, mergeSeed r device engine i = r.seed (r.draw (engine 0)).1 := by
  have h := r.positive (engine 0)
  refine ⟨fun i j _ _ => rfl, fun i => ?_⟩
  simp [mergeSeed, getSeed, h.ne']

/-- After `markov` all processes have the same engine again, whatever each of them did with its own. -/
theorem C78_markov (r : RandomEngine E) (device size : ℕ) (use : ℕ → E → E) (engine : ℕ → E) :
    SameEngines size (markovEngines r device use engine) := (C78_merge r device size _).1

/-- `seed`: with arguments which are all nonzero every process has the engine of its argument; with zeros all
processes have the engine of one number of the device; otherwise the call does not come back. -/
theorem C78_seed (r : RandomEngine E) (device size : ℕ) (seed : ℕ → ℕ) :
    ((∀ i < size, seed i ≠ 0) → seedAll r device size seed = .ok fun i => r.seed (seed i)) ∧
    (0 < size → (∀ i < size, seed i = 0) → seedAll r device size seed = .ok fun _ => r.seed device) ∧
    ((∃ i < size, seed i ≠ 0) → (∃ i < size, seed i = 0) →
      ∃ message, seedAll r device size seed = .error message) := by
  refine ⟨fun h => ?_, fun h0 h => ?_, ?_⟩
  · rw [seedAll, if_pos]
    simpa using h
  · rw [seedAll, if_neg, if_pos]
    · simp [getSeed]
    · simpa using h
    · simp only [ne_eq, List.all_eq_true, List.mem_range, decide_eq_true_eq, not_forall]
      exact ⟨0, h0, by simpa using h 0 h0⟩
  · rintro ⟨i, hi, hi'⟩ ⟨j, hj, hj'⟩
    refine ⟨"MPI_Bcast is not called by all processes", ?_⟩
    rw [seedAll, if_neg, if_neg]
    · simp only [List.all_eq_true, List.mem_range, decide_eq_true_eq, not_forall]
      exact ⟨i, hi, hi'⟩
    · simp only [ne_eq, List.all_eq_true, List.mem_range, decide_eq_true_eq, not_forall]
      exact ⟨j, hj, by simpa using hj'⟩

/-- With the same argument everywhere the engines agree. -/
theorem C78_seed_same (r : RandomEngine E) (device size value : ℕ) {engine : ℕ → E}
    (h : seedAll r device size (fun _ => value) = .ok engine) : SameEngines size engine := by
  intro i j hi hj
  by_cases hv : value = 0
  · rw [(C78_seed r device size _).2.1 (by omega) (fun _ _ => hv)] at h
    cases h
    rfl
  · rw [(C78_seed r device size _).1 (fun _ _ => hv)] at h
    cases h
    rfl

theorem splitValue_apart {size : ℕ} (hsize : size ≤ 2 ^ 32) (common : ℕ) : Apart size (splitValue common) := by
  intro i j hi hj h
  unfold splitValue at h
  omega

/-- `split_seed` on engines which agree seeds every process with another number.  Hence the engines are different if
the engine keeps different seeds apart. -/
theorem C78_split_partial (r : RandomEngine E) (size : ℕ) (hsize : size ≤ 2 ^ 32) {engine : ℕ → E}
    (h : SameEngines size engine) :
    ∃ common, 0 < common ∧ common < 2 ^ 32 ∧ Apart size (splitValue common) ∧
      (∀ i < size, splitSeed r engine i = r.seed (splitValue common i)) ∧
      ((∀ a b, a < 2 ^ 32 → b < 2 ^ 32 → r.seed a = r.seed b → a = b) → Apart size (splitSeed r engine)) := by
  refine ⟨(r.draw (engine 0)).1, r.positive _, r.small _, splitValue_apart hsize _, fun i hi => ?_, fun hinj => ?_⟩
  · rw [splitSeed, splitValue, h i 0 hi (by omega)]
  · intro i j hi hj hij
    refine splitValue_apart hsize (r.draw (engine 0)).1 i j hi hj (hinj _ _ (Nat.mod_lt _ (by norm_num))
      (Nat.mod_lt _ (by norm_num)) ?_)
    rw [splitSeed, splitSeed, h i 0 hi (by omega), h j 0 hj (by omega)] at hij
    exact hij

theorem lcgSeed_low {v : ℕ} (h : 0 < v) (h' : v < 2147483647) : lcgSeed v = v := by
  unfold lcgSeed lcgModulus
  rw [Nat.mod_eq_of_lt h', if_neg h.ne']

theorem lcgSeed_high {v : ℕ} (h : 2147483647 < v) (h' : v < 4294967294) : lcgSeed v = v - 2147483647 := by
  unfold lcgSeed lcgModulus
  have e : v % 2147483647 = v - 2147483647 := by omega
  rw [e, if_neg (by omega)]

theorem lcgSeed_one {v : ℕ} (h : v = 0 ∨ v = 1 ∨ v = 2147483647 ∨ v = 2147483648 ∨ v = 4294967294 ∨ v = 4294967295) :
    lcgSeed v = 1 := by
  rcases h with h | h | h | h | h | h <;> rw [h] <;> rfl

/-- Seeds below 2 ^ 32 which are not far apart and give the same state. -/
theorem lcgSeed_eq {v w : ℕ} (hw : w < 4294967296) (hvw : v < w) (hnear : w < v + 1073741824)
    (h : lcgSeed v = lcgSeed w) :
    v = 0 ∧ w = 1 ∨ v = 2147483647 ∧ w = 2147483648 ∨ 4294967294 ≤ v ∧ w = 4294967295 := by
  have hv : v = 0 ∨ (0 < v ∧ v < 2147483647) ∨ v = 2147483647 ∨ (2147483647 < v ∧ v < 4294967294) ∨
      4294967294 ≤ v := by omega
  have hw' : (0 < w ∧ w < 2147483647) ∨ w = 2147483647 ∨ (2147483647 < w ∧ w < 4294967294) ∨
      w = 4294967294 ∨ w = 4294967295 := by omega
  rcases hv with a | a | a | a | a <;> rcases hw' with b | b | b | b | b <;>
  first
    | omega
    | (rw [lcgSeed_one (by omega), lcgSeed_low b.1 b.2] at h; omega)
    | (rw [lcgSeed_one (by omega), lcgSeed_high b.1 b.2] at h; omega)
    | (rw [lcgSeed_low a.1 a.2, lcgSeed_one (v := w) (by omega)] at h; omega)
    | (rw [lcgSeed_high a.1 a.2, lcgSeed_one (v := w) (by omega)] at h; omega)
    | (rw [lcgSeed_low a.1 a.2, lcgSeed_low b.1 b.2] at h; omega)
    | (rw [lcgSeed_low a.1 a.2, lcgSeed_high b.1 b.2] at h; omega)
    | (rw [lcgSeed_high a.1 a.2, lcgSeed_high b.1 b.2] at h; omega)

/-- Two of the processes have the same stream exactly if the common number is one of these. -/
theorem lcgSeed_collide {size common : ℕ} (hsize : size ≤ 2 ^ 30) (h0 : 0 < common) (h1 : common < 2 ^ 32) :
    ¬ Apart size (fun i => lcgSeed (splitValue common i)) ↔
      2 ≤ size ∧ ((2 ^ 31 + 1 ≤ common + size ∧ common ≤ 2 ^ 31 - 1) ∨ 2 ^ 32 ≤ common + size) := by
  constructor
  · intro h
    unfold Apart at h
    push Not at h
    obtain ⟨i, j, hi, hj, hij, hne⟩ := h
    wlog hlt : i < j generalizing i j
    · exact this j i hj hi hij.symm hne.symm (by omega)
    refine ⟨by omega, ?_⟩
    by_contra hall
    have ei : splitValue common i = common + i := by unfold splitValue; omega
    have ej : splitValue common j = common + j := by unfold splitValue; omega
    rw [ei, ej] at hij
    have := lcgSeed_eq (by omega) (by omega) (by omega) hij
    omega
  · rintro ⟨h2, h⟩ hap
    by_cases hw : 2 ^ 32 ≤ common + size
    · by_cases he : common = 2 ^ 32 - 1
      · have := hap 0 1 (by omega) (by omega) (by
          show lcgSeed (splitValue _ _) = lcgSeed (splitValue _ _)
          rw [lcgSeed_one (by unfold splitValue; omega), lcgSeed_one (by unfold splitValue; omega)])
        omega
      · have := hap (2 ^ 32 - 2 - common) (2 ^ 32 - 1 - common) (by omega) (by omega) (by
          show lcgSeed (splitValue _ _) = lcgSeed (splitValue _ _)
          rw [lcgSeed_one (by unfold splitValue; omega), lcgSeed_one (by unfold splitValue; omega)])
        omega
    · have := hap (2 ^ 31 - 1 - common) (2 ^ 31 - common) (by omega) (by omega) (by
          show lcgSeed (splitValue _ _) = lcgSeed (splitValue _ _)
          rw [lcgSeed_one (by unfold splitValue; omega), lcgSeed_one (by unfold splitValue; omega)])
      omega

/-- With the engine of the GNU library: after `split_seed` no two of the processes have the same engine, unless the
common number is one of these. -/
theorem C78_split_lcg_partial (r : RandomEngine ℕ) (hr : r.seed = lcgSeed) {size : ℕ} (h2 : 2 ≤ size)
    (hsize : size ≤ 2 ^ 30) {engine : ℕ → ℕ} (h : SameEngines size engine) :
    Apart size (splitSeed r engine) ↔
      ¬ ((2 ^ 31 + 1 ≤ (r.draw (engine 0)).1 + size ∧ (r.draw (engine 0)).1 ≤ 2 ^ 31 - 1) ∨
        2 ^ 32 ≤ (r.draw (engine 0)).1 + size) := by
  have e : Apart size (splitSeed r engine) ↔ Apart size fun i => lcgSeed (splitValue (r.draw (engine 0)).1 i) := by
    refine forall_congr' fun i => forall_congr' fun j => forall_congr' fun hi => forall_congr' fun hj => ?_
    rw [splitSeed, splitSeed, h i 0 hi (by omega), h j 0 hj (by omega), hr]
    rfl
  have := lcgSeed_collide hsize (r.positive (engine 0)) (r.small (engine 0))
  rw [e]
  tauto

/-- Of the 2 ^ 32 - 1 common numbers exactly `2 * size - 1` leave two processes with the same engine. -/
theorem C78_shared_count {size : ℕ} (h2 : 2 ≤ size) (hsize : size ≤ 2 ^ 30) :
    {common | 0 < common ∧ common < 2 ^ 32 ∧ ¬ Apart size fun i => lcgSeed (splitValue common i)}.ncard =
      2 * size - 1 := by
  have e : {common | 0 < common ∧ common < 2 ^ 32 ∧ ¬ Apart size fun i => lcgSeed (splitValue common i)} =
      ((Finset.Ico (2 ^ 31 + 1 - size) (2 ^ 31) ∪ Finset.Ico (2 ^ 32 - size) (2 ^ 32) : Finset ℕ) : Set ℕ) := by
    ext c
    rw [Set.mem_ofPred_eq, Finset.mem_coe, Finset.mem_union, Finset.mem_Ico, Finset.mem_Ico]
    constructor
    · rintro ⟨h0, h1, h⟩
      rw [lcgSeed_collide hsize h0 h1] at h
      omega
    · intro h
      refine ⟨by omega, by omega, ?_⟩
      rw [lcgSeed_collide hsize (by omega) (by omega)]
      omega
  rw [e, Set.ncard_coe_finset, Finset.card_union_of_disjoint, Nat.card_Ico, Nat.card_Ico]
  · omega
  · rw [Finset.disjoint_left]
    intro x hx hx'
    rw [Finset.mem_Ico] at hx hx'
    omega

/-- With the largest common number but one, four processes have the same engine: they sample the same chain. -/
theorem C78_shared : ∃ common, 0 < common ∧ common < 2 ^ 32 ∧
    ∀ i j, i < 4 → j < 4 → ∀ k, lcgStream (lcgSeed (splitValue common i)) k =
      lcgStream (lcgSeed (splitValue common j)) k := by
  refine ⟨2 ^ 32 - 2, by norm_num, by norm_num, fun i j hi hj k => ?_⟩
  rw [lcgSeed_one (v := splitValue _ i) (by unfold splitValue; omega),
    lcgSeed_one (v := splitValue _ j) (by unfold splitValue; omega)]

theorem lcgStream_modEq (state k : ℕ) : (lcgStream state k : ℤ) ≡ 16807 ^ k * state [ZMOD 2147483647] := by
  induction k with
  | zero => simp [lcgStream]
  | succ k ih =>
    have e : (lcgStream state (k + 1) : ℤ) = (16807 * (lcgStream state k : ℤ)) % 2147483647 := by
      simp [lcgStream, lcgNext, lcgFactor, lcgModulus]
    rw [e]
    refine (Int.mod_modEq _ _).trans ?_
    rw [pow_succ, mul_comm (16807 ^ k : ℤ), mul_assoc]
    exact ih.mul_left _

theorem lcgSeed_modEq {v : ℕ} (h : ¬ 2147483647 ∣ v) : (lcgSeed v : ℤ) ≡ v [ZMOD 2147483647] := by
  have h' : ¬ v % lcgModulus = 0 := fun h' => h (Nat.dvd_of_mod_eq_zero h')
  rw [lcgSeed, if_neg h']
  simpa [lcgModulus] using Int.mod_modEq (v : ℤ) 2147483647

/-- The streams of two processes are tied to each other: the `k`-th numbers always differ by the difference of the
ranks times `16807 ^ k`, modulo the modulus. -/
theorem C78_streams {common i j : ℕ} (hi : common + i < 2 ^ 32) (hj : common + j < 2 ^ 32)
    (di : ¬ 2147483647 ∣ common + i) (dj : ¬ 2147483647 ∣ common + j) (k : ℕ) :
    (lcgStream (lcgSeed (splitValue common j)) k : ℤ) ≡
      lcgStream (lcgSeed (splitValue common i)) k + 16807 ^ k * ((j : ℤ) - i) [ZMOD 2147483647] := by
  rw [splitValue, splitValue, Nat.mod_eq_of_lt hi, Nat.mod_eq_of_lt hj]
  refine (lcgStream_modEq _ k).trans ?_
  refine Int.ModEq.trans ?_ ((lcgStream_modEq _ k).symm.add_right _)
  rw [← mul_add]
  refine Int.ModEq.mul_left _ ((lcgSeed_modEq dj).trans ?_)
  refine Int.ModEq.trans ?_ ((lcgSeed_modEq di).symm.add_right _)
  push_cast
  have e : (common : ℤ) + j = common + i + (j - i) := by omega
  rw [e]

/-- The first numbers of two neighbours lie 16807 apart on a circle of 2147483647 numbers. -/
theorem C78_neighbours {common i : ℕ} (hj : common + i + 1 < 2 ^ 32) (di : ¬ 2147483647 ∣ common + i)
    (dj : ¬ 2147483647 ∣ common + i + 1) :
    lcgNext (lcgSeed (splitValue common (i + 1))) =
      (lcgNext (lcgSeed (splitValue common i)) + 16807) % 2147483647 := by
  have h := C78_streams (i := i) (j := i + 1) (by omega) hj di dj 1
  simp only [lcgStream, pow_one, Nat.cast_add, Nat.cast_one, add_sub_cancel_left, mul_one] at h
  have hlt : lcgNext (lcgSeed (splitValue common (i + 1))) < 2147483647 :=
    Nat.mod_lt _ (by norm_num [lcgModulus])
  have h' : lcgNext (lcgSeed (splitValue common (i + 1))) ≡
      lcgNext (lcgSeed (splitValue common i)) + 16807 [MOD 2147483647] := by
    rw [← Int.natCast_modEq_iff]
    exact_mod_cast h
  rw [← h', Nat.mod_eq_of_lt hlt]

/-! ## Examples -/

/-- An engine with the seeds and the transition of the GNU library; the distribution is replaced by a simpler one. -/
def plainEngine : RandomEngine ℕ where
  seed := lcgSeed
  draw := fun e => (lcgNext e % (2 ^ 32 - 1) + 1, lcgNext e)
  positive := fun _ => Nat.succ_pos _
  small := fun e => by have := Nat.mod_lt (lcgNext e) (show 0 < 2 ^ 32 - 1 by norm_num); omega

/-- Three processes with the seed 5: the engines are the same, then three different ones, then the same again. -/
example :
    seedAll plainEngine 7 3 (fun _ => 5) = .ok (fun _ => 5) ∧
    splitSeed plainEngine (fun _ => 5) 0 = 84036 ∧ splitSeed plainEngine (fun _ => 5) 2 = 84038 ∧
    (∀ i, markovEngines plainEngine 7 (fun rank e => lcgStream e rank) (fun _ => 5) i = 1412393053) := by
  refine ⟨rfl, rfl, rfl, fun i => ?_⟩
  rw [markovEngines, (C78_merge _ _ 3 _).2]
  rfl

/-- Some zeros and some not. -/
example : ∃ message, seedAll plainEngine 7 3 (fun i => i) = .error message :=
  (C78_seed plainEngine 7 3 _).2.2 ⟨1, by norm_num, by norm_num⟩ ⟨0, by norm_num, rfl⟩

/-- The theorems apply to these engines. -/
example : Apart 3 (splitSeed plainEngine fun _ => 5) :=
  (C78_split_lcg_partial plainEngine rfl (by norm_num) (by norm_num) (fun _ _ _ _ => rfl)).2 (by decide)

example : ¬ Apart 4 (fun i => lcgSeed (splitValue (2 ^ 31 - 2) i)) :=
  (lcgSeed_collide (by norm_num) (by norm_num) (by norm_num)).2 (by norm_num)

example : lcgNext (lcgSeed (splitValue 84036 1)) = 1412409859 ∧ lcgNext (lcgSeed (splitValue 84036 0)) = 1412393052 := by
  refine ⟨?_, rfl⟩
  rw [C78_neighbours (by norm_num) (by norm_num) (by norm_num)]
  rfl

end TAT
