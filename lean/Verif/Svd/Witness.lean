import Verif.Svd.Props
import Verif.Qr.Witness

/-!
# The assumption about `gesvd` can be met, and cases of C35 and C51
-/

namespace TAT

theorem sum_single {K : Type} [Field K] (f : ℕ → K) {k i : ℕ} (hi : i < k)
    (h : ∀ l < k, l ≠ i → f l = 0) : ((List.range k).map f).sum = f i := by
  rw [← List.sum_toFinset _ List.nodup_range]
  rw [Finset.sum_eq_single i (fun l hl hne => h l (by simpa using hl) hne)
    (fun hc => absurd (by simpa using hi) hc)]

/-- A factorisation of every matrix: one factor is the unit matrix, the values are `k`, …, 1. (That
the factors are not isometric is of no importance here.) -/
def refGesvd : Gesvd ℚ ℚ := fun n m data =>
  if n ≤ m then
    (colMajor n n fun i l => if i = l then 1 else 0, (List.range n).map fun l : ℕ => (n : ℚ) - (l : ℚ),
      colMajor n m fun l j => data.getD (l + j * n) 0 / ((n : ℚ) - l))
  else
    (colMajor n m fun i l => data.getD (i + l * n) 0 / ((m : ℚ) - l),
      (List.range m).map fun l : ℕ => (m : ℚ) - (l : ℚ), colMajor m m fun l j => if l = j then 1 else 0)

theorem refGesvd_ok : GesvdOk id refGesvd := by
  intro n m data hn hm hd
  have hs : ∀ k l : ℕ, l < k → ((List.range k).map fun l : ℕ => (k : ℚ) - (l : ℚ)).getD l 0 = (k : ℚ) - l := by
    intro k l hl
    rw [List.getD_eq_getElem?_getD, List.getElem?_map, List.getElem?_range hl]
    rfl
  have hne : ∀ k l : ℕ, l < k → (k : ℚ) - l ≠ 0 := by
    intro k l hl hc
    rw [sub_eq_zero] at hc
    have : k = l := by exact_mod_cast hc
    omega
  unfold refGesvd
  by_cases h : n ≤ m
  · rw [if_pos h, Nat.min_eq_left h]
    refine ⟨_, _, _, rfl, colMajor_length _ _ _, by simp, colMajor_length _ _ _,
      fun i hi j hj => ?_⟩
    rw [sum_single _ hi fun l hl hne => by
      rw [colMajor_getD _ hi hl, if_neg (Ne.symm hne)]; simp]
    rw [colMajor_getD _ hi hi, colMajor_getD _ hi hj, if_pos rfl, hs n i hi]
    have := hne n i hi
    simp only [id]
    field_simp
  · have h' : m ≤ n := by omega
    rw [if_neg h, Nat.min_eq_right h']
    refine ⟨_, _, _, rfl, colMajor_length _ _ _, by simp, colMajor_length _ _ _,
      fun i hi j hj => ?_⟩
    rw [sum_single _ hj fun l hl hne => by
      rw [colMajor_getD _ hl hj, if_neg hne]; simp]
    rw [colMajor_getD _ hi hj, colMajor_getD _ hj hj, if_pos rfl, hs m j hj]
    have := hne m j hj
    simp only [id]
    field_simp

def envQ : DecompEnv FermiSymmetry ℚ :=
  ⟨⟨⟨8, 32768, 1, 1⟩, fun _ _ => 0, fun _ => false⟩, fun _ _ => 9, fun _ _ => 9,
    ⟨⟨8, 32768, 1, 1⟩, fun _ _ => 0, fun _ => false⟩, ⟨⟨8, 32768, 1, 1⟩, fun _ _ => 0, fun _ => false⟩⟩

/-- The sample satisfies what C35 needs, with U as the second factor. -/
example : ∃ u S v, svd refGesvd envQ (fun _ => 5) ⟨50, 51⟩ sampleQ [2, 3] 8 9 (2 ^ 64 - 1) =
    .ok (u, S, v) ∧ SvdResult id sampleQ u S v [2, 3] [1] 8 9 :=
  C35_svd refGesvd_ok envQ (fun _ => 5) (sn := ⟨50, 51⟩) (by decide) sampleQ_wf (by decide) [2, 3]
    (commonU := 8) (commonV := 9) (by decide) (by decide) (by decide) (by decide)

/-- The singular values without and with a cut. -/
def sampleValues (cut : ℕ) : Option (List (FermiSymmetry × List ℚ)) :=
  (svd refGesvd envQ (fun _ => 5) ⟨50, 51⟩ sampleQ [2, 3] 8 9 cut).toOption.map fun r => r.2.1

theorem sampleValues_all : sampleValues (2 ^ 64 - 1) = some [(⟨0⟩, [1]), (⟨1⟩, [2, 1])] := by
  decide +kernel

/-- The sample satisfies what C51 needs. -/
example : ∃ u0 v0 u S' v,
    svd refGesvd envQ (fun _ => 5) ⟨50, 51⟩ sampleQ [2, 3] 8 9 2 = .ok (u, S', v) ∧
    CutResult u0 v0 u v ([(⟨0⟩, [1]), (⟨1⟩, [2, 1])] : List (FermiSymmetry × List ℚ)) S' 8 9 2 := by
  have h := sampleValues_all
  unfold sampleValues at h
  cases hs : svd refGesvd envQ (fun _ => 5) ⟨50, 51⟩ sampleQ [2, 3] 8 9 (2 ^ 64 - 1) with
  | ok r =>
    rw [hs] at h
    obtain ⟨u0, S, v0⟩ := r
    simp only [Outcome.toOption, Option.map_some, Option.some.injEq] at h
    subst h
    obtain ⟨u, S', v, h1, h2⟩ := C51_cut refGesvd_ok envQ (fun _ => 5) (sn := ⟨50, 51⟩) (by decide)
      sampleQ_wf [2, 3] (commonU := 8) (commonV := 9) (by decide) (by decide) (by decide) (by decide)
      hs (cut := 2) (by decide +kernel) (by decide) (by decide +kernel) (by decide)
    exact ⟨u0, v0, u, S', v, h1, h2⟩
  | error m => rw [hs] at h; cases h
  | ub => rw [hs] at h; cases h

end TAT
