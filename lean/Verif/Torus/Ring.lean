import Verif.Torus.Sites
import Verif.Torus.Single

/-!
# Helper lemmas: a ring closed by `trace`, `examples/PBC.cpp` 97-106
-/

namespace TAT.Torus

open TAT.Grid (IsSite sides GridEnvOk)

set_option linter.unusedSectionVars false
set_option linter.unusedSimpArgs false

variable {ν α β : Type} [LinearOrder ν] [Field α] [LinearOrder β] [Zero β] {e : AuxEnv ν α β} {tr : TraceEnv ν α}

theorem traced_updown (he : GridEnvOk e sides) (htr : TraceEnvOk tr) {t : Tensor ν NoSymmetry α} {a b k : ℕ}
    (h : HasLegs (ringName e) t (full (some a) none none (some b) none none (some k) (some k))) :
    ∃ r, traced e tr t [("up", "down")] = .ok r ∧
      HasLegs (ringName e) r (full (some a) none none (some b) none none none none) ∧
      ∀ x y, fval e r x 0 0 y 0 0 0 0 = ∑ i ∈ Finset.range k, fval e t x 0 0 y 0 0 i i := by
  have hι := ringName_inj he
  obtain ⟨r, r1, r2, r3⟩ := label_trace hι tr.env1 tr.env2 tr.junk htr.names h (a := (.up, .plain))
    (b := (.down, .plain)) (by decide) rfl rfl
  refine ⟨r, r1, r2.cast ?_, fun x y => ?_⟩
  · rintro ⟨x, y⟩
    cases x <;> cases y <;> simp [full]
  · rw [fval, r3]
    refine Finset.sum_congr rfl fun i _ => gval_congr hι h ?_
    rintro ⟨x, y⟩
    cases x <;> cases y <;> simp [full, fidx, Function.update_apply]

theorem traced_leftright (he : GridEnvOk e sides) (htr : TraceEnvOk tr) {t : Tensor ν NoSymmetry α} {a : ℕ}
    (h : HasLegs (ringName e) t (full (some a) none none (some a) none none none none)) :
    ∃ r, traced e tr t [("left", "right")] = .ok r ∧
      onlyElement r = .ok (∑ x ∈ Finset.range a, fval e t x 0 0 x 0 0 0 0) := by
  have hι := ringName_inj he
  obtain ⟨r, r1, r2, r3⟩ := label_trace hι tr.env1 tr.env2 tr.junk htr.names h (a := (.left, .plain))
    (b := (.right, .plain)) (by decide) rfl rfl
  refine ⟨r, r1, ?_⟩
  have hn : ∀ n, leg r n = none := fun n => by
    by_contra hne
    obtain ⟨⟨x, y⟩, rfl⟩ := r2.only n hne
    refine hne ((r2.legs (x, y)).trans ?_)
    cases x <;> cases y <;> simp [full]
  rw [dense_number_only r2.dense, if_pos fun n _ => by rw [legDim, hn]; rfl]
  have hg : val r (fun _ => 0) = gval (ringName e) r fun _ => 0 := val_eq_gval hι r2 _
  rw [hg, r3]
  congr 1
  refine Finset.sum_congr rfl fun i _ => gval_congr hι h ?_
  rintro ⟨x, y⟩
  cases x <;> cases y <;> simp [full, fidx, Function.update_apply]

theorem join_first (he : GridEnvOk e sides) {t : Tensor ν NoSymmetry α} {a b : ℕ}
    (h : HasLegs (ringName e) t (full (some a) none none (some b) none none none none)) :
    ∃ r, e.join oneTensor t [("right", "left")] = .ok r ∧
      HasLegs (ringName e) r (full (some a) none none (some b) none none none none) ∧
      ∀ x y, fval e r x 0 0 y 0 0 0 0 = fval e t x 0 0 y 0 0 0 0 := by
  have hι := ringName_inj he
  have hl : ∀ n, leg (oneTensor : Tensor ν NoSymmetry α) n = none := fun n => leg_eq_none.2 (by simp [oneTensor])
  have h1 : HasLegs (ringName e) (oneTensor : Tensor ν NoSymmetry α) fun _ => none :=
    ⟨(oneTensor_legs (e := e) sides).dense, fun n hn => absurd (hl n) hn, fun g => hl _⟩
  obtain ⟨r, c1, c2, c3⟩ := label_contract hι e.ce he.gemm he.names h1 h [] (by simp) (by simp) (by simp)
    (fun _ _ _ => Or.inl rfl)
  refine ⟨r, ?_, c2.cast fun g => by simp [contractLegs], fun x y => ?_⟩
  · rw [AuxEnv.join, C29_missing_ignored]
    exact c1
  · rw [fval, c3, sumPairs, gval, oneTensor_val, one_mul]
    rfl

theorem join_next (he : GridEnvOk e sides) {r t : Tensor ν NoSymmetry α} {a b c : ℕ}
    (hr : HasLegs (ringName e) r (full (some a) none none (some b) none none none none))
    (ht : HasLegs (ringName e) t (full (some b) none none (some c) none none none none)) :
    ∃ r', e.join r t [("right", "left")] = .ok r' ∧
      HasLegs (ringName e) r' (full (some a) none none (some c) none none none none) ∧
      ∀ x y, fval e r' x 0 0 y 0 0 0 0 =
        ∑ w ∈ Finset.range b, fval e r x 0 0 w 0 0 0 0 * fval e t w 0 0 y 0 0 0 0 := by
  have hι := ringName_inj he
  obtain ⟨r', c1, c2, c3⟩ := ring_join he hr ht [((.right, .plain), (.left, .plain))] (by decide) (by decide)
    (by simp [full]) (by
      rintro ⟨x, y⟩
      cases x <;> cases y <;> simp [full])
  refine ⟨r', c1, c2.cast ?_, fun x y => ?_⟩
  · rintro ⟨x, y⟩
    cases x <;> cases y <;> simp [contractLegs, full]
  · rw [fval, c3]
    simp only [sumPairs]
    refine Finset.sum_congr (by simp [full]) fun w _ => ?_
    congr 1
    · refine gval_congr hι hr ?_
      rintro ⟨x, y⟩
      cases x <;> cases y <;> simp [full, fidx, Function.update_apply]
    · refine gval_congr hι ht ?_
      rintro ⟨x, y⟩
      cases x <;> cases y <;> simp [full, fidx, Function.update_apply]

/-- The matrix of a site, with the edges above and below joined. -/
noncomputable def siteMatrix (e : AuxEnv ν α β) (v : ℕ → ℕ) (t : ℕ → Tensor ν NoSymmetry α) (j x y : ℕ) : α :=
  ∑ k ∈ Finset.range (v j), Grid.elem e.nm sides (t j) x y k k

theorem join_loop (he : GridEnvOk e sides) (htr : TraceEnvOk tr) {L : ℕ} {t : ℕ → Tensor ν NoSymmetry α}
    {h v : ℕ → ℕ} (ht : ∀ j < L, IsSite e.nm sides (t j) (some (h j)) (some (h (j + 1))) (some (v j)) (some (v j)))
    (n m : ℕ) (hL : m + 1 + n ≤ L) {r : Tensor ν NoSymmetry α}
    (hr : HasLegs (ringName e) r (full (some (h 0)) none none (some (h (m + 1))) none none none none))
    (hv : ∀ x y, fval e r x 0 0 y 0 0 0 0 =
      path (fun i => Finset.range (h i)) (siteMatrix e v t) m 0 x y) :
    ∃ r', joinLine e tr ((List.range' (m + 1) n).map t) r = .ok r' ∧
      HasLegs (ringName e) r' (full (some (h 0)) none none (some (h (m + n + 1))) none none none none) ∧
      ∀ x y, fval e r' x 0 0 y 0 0 0 0 =
        path (fun i => Finset.range (h i)) (siteMatrix e v t) (m + n) 0 x y := by
  induction n generalizing m r with
  | zero => exact ⟨r, rfl, hr, hv⟩
  | succ n ih =>
    obtain ⟨s1, s2⟩ := IsSite.ring he (ht (m + 1) (by omega))
    obtain ⟨t', t1, t2, t3⟩ := traced_updown (tr := tr) he htr s1
    obtain ⟨r', r1, r2, r3⟩ := join_next he hr t2
    obtain ⟨r'', q1, q2, q3⟩ := ih (m + 1) (by omega) r2 fun x y => by
      rw [r3, path_last]
      simp only [Nat.zero_add]
      refine Finset.sum_congr rfl fun w _ => ?_
      rw [hv, t3]
      simp only [s2]
      rfl
    refine ⟨r'', ?_, ?_, ?_⟩
    · rw [List.range'_succ, List.map_cons, joinLine, t1, Outcome.bind, r1, Outcome.bind, q1]
    · rw [show m + (n + 1) = m + 1 + n by omega]
      exact q2
    · rw [show m + (n + 1) = m + 1 + n by omega]
      exact q3

theorem ring_matrix (e : AuxEnv ν α β) (n : ℕ) (h v : ℕ → ℕ) (t : ℕ → Tensor ν NoSymmetry α) :
    ∑ q ∈ Fintype.piFinset fun j : Fin (n + 1) => Finset.range (v j), ringValue e.nm (n + 1) h t q q =
      ∑ x ∈ Finset.range (h 0), path (fun i => Finset.range (h i)) (siteMatrix e v t) n 0 x x := by
  rw [← ring_sum (s := fun i => Finset.range (h i)) (M := siteMatrix e v t) n]
  simp only [ringValue]
  rw [Finset.sum_comm]
  refine Finset.sum_congr rfl fun p _ => ?_
  simp only [siteMatrix]
  rw [Finset.prod_univ_sum]

/-- The sites of a ring with the same edges above and below are contracted to the sum of all products. -/
theorem joinLine_ok (he : GridEnvOk e sides) (htr : TraceEnvOk tr) {n : ℕ} {t : ℕ → Tensor ν NoSymmetry α}
    {h v : ℕ → ℕ} (ht : IsRing e.nm (n + 1) t h v v) :
    ((joinLine e tr ((List.range (n + 1)).map t) oneTensor).bind fun r =>
      (traced e tr r [("left", "right")]).bind onlyElement) =
    .ok (∑ q ∈ Fintype.piFinset fun j : Fin (n + 1) => Finset.range (v j), ringValue e.nm (n + 1) h t q q) := by
  obtain ⟨s1, s2⟩ := IsSite.ring he (ht.site 0 (by omega))
  obtain ⟨t', t1, t2, t3⟩ := traced_updown (tr := tr) he htr s1
  obtain ⟨r, r1, r2, r3⟩ := join_first he t2
  obtain ⟨r', q1, q2, q3⟩ := join_loop (tr := tr) he htr ht.site n 0 (by omega) r2 fun x y => by
    rw [r3, t3]
    simp only [s2]
    rfl
  rw [Nat.zero_add] at q2
  rw [ht.closed] at q2
  obtain ⟨z, z1, z2⟩ := traced_leftright (tr := tr) he htr q2
  rw [List.range_eq_range', List.range'_succ, List.map_cons, joinLine, t1, Outcome.bind, r1, Outcome.bind, q1,
    Outcome.bind, z1, Outcome.bind, z2, ring_matrix]
  simp only [q3, Nat.zero_add]

end TAT.Torus
