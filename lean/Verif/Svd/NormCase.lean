import Verif.Svd.BestProps
import Verif.Svd.Orthonormal

/-!
# A case of C71 and C72
-/

namespace TAT

variable {ν σ : Type} [LinearOrder ν] [TatSym σ]

/-- A sum of squares is zero only if every element is. -/
theorem normSq_eq_zero {K : Type} [RCLike K] {E : ν → List (σ × ℕ)} {f : (ν → σ × ℕ) → K}
    {names : List ν} (hn : names.Nodup) (h : normSq (starRingEnd K) E f names = 0)
    {w : ν → σ × ℕ} (hw : ∀ n ∈ names, w n ∈ E n) (h0 : ∀ n, n ∉ names → w n = (0, 0)) : f w = 0 := by
  unfold normSq at h
  rw [sumOver_eq] at h
  have hm : w ∈ assigns E names fun _ => (0, 0) := (mem_assigns hn).2 ⟨hw, h0⟩
  have hre : ((assigns E names fun _ => (0, 0)).map fun p => ‖f p‖ ^ 2).sum = 0 := by
    have := congrArg RCLike.re h
    rw [map_list_sum, List.map_map, map_zero] at this
    rw [← this]
    congr 1
    refine List.map_congr_left fun p _ => ?_
    simp only [Function.comp_apply]
    rw [RCLike.conj_mul, ← RCLike.ofReal_pow, RCLike.ofReal_re]
  have hz : ‖f w‖ ^ 2 = 0 := by
    refine le_antisymm ?_ (by positivity)
    rw [← hre]
    refine List.single_le_sum (fun x hx => ?_) _ (List.mem_map.2 ⟨w, hm, rfl⟩)
    obtain ⟨p, _, rfl⟩ := List.mem_map.1 hx
    positivity
  simpa using hz

/-- The sample satisfies what C71 and C72 need with a cut to one value. -/
example (env : DecompEnv FermiSymmetry ℂ) (junk : ℕ → ℂ) : ∃ (gesvd : Gesvd ℂ ℝ) (u0 v0 : _)
    (S : List (FermiSymmetry × List ℝ)),
    svd gesvd env junk ⟨50, 51⟩ sampleComplex [2, 3] 8 9 (2 ^ 64 - 1) = .ok (u0, S, v0) ∧
    normSq (starRingEnd ℂ) (fun n => edgePositions (mapOf sampleComplex n)) (amp sampleComplex) [1, 2, 3] =
      (S.map fun e => (e.2.map fun x : ℝ => (starRingEnd ℂ) (x : ℂ) * (x : ℂ)).sum).sum ∧
    ∃ u S' v, svd gesvd env junk ⟨50, 51⟩ sampleComplex [2, 3] 8 9 1 = .ok (u, S', v) ∧
      ∀ (ce : ContractEnv FermiSymmetry ℂ) (junk' : List FermiSymmetry → ℕ → ℂ), GemmOk ce.gemm →
      ∃ w r, multiple junk' (fun x (y : ℝ) => x * (y : ℂ)) id u S' 8 'u' false = .ok w ∧
        contract ce ⟨60, 61, 62⟩ w v [(8, 9)] = .ok r ∧
        ∀ P Q : (ℕ → FermiSymmetry × ℕ) → ℂ, (∀ p q, (∀ n ∈ [2, 3], p n = q n) → P p = P q) →
        (∀ p q, (∀ n ∈ [1], p n = q n) → Q p = Q q) →
        (normSq (starRingEnd ℂ) (fun n => edgePositions (mapOf sampleComplex n))
          (fun p => applySign (orderSign [1, 2, 3] r.names p) (amp sampleComplex p) - amp r p)
          [1, 2, 3]).re ≤
        (normSq (starRingEnd ℂ) (fun n => edgePositions (mapOf sampleComplex n))
          (fun p => applySign (orderSign [1, 2, 3] r.names p) (amp sampleComplex p) - P p * Q p)
          [1, 2, 3]).re := by
  obtain ⟨gesvd, h1, h2, h3⟩ := exists_gesvdOrtho (K := ℂ)
  have h3' : GesvdValues gesvd := fun n m data _ _ _ => h3 n m data
  obtain ⟨u0, S, v0, e, hr⟩ := C35_svd h1 env junk (sn := ⟨50, 51⟩) (by decide) sampleComplex_wf
    (by decide) [2, 3] (commonU := 8) (commonV := 9) (by decide) (by decide) (by decide) (by decide)
  have hn := C71_norm h1 h2 env junk (sn := ⟨50, 51⟩) (by decide) sampleComplex_wf [2, 3]
    (commonU := 8) (commonV := 9) (by decide) (by decide) (by decide) (by decide) e
  have hv := C35_values h1 h3' env junk (sn := ⟨50, 51⟩) (by decide) sampleComplex_wf [2, 3]
    (commonU := 8) (commonV := 9) (by decide) (by decide) (by decide) (by decide) e
  refine ⟨gesvd, u0, v0, S, e, hn, ?_⟩
  have hpos : 1 ≤ (S.map fun e => (e.2.filter fun x => decide (0 < x)).length).sum := by
    by_contra hc
    have hz : (S.map fun e => (e.2.filter fun x => decide (0 < x)).length).sum = 0 := by omega
    rw [List.sum_eq_zero_iff] at hz
    have h0 : ∀ e ∈ S, ∀ x ∈ e.2, x = 0 := by
      intro e he x hx
      have := hz _ (List.mem_map.2 ⟨e, he, rfl⟩)
      rw [List.length_eq_zero_iff, List.filter_eq_nil_iff] at this
      have := this x hx
      simp only [decide_eq_true_eq, not_lt] at this
      exact le_antisymm this ((hv e he).1 x hx)
    have hs : (S.map fun e => (e.2.map fun x : ℝ => (starRingEnd ℂ) (x : ℂ) * (x : ℂ)).sum).sum = 0 := by
      refine List.sum_eq_zero fun y hy => ?_
      obtain ⟨e, he, rfl⟩ := List.mem_map.1 hy
      refine List.sum_eq_zero fun z hz => ?_
      obtain ⟨x, hx, rfl⟩ := List.mem_map.1 hz
      rw [h0 e he x hx]
      simp
    have := normSq_eq_zero (w := fun _ => (0, 0)) (by decide) (hn.trans hs) (by decide) (fun _ _ => rfl)
    have h3 : amp sampleComplex (fun _ => (0, 0)) = 3 := by
      have hv : ValidPos sampleComplex fun _ => (0, 0) := by
        refine ⟨?_, by decide⟩
        decide
      have := amp_valid sampleComplex_wf hv
      rw [show elem sampleComplex (fun _ => (0, 0)) = some 3 from rfl, Option.some.injEq] at this
      exact this.symm
    rw [h3] at this
    norm_num at this
  have hlt : 1 < (S.map fun e => e.2.length).sum := by
    have hs : (⟨1⟩ : FermiSymmetry) ∈ OMap.keys (mapOf u0 8) :=
      (hr.sectors _).2 ⟨fun n => if n = 1 then (⟨1⟩, 0) else if n = 2 then (⟨-1⟩, 0) else (0, 0),
        by unfold KeyOk; decide, by decide⟩
    have hd := hr.dims _ hs
    rw [← hr.table.2] at hd
    obtain ⟨l, hl, hl'⟩ := Option.map_eq_some_iff.1 hd
    have h2 : l.length = 2 := by rw [hl']; decide
    have := List.single_le_sum (l := S.map fun e => e.2.length) (by simp) l.length
      (List.mem_map.2 ⟨_, OMap.mem_of_find? hl, rfl⟩)
    omega
  obtain ⟨u, S', v, e', _⟩ := C71_cut h1 h2 env junk (sn := ⟨50, 51⟩) (by decide) sampleComplex_wf
    [2, 3] (commonU := 8) (commonV := 9) (by decide) (by decide) (by decide) (by decide) e (cut := 1)
    (fun e he => (hv e he).2) hlt hpos (by decide) (by decide)
  obtain ⟨u, S', v, e', hb⟩ := C72_best h1 h2 h3' env junk (sn := ⟨50, 51⟩) (by decide)
    sampleComplex_wf [2, 3] (commonU := 8) (commonV := 9) (by decide) (by decide) (by decide)
    (by decide) e (cut := 1) hlt hpos (by decide) (by decide)
  refine ⟨u, S', v, e', fun ce junk' hg => ?_⟩
  obtain ⟨w, r, r1, r2, r3⟩ := hb ce ⟨60, 61, 62⟩ junk' id hg (by decide)
  refine ⟨w, r, r1, r2, fun P Q hP hQ => ?_⟩
  have := r3 1 le_rfl (fun _ => P) (fun _ => Q) (fun _ p q h => hP p q h) (fun _ p q h => hQ p q h)
  simp only [Fin.sum_univ_one] at this
  exact this

end TAT
