import Verif.Square.ConvLemmas
import Verif.Square.AuxProps

/-!
# C63: conversions between the lattices keep the state

The state of a lattice is the amplitude of every configuration: `sitesAmp` for a lattice of tensors, `networkAmp`
for a lattice with environments, `amplitude` for the vector of an exact lattice.  A conversion changes it only by
a factor which is not zero.  If all amplitudes vanish, the code divides by zero.
-/

namespace TAT

set_option linter.unusedSectionVars false

variable {ν α β : Type} [LinearOrder ν]

/-! ## Factors -/

section

variable [CommRing α]

/-- Factors of the sites are a factor of the value. -/
theorem netVal_factor {M N : ℕ} {h v : ℕ → ℕ → ℕ} {S S' : ℕ → ℕ → ℕ → ℕ → ℕ → ℕ → α} (a : ℕ → ℕ → α)
    (hS : ∀ i < M, ∀ j < N, ∀ l r u d, S' i j l r u d = a i j * S i j l r u d) :
    netVal M N h v S' = (∏ i : Fin M, ∏ j : Fin N, a i j) * netVal M N h v S := by
  rw [netVal, netVal, Finset.mul_sum]
  refine Finset.sum_congr rfl fun p _ => ?_
  rw [Finset.mul_sum]
  refine Finset.sum_congr rfl fun q _ => ?_
  rw [← Finset.prod_mul_distrib]
  refine Finset.prod_congr rfl fun i _ => ?_
  rw [← Finset.prod_mul_distrib]
  exact Finset.prod_congr rfl fun j _ => hS i i.2 j j.2 _ _ _ _

/-- A site all of whose elements are zero. -/
theorem netVal_zero_site {M N : ℕ} {h v : ℕ → ℕ → ℕ} {S : ℕ → ℕ → ℕ → ℕ → ℕ → ℕ → α} {i j : ℕ} (hi : i < M)
    (hj : j < N) (hS : ∀ l r u d, S i j l r u d = 0) : netVal M N h v S = 0 := by
  refine Finset.sum_eq_zero fun p _ => Finset.sum_eq_zero fun q _ => ?_
  refine Finset.prod_eq_zero (Finset.mem_univ (⟨i, hi⟩ : Fin M)) ?_
  exact Finset.prod_eq_zero (Finset.mem_univ (⟨j, hj⟩ : Fin N)) (hS _ _ _ _)

end

variable [Field α] [LinearOrder β] [Field β] {e : NetEnv ν α β}

/-- The tensors of a lattice with their environments. -/
theorem withEnvironments (he : NetEnvOk e) {M N d : ℕ} {s : NetState ν α β} {h v : ℕ → ℕ → Option ℕ}
    (hs : NetworkOn e.nm M N d s h v) :
    ∃ site : ℕ → ℕ → Tensor ν NoSymmetry α, (∀ i < M, ∀ j < N, siteWithEnvironment e s i j = .ok (site i j)) ∧
      SitesOn e.nm M N d site h v ∧
      (∀ i < M, ∀ j < N, ∀ l r u b p, val (site i j) (netIndex e.nm l r u b p) =
        val (s.site (i, j)) (netIndex e.nm l r u b p) *
          envWeight e.c (s.env false (i, j)) r * envWeight e.c (s.env true (i, j)) b) ∧
      ∀ x : SpinConfig M N d, sitesAmp e.nm h v site x = networkAmp e.nm e.c h v s x := by
  have : ∀ i j, ∃ t, i < M → j < N → siteWithEnvironment e s i j = .ok t ∧
      SiteEdges e.nm t (h i j) (h i (j + 1)) (v i j) (v (i + 1) j) d ∧
      ∀ l r u b p, val t (netIndex e.nm l r u b p) = val (s.site (i, j)) (netIndex e.nm l r u b p) *
        envWeight e.c (s.env false (i, j)) r * envWeight e.c (s.env true (i, j)) b := by
    intro i j
    by_cases hi : i < M
    · by_cases hj : j < N
      · obtain ⟨t, ht⟩ := siteWithEnvironment_ok he hs hi hj
        exact ⟨t, fun _ _ => ht⟩
      · exact ⟨oneTensor, fun _ h => absurd h hj⟩
    · exact ⟨oneTensor, fun h => absurd h hi⟩
  choose site hsite using this
  refine ⟨site, fun i hi j hj => (hsite i j hi hj).1, ⟨fun i hi j hj => (hsite i j hi hj).2.1, hs.sites.left,
    hs.sites.right, hs.sites.top, hs.sites.bottom⟩, fun i hi j hj => (hsite i j hi hj).2.2, fun x => ?_⟩
  refine netVal_congr fun i hi j hj => ?_
  funext l r u b
  exact (hsite i j hi hj).2.2 l r u b _

/-! ## The property theorems -/

/-- The exact lattice made from a sampling lattice. -/
theorem C63_exact_of_sampling (he : NetEnvOk e) {M N d : ℕ} {site : ℕ → ℕ → Tensor ν NoSymmetry α}
    {h v : ℕ → ℕ → Option ℕ} (hs : SitesOn e.nm M N d site h v) :
    (∃ w c, exactOfSampling e M N site = .ok w ∧ VectorOn M N d e.nm w ∧ c ≠ 0 ∧
      ∀ s : SpinConfig M N d, amplitude e.nm w s = c * sitesAmp e.nm h v site s) ∨
    (exactOfSampling e M N site = .error "division by zero" ∧
      ∀ s : SpinConfig M N d, sitesAmp e.nm h v site s = 0) :=
  vectorAt_end he hs (vectorAt_fold he hs _ fun i hi j hj => ⟨site i j, fun _ => rfl, hs.fits i hi j hj,
    fun _ _ _ _ _ => rfl⟩)

/-- The exact lattice made from the lattice of a simple update. -/
theorem C63_exact_of_update (he : NetEnvOk e) {M N d : ℕ} {s : NetState ν α β} {h v : ℕ → ℕ → Option ℕ}
    (hs : NetworkOn e.nm M N d s h v) :
    (∃ w c, exactOfUpdate e M N s = .ok w ∧ VectorOn M N d e.nm w ∧ c ≠ 0 ∧
      ∀ x : SpinConfig M N d, amplitude e.nm w x = c * networkAmp e.nm e.c h v s x) ∨
    (exactOfUpdate e M N s = .error "division by zero" ∧
      ∀ x : SpinConfig M N d, networkAmp e.nm e.c h v s x = 0) := by
  obtain ⟨site, h1, h2, h3, h4⟩ := withEnvironments he hs
  have := vectorAt_end he h2 (vectorAt_fold he h2 (fun vector p =>
    (siteWithEnvironment e s p.1 p.2).bind fun t => addSite e vector t p.1 p.2)
    fun i hi j hj => ⟨site i j, fun w => by rw [h1 i hi j hj]; rfl, h2.fits i hi j hj, fun _ _ _ _ _ => rfl⟩)
  simp only [h4] at this
  exact this

/-- The sampling lattice made from the lattice of a simple update. -/
theorem C63_sampling_of_update (he : NetEnvOk e) {M N d : ℕ} {s : NetState ν α β} {h v : ℕ → ℕ → Option ℕ}
    (hs : NetworkOn e.nm M N d s h v) :
    (∃ site c, samplingOfUpdate e M N s = .ok site ∧ SitesOn e.nm M N d site h v ∧ c ≠ 0 ∧
      ∀ x : SpinConfig M N d, sitesAmp e.nm h v site x = c * networkAmp e.nm e.c h v s x) ∨
    (samplingOfUpdate e M N s = .error "division by zero" ∧
      ∀ x : SpinConfig M N d, networkAmp e.nm e.c h v s x = 0) := by
  obtain ⟨site, h1, h2, h3, h4⟩ := withEnvironments he hs
  have key : (∃ L, samplingOfUpdate e M N s = .ok L ∧ ∀ a < M, ∀ b < N, (a < M ∨ a = M ∧ b < 0) →
      SiteEdges e.nm (L a b) (h a b) (h a (b + 1)) (v a b) (v (a + 1) b) d ∧
      ∃ c, c ≠ 0 ∧ ∀ l r u y p, val (L a b) (netIndex e.nm l r u y p) = c * val (site a b) (netIndex e.nm l r u y p)) ∨
      (samplingOfUpdate e M N s = .error "division by zero" ∧
        ∃ a < M, ∃ b < N, ∀ l r u y p, val (site a b) (netIndex e.nm l r u y p) = 0) := by
    refine foldlM_positions (fun lattice p =>
      (siteWithEnvironment e s p.1 p.2).bind fun t => (normalised e t).bind fun t =>
      .ok fun i j => if i = p.1 ∧ j = p.2 then t else lattice i j) (fun i j => s.site (i, j)) M N
      (fun i j x => (∃ L, x = .ok L ∧ ∀ a < M, ∀ b < N, (a < i ∨ a = i ∧ b < j) →
        SiteEdges e.nm (L a b) (h a b) (h a (b + 1)) (v a b) (v (a + 1) b) d ∧
        ∃ c, c ≠ 0 ∧ ∀ l r u y p, val (L a b) (netIndex e.nm l r u y p) =
          c * val (site a b) (netIndex e.nm l r u y p)) ∨
        (x = .error "division by zero" ∧
          ∃ a < M, ∃ b < N, ∀ l r u y p, val (site a b) (netIndex e.nm l r u y p) = 0))
      (Or.inl ⟨_, rfl, fun a _ b _ h => by omega⟩) ?_ ?_
    · rintro i hi x (⟨L, rfl, hL⟩ | hx)
      · exact Or.inl ⟨L, rfl, fun a ha b hb h => hL a ha b hb (by omega)⟩
      · exact Or.inr hx
    · rintro i hi j hj x (⟨L, rfl, hL⟩ | ⟨rfl, hx⟩)
      · have ht := h2.fits i hi j hj
        obtain ⟨n1, n2⟩ := normalised_ok he (ht.legs he.inj)
        by_cases hz : ∀ f, gval (netName e.nm) (site i j) f = 0
        · refine Or.inr ⟨?_, i, hi, j, hj, fun l r u y p => ?_⟩
          · show ((siteWithEnvironment e s i j).bind _) = _
            rw [h1 i hi j hj]
            show (normalised e (site i j)).bind _ = _
            rw [n1 hz]
            rfl
          · rw [val_eq_gval (netName_inj he.inj) (ht.legs he.inj)]
            exact hz _
        · obtain ⟨t, a, n3, n4, n5, n6⟩ := n2 hz
          refine Or.inl ⟨fun i' j' => if i' = i ∧ j' = j then t else L i' j', ?_, fun a' ha' b' hb' hab => ?_⟩
          · show ((siteWithEnvironment e s i j).bind _) = _
            rw [h1 i hi j hj]
            show (normalised e (site i j)).bind _ = _
            rw [n3]
            rfl
          · by_cases hh : a' = i ∧ b' = j
            · obtain ⟨rfl, rfl⟩ := hh
              simp only [and_self, if_true]
              refine ⟨n4.site, a, n5, fun l r u y p => ?_⟩
              rw [val_eq_gval (netName_inj he.inj) n4, n6, val_eq_gval (netName_inj he.inj) (ht.legs he.inj), mul_comm]
            · simp only [if_neg hh]
              exact hL a' ha' b' hb' (by omega)
      · exact Or.inr ⟨rfl, hx⟩
  rcases key with ⟨L, hL, hk⟩ | ⟨hx, a, ha, b, hb, hz⟩
  · have : ∀ i j, ∃ c, i < M → j < N → c ≠ 0 ∧ ∀ l r u y p, val (L i j) (netIndex e.nm l r u y p) =
        c * val (site i j) (netIndex e.nm l r u y p) := by
      intro i j
      by_cases hi : i < M
      · by_cases hj : j < N
        · obtain ⟨c, hc⟩ := (hk i hi j hj (Or.inl hi)).2
          exact ⟨c, fun _ _ => hc⟩
        · exact ⟨1, fun _ h => absurd h hj⟩
      · exact ⟨1, fun h => absurd h hi⟩
    choose c hc using this
    refine Or.inl ⟨L, ∏ i : Fin M, ∏ j : Fin N, c i j, hL, ⟨fun i hi j hj => (hk i hi j hj (Or.inl hi)).1, h2.left,
      h2.right, h2.top, h2.bottom⟩, ?_, fun x => ?_⟩
    · exact Finset.prod_ne_zero_iff.2 fun i _ => Finset.prod_ne_zero_iff.2 fun j _ => (hc i j i.2 j.2).1
    · rw [← h4, sitesAmp, sitesAmp]
      exact netVal_factor c fun i hi j hj l r u y => (hc i j hi hj).2 l r u y _
  · refine Or.inr ⟨hx, fun x => ?_⟩
    rw [← h4, sitesAmp]
    exact netVal_zero_site ha hb fun l r u y => hz l r u y _

/-- The lattice of a simple update made from a sampling lattice has the same amplitudes. -/
theorem C63_update_of_sampling (e : NetEnv ν α β) {M N d : ℕ} {lattice : Pos → Tensor ν NoSymmetry α}
    {h v : ℕ → ℕ → Option ℕ} (hs : SitesOn e.nm M N d (fun i j => lattice (i, j)) h v) :
    NetworkOn e.nm M N d (updateOfSampling lattice : NetState ν α β) h v ∧
    ∀ x : SpinConfig M N d, networkAmp e.nm e.c h v (updateOfSampling lattice) x =
      sitesAmp e.nm h v (fun i j => lattice (i, j)) x := by
  refine ⟨⟨hs, fun p S h => by simp [updateOfSampling] at h, fun p S h => by simp [updateOfSampling] at h⟩,
    fun x => ?_⟩
  refine netVal_congr fun i hi j hj => ?_
  funext l r u b
  simp [updateOfSampling, envWeight]

/-- Both ways to the exact lattice give the same vector up to a factor. -/
theorem C63_both_ways (he : NetEnvOk e) {M N d : ℕ} {s : NetState ν α β} {h v : ℕ → ℕ → Option ℕ}
    (hs : NetworkOn e.nm M N d s h v) (hne : ∃ x : SpinConfig M N d, networkAmp e.nm e.c h v s x ≠ 0) :
    ∃ site w w' c, samplingOfUpdate e M N s = .ok site ∧ exactOfSampling e M N site = .ok w ∧
      exactOfUpdate e M N s = .ok w' ∧ c ≠ 0 ∧
      ∀ x : SpinConfig M N d, amplitude e.nm w x = c * amplitude e.nm w' x := by
  obtain ⟨x0, hx0⟩ := hne
  rcases C63_sampling_of_update he hs with ⟨site, a, h1, h2, h3, h4⟩ | ⟨_, h1⟩
  · rcases C63_exact_of_sampling he h2 with ⟨w, b, i1, _, i3, i4⟩ | ⟨_, i1⟩
    · rcases C63_exact_of_update he hs with ⟨w', c, j1, _, j3, j4⟩ | ⟨_, j1⟩
      · refine ⟨site, w, w', b * a / c, h1, i1, j1, div_ne_zero (mul_ne_zero i3 h3) j3, fun x => ?_⟩
        rw [i4, h4, j4]
        field_simp
      · exact absurd (j1 x0) hx0
    · have := i1 x0
      rw [h4] at this
      exact absurd this (mul_ne_zero h3 hx0)
  · exact absurd (h1 x0) hx0

end TAT
