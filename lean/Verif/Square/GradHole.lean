import Verif.Square.GradSpec
import Verif.Square.DenseGrad
import Verif.Square.SpinRun

/-!
# The derivative of the logarithm of the amplitude
-/

namespace TAT

set_option linter.unusedSectionVars false

variable {ν α β R : Type} [LinearOrder ν] [Field α] [LinearOrder β] [Field β] {e : NetEnv ν α β}
  {M N d : ℕ} {lattice : ℕ → ℕ → Tensor ν NoSymmetry α} {h v : ℕ → ℕ → Option ℕ}

/-- `edge_rename({{"L0", "L"}, {"R0", "R"}, {"U0", "U"}, {"D0", "D"}})` -/
theorem rename_hole (he : AuxEnvOk e.toAuxEnv) {t : Tensor ν NoSymmetry α} {l r u b : Option ℕ}
    (ht : HasEdges e.nm "0" t l r u b) :
    HasEdges e.nm "" (e.rename t [("L0", "L"), ("R0", "R"), ("U0", "U"), ("D0", "D")]) l r u b ∧
      ∀ i j k m p, val (e.rename t [("L0", "L"), ("R0", "R"), ("U0", "U"), ("D0", "D")]) (netIndex e.nm i j k m p) =
        val t (sideIndex e.nm "0" i j k m) := by
  have hne : ∀ a b : String, a ≠ b → e.nm a ≠ e.nm b := fun a b h h' => h (he.inj h')
  have hnone : ∀ a : String, a ≠ "L0" → a ≠ "R0" → a ≠ "U0" → a ≠ "D0" → leg t (e.nm a) = none := by
    intro a h1 h2 h3 h4
    by_contra hc
    rcases ht.only _ hc with h | h | h | h
    · exact h1 (he.inj h)
    · exact h2 (he.inj h)
    · exact h3 (he.inj h)
    · exact h4 (he.inj h)
  obtain ⟨e1, e2, e3⟩ := dense_rename ht.dense
    (d := [(e.nm "L0", e.nm "L"), (e.nm "R0", e.nm "R"), (e.nm "U0", e.nm "U"), (e.nm "D0", e.nm "D")])
    (by
      simp only [List.map_cons, List.map_nil, List.nodup_cons, List.mem_cons, List.not_mem_nil, or_false, not_or,
        not_false_eq_true, List.nodup_nil, and_true]
      refine ⟨⟨?_, ?_, ?_⟩, ⟨?_, ?_⟩, ?_⟩ <;> exact hne _ _ (by decide))
    (by
      simp only [List.map_cons, List.map_nil, List.nodup_cons, List.mem_cons, List.not_mem_nil, or_false, not_or,
        not_false_eq_true, List.nodup_nil, and_true]
      refine ⟨⟨?_, ?_, ?_⟩, ⟨?_, ?_⟩, ?_⟩ <;> exact hne _ _ (by decide))
    (by
      intro c hc
      simp only [List.mem_cons, List.not_mem_nil, or_false] at hc
      rcases hc with rfl | rfl | rfl | rfl <;> exact hnone _ (by decide) (by decide) (by decide) (by decide))
  have hre : e.rename t [("L0", "L"), ("R0", "R"), ("U0", "U"), ("D0", "D")] = edgeRename t (OMap.ofList
    [(e.nm "L0", e.nm "L"), (e.nm "R0", e.nm "R"), (e.nm "U0", e.nm "U"), (e.nm "D0", e.nm "D")]) := rfl
  rw [hre]
  have f : ∀ a b : String, decide (e.nm a = e.nm b) = decide (a = b) := fun a b => by
    rw [decide_eq_decide]
    exact he.inj.eq_iff
  refine ⟨⟨e1, ?_, ?_, ?_, ?_, fun n hn => ?_⟩, fun i j k m p => ?_⟩
  · rw [e2]
    simp only [List.find?_cons, f]
    exact ht.left
  · rw [e2]
    simp only [List.find?_cons, f]
    exact ht.right
  · rw [e2]
    simp only [List.find?_cons, f]
    exact ht.up
  · rw [e2]
    simp only [List.find?_cons, f]
    exact ht.down
  · rw [e2] at hn
    by_contra hc
    simp only [not_or] at hc
    obtain ⟨c1, c2, c3, c4⟩ := hc
    rw [show List.find? _ _ = none from List.find?_eq_none.2 fun c hc => by
      simp only [List.mem_cons, List.not_mem_nil, or_false] at hc
      rw [decide_eq_true_eq]
      rcases hc with rfl | rfl | rfl | rfl
      · exact Ne.symm c1
      · exact Ne.symm c2
      · exact Ne.symm c3
      · exact Ne.symm c4] at hn
    dsimp only at hn
    split at hn
    · exact hn rfl
    · next hm =>
      refine hm ?_
      rcases ht.only n hn with h' | h' | h' | h' <;> rw [h'] <;> simp
  · rw [e3]
    refine val_congr fun n hn => ?_
    have g : ∀ a b : String, (e.nm a = e.nm b) = (a = b) := fun a b => propext he.inj.eq_iff
    rcases ht.only n hn with rfl | rfl | rfl | rfl <;>
      simp [OMap.find?, netIndex, sideIndex, g]

/-- The lattice with another tensor at a site, sliced. -/
theorem slices_set (hs : SitesOn e.nm M N d lattice h v) {T : LatticeSite M N → Fin d → Tensor ν NoSymmetry α}
    (hT : ∀ x (k : Fin d), siteAtSpin e (lattice x.1 x.2) k = .ok (T x k) ∧
      HasEdges e.nm "" (T x k) (h x.1 x.2) (h x.1 (x.2 + 1)) (v x.1 x.2) (v (x.1 + 1) x.2) ∧
      ∀ l r u b, siteElem e.nm (T x k) l r u b = val (lattice x.1 x.2) (netIndex e.nm l r u b k))
    (c : SpinConfig M N d) (x : LatticeSite M N) {δ new : Tensor ν NoSymmetry α}
    (hnew : ∀ l r u b, siteElem e.nm new l r u b = val δ (netIndex e.nm l r u b (c x))) :
    latticeValue e.nm M N h v (setSite (slicesAt T c) x.1 x.2 new) =
      sitesAmp e.nm h v (setSite lattice x.1 x.2 δ) c := by
  refine netVal_congr fun i hi j hj => ?_
  funext l r u b
  by_cases hx : i = x.1 ∧ j = x.2
  · rw [setSite, if_pos hx, setSite, if_pos hx, hnew, spinAt, dif_pos ⟨hi, hj⟩]
    congr 2
    have : x = (⟨i, hi⟩, ⟨j, hj⟩) := Prod.ext (Fin.ext hx.1.symm) (Fin.ext hx.2.symm)
    rw [this]
  · rw [setSite, if_neg hx, setSite, if_neg hx, slicesAt, dif_pos ⟨hi, hj⟩, (hT _ _).2.2, spinAt,
      dif_pos ⟨hi, hj⟩]

/-- The hole of a site in a configuration. -/
theorem siteHole_ok (he : AuxEnvOk e.toAuxEnv) (hs : SitesOn e.nm M N d lattice h v) [DecidableEq α] [Field R]
    {ops : GradOps α R} {conj : α →+* α} (laws : GradLaws ops conj) :
    ∃ B, ∀ cut, Keeps B cut → ∃ O : LatticeSite M N → SpinConfig M N d → Tensor ν NoSymmetry α, ∀ x c,
      (∀ st : SpinState M N ν α, HasSpins e lattice st c →
        siteHole e ops d cut st (sitesAmp e.nm h v lattice c) x =
          if sitesAmp e.nm h v lattice c = 0 then .error "nan" else .ok (O x c)) ∧
      (sitesAmp e.nm h v lattice c ≠ 0 → EdgesAt e.nm h v d x (O x c) ∧ ∀ δ, EdgesAt e.nm h v d x δ →
        siteInner conj e.nm h v d x (O x c) δ =
          sitesAmp e.nm h v (setSite lattice x.1 x.2 δ) c / sitesAmp e.nm h v lattice c) := by
  obtain ⟨T, hT⟩ := exists_slices he hs
  obtain ⟨B, hB⟩ := Keeps.uniform (I := SpinConfig M N d × LatticeSite M N) fun q =>
    C62_hole he (slices_lattice hs hT q.1).1 q.2.1.2 q.2.2.2
  refine ⟨B, fun cut hc => ?_⟩
  have key : ∀ (x : LatticeSite M N) (c : SpinConfig M N d), ∃ O : Tensor ν NoSymmetry α,
      (∀ st : SpinState M N ν α, HasSpins e lattice st c →
        siteHole e ops d cut st (sitesAmp e.nm h v lattice c) x =
          if sitesAmp e.nm h v lattice c = 0 then .error "nan" else .ok O) ∧
      (sitesAmp e.nm h v lattice c ≠ 0 → EdgesAt e.nm h v d x O ∧ ∀ δ, EdgesAt e.nm h v d x δ →
        siteInner conj e.nm h v d x O δ =
          sitesAmp e.nm h v (setSite lattice x.1 x.2 δ) c / sitesAmp e.nm h v lattice c) := by
    intro x c
    obtain ⟨w, hw⟩ : ∃ w, w = sitesAmp e.nm h v lattice c := ⟨_, rfl⟩
    rw [← hw]
    obtain ⟨t, t1, t2, t3⟩ := hB cut hc (c, x) ' '
    dsimp only at t1 t2 t3
    obtain ⟨a1, a2⟩ := rename_hole he t2
    obtain ⟨t', b1, b2, b3, b4⟩ := dense_conjugate e.junk (conj := ops.conj) (isReal := ops.isReal)
      (fun hr y => by rw [laws.conj_eq, laws.real hr]) (by rw [laws.conj_eq, map_zero]) a1.dense
    have hcw : ops.conj w = 0 ↔ w = 0 := by rw [laws.conj_eq, map_eq_zero]
    obtain ⟨s, s1, s2, s3, s4⟩ := dense_scalarNumber e.junk (f := fun y => y / ops.conj w) b2 (zero_div _)
    have hP : leg s (e.nm "P") = none := by
      rw [s3, b3]
      by_contra hn
      rcases a1.only _ hn with h' | h' | h' | h' <;> exact absurd (he.inj h') (by decide)
    obtain ⟨O, o1, o2, o3, o4⟩ := dense_expand e.ce he.gemm e.junk he.names s2 hP (c x).2
    have hne : ∀ a b : String, a ≠ b → e.nm a ≠ e.nm b := fun a b h h' => h (he.inj h')
    refine ⟨O, fun st hst => ?_, fun hw0 => ⟨?_, fun δ hδ => ?_⟩⟩
    · rw [siteHole, tensors_ok (fun x k => (hT x k).1) hst.1 hst.2, Outcome.bind, t1, Outcome.bind, b1, Outcome.bind]
      by_cases hw0 : w = 0
      · rw [if_pos hw0, if_pos (hcw.2 hw0)]
      · rw [if_neg hw0, if_neg (mt hcw.1 hw0), s1, Outcome.bind, hst.2]
        exact o1
    · refine ⟨o2, ?_, ?_, ?_, ?_, ?_, fun n hn => ?_⟩
      · rw [o3, if_neg (hne _ _ (by decide)), s3, b3]
        exact a1.left
      · rw [o3, if_neg (hne _ _ (by decide)), s3, b3]
        exact a1.right
      · rw [o3, if_neg (hne _ _ (by decide)), s3, b3]
        exact a1.up
      · rw [o3, if_neg (hne _ _ (by decide)), s3, b3]
        exact a1.down
      · rw [o3, if_pos rfl]
      · rw [o3] at hn
        split at hn
        · next hp => exact Or.inr (Or.inr (Or.inr (Or.inr hp)))
        · rw [s3, b3] at hn
          rcases a1.only n hn with h' | h' | h' | h'
          · exact Or.inl h'
          · exact Or.inr (Or.inl h')
          · exact Or.inr (Or.inr (Or.inl h'))
          · exact Or.inr (Or.inr (Or.inr (Or.inl h')))
    · obtain ⟨new, n1, n2, n3⟩ := siteAtSpin_ok he hδ (c x).2
      rw [← slices_set hs hT c x n3, t3 new n2, siteInner, Finset.sum_div]
      refine Finset.sum_congr rfl fun l _ => ?_
      rw [Finset.sum_div]
      refine Finset.sum_congr rfl fun r _ => ?_
      rw [Finset.sum_div]
      refine Finset.sum_congr rfl fun u _ => ?_
      rw [Finset.sum_div]
      refine Finset.sum_congr rfl fun b _ => ?_
      have hp : ∀ p, netIndex e.nm l r u b p (e.nm "P") = p := fun p => by
        simp [netIndex, he.inj.eq_iff]
      rw [Finset.sum_eq_single (c x).val]
      · rw [o4, hp, if_pos rfl, s4, b4, a2, n3, laws.conj_eq, laws.conj_eq, map_div₀, laws.conj_conj,
          laws.conj_conj]
        ring
      · intro p _ hpc
        rw [o4, hp, if_neg hpc, map_zero, zero_mul]
      · intro hn
        exact absurd (Finset.mem_range.2 (c x).2) hn
  choose O hO using key
  exact ⟨O, hO⟩

end TAT
