import Verif.Mps.Legs
import Verif.Mps.Sums

/-!
# Helper lemmas for chains: both sides of the calculation
-/

namespace TAT.Mps

set_option linter.unusedSectionVars false

variable {ν α β : Type} [LinearOrder ν] [Field α] [LinearOrder β] [Zero β] {e : AuxEnv ν α β}

theorem nm_eq (he : MpsEnvOk e) {a b : String} : e.nm a = e.nm b ↔ a = b := he.inj.eq_iff

theorem site_shows (he : MpsEnvOk e) {d : ℕ} {b b' : Option ℕ} {t : Tensor ν NoSymmetry α}
    (h : IsSite e.nm d b b' t) :
    Shows e t (siteLegsOf d b b') fun f => siteVal e.nm t (f .phy) (f .left) (f .right) := by
  have hl : HasLegs (mpsName e) t (siteLegsOf d b b') := by
    refine ⟨h.dense, fun n hn => ?_, fun g => ?_⟩
    · rw [h.legs] at hn
      split at hn
      · rename_i h1; exact ⟨.phy, h1⟩
      · split at hn
        · rename_i h1; exact ⟨.left, h1⟩
        · split at hn
          · rename_i h1; exact ⟨.right, h1⟩
          · exact absurd rfl hn
    · rw [gleg, h.legs]
      simp only [mpsName, nm_eq he]
      cases g <;> simp [MpsLab.text, siteLegsOf]
  refine ⟨hl, fun f => ?_⟩
  simp only [siteVal]
  rw [val_eq_gval (mpsName_injective he) hl]
  refine gval_congr (mpsName_injective he) hl fun g hg => ?_
  simp only [mpsName, nm_eq he]
  cases g <;> simp [MpsLab.text, siteLegsOf] at hg ⊢

theorem operator_shows (he : MpsEnvOk e) {d : ℕ} {t : Tensor ν NoSymmetry α}
    (h : IsOperator e.nm d t) :
    Shows e t (operatorLegs d) fun f => operatorVal e.nm t (f .i0) (f .i1) (f .o0) (f .o1) := by
  have hl : HasLegs (mpsName e) t (operatorLegs d) := by
    refine ⟨h.dense, fun n hn => ?_, fun g => ?_⟩
    · rw [h.legs] at hn
      split at hn
      · rename_i h1
        simp only [List.mem_cons, List.not_mem_nil, or_false] at h1
        rcases h1 with h1 | h1 | h1 | h1
        exacts [⟨.i0, h1⟩, ⟨.i1, h1⟩, ⟨.o0, h1⟩, ⟨.o1, h1⟩]
      · exact absurd rfl hn
    · rw [gleg, h.legs]
      simp only [mpsName, List.mem_cons, List.not_mem_nil, or_false, nm_eq he]
      cases g <;> simp [MpsLab.text, operatorLegs]
  refine ⟨hl, fun f => ?_⟩
  simp only [operatorVal]
  rw [val_eq_gval (mpsName_injective he) hl]
  refine gval_congr (mpsName_injective he) hl fun g hg => ?_
  simp only [mpsName, nm_eq he]
  cases g <;> simp [MpsLab.text, operatorLegs] at hg ⊢

theorem site_right (he : MpsEnvOk e) {d : ℕ} {b b' : Option ℕ} {t : Tensor ν NoSymmetry α}
    (h : IsSite e.nm d b b' t) : leg t (e.nm "Right") = b' := by
  rw [h.legs]
  simp [nm_eq he]

theorem pairLegs_none (g1 g2 : MpsLab) (g : MpsLab) : (none : Option ℕ) = pairLegs g1 g2 none none g := by
  simp [pairLegs]

theorem right_shows (he : MpsEnvOk e) {d : ℕ} : ∀ {ts : List (Tensor ν NoSymmetry α)} {b : Option ℕ},
    IsChain e.nm d b ts → ∃ r, mpsRight e ts = .ok r ∧
      Shows e r (pairLegs .left1 .left2 b b) fun f => overlap d (mpsSites e.nm ts) (f .left1) (f .left2)
  | [], b, h => by
    subst h
    exact ⟨_, rfl, one_shows.cast (pairLegs_none _ _) fun f => (overlap_nil d _ _).symm⟩
  | t :: ts, b, ⟨b', h1, h2⟩ => by
    obtain ⟨r, r1, r2⟩ := right_shows he h2
    obtain ⟨u, u1, u2⟩ := rightStep_shows he (R := overlap d (mpsSites e.nm ts)) r2 (site_shows he h1)
    refine ⟨u, by rw [mpsRight, r1]; exact u1, u2.cast (fun _ => rfl) fun f => ?_⟩
    rw [show mpsSites e.nm (t :: ts) = (legDim t (e.nm "Right"), siteVal e.nm t) :: mpsSites e.nm ts from rfl,
      overlap_cons, legDim, site_right he h1]
    rfl

/-- The bond on the left of site `k`. -/
def bondLeg (nm : String → ν) (chain : List (Tensor ν NoSymmetry α)) : ℕ → Option ℕ
  | 0 => none
  | k + 1 => chain[k]?.bind fun t => leg t (nm "Right")

theorem bd_bondLeg (chain : List (Tensor ν NoSymmetry α)) (k : ℕ) :
    bd (bondLeg e.nm chain k) = bondAt (mpsSites e.nm chain) k := by
  cases k with
  | zero => rfl
  | succ k =>
    rw [bondLeg, bondAt, mpsSites, List.getElem?_map]
    cases chain[k]? <;> rfl

theorem chain_drop (he : MpsEnvOk e) {d : ℕ} {chain : List (Tensor ν NoSymmetry α)}
    (h : IsChain e.nm d none chain) : ∀ k, k ≤ chain.length →
      IsChain e.nm d (bondLeg e.nm chain k) (chain.drop k)
  | 0, _ => h
  | k + 1, hk => by
    have := chain_drop he h k (by omega)
    rw [List.drop_eq_getElem_cons (by omega)] at this
    obtain ⟨b', h1, h2⟩ := this
    rw [bondLeg, List.getElem?_eq_getElem (by omega), Option.bind_some, site_right he h1]
    exact h2

theorem chain_site (he : MpsEnvOk e) {d : ℕ} {chain : List (Tensor ν NoSymmetry α)}
    (h : IsChain e.nm d none chain) {k : ℕ} (hk : k < chain.length) :
    IsSite e.nm d (bondLeg e.nm chain k) (bondLeg e.nm chain (k + 1)) chain[k] := by
  have := chain_drop he h k (by omega)
  rw [List.drop_eq_getElem_cons (by omega)] at this
  obtain ⟨b', h1, h2⟩ := this
  rwa [bondLeg, List.getElem?_eq_getElem (by omega), Option.bind_some, site_right he h1]

theorem left_shows (he : MpsEnvOk e) {d : ℕ} {chain : List (Tensor ν NoSymmetry α)}
    (h : IsChain e.nm d none chain) : ∀ k, k ≤ chain.length → ∃ l, mpsLeft e chain k = .ok l ∧
      Shows e l (pairLegs .right1 .right2 (bondLeg e.nm chain k) (bondLeg e.nm chain k)) fun f =>
        leftOf d (mpsSites e.nm chain) k (f .right1) (f .right2)
  | 0, _ => ⟨_, rfl, one_shows.cast (pairLegs_none _ _) fun f => rfl⟩
  | k + 1, hk => by
    obtain ⟨l, l1, l2⟩ := left_shows he h k (by omega)
    have hs := chain_site he h (k := k) (by omega)
    obtain ⟨u, u1, u2⟩ := leftStep_shows he (L := leftOf d (mpsSites e.nm chain) k) l2 (site_shows he hs)
    refine ⟨u, ?_, u2.cast (fun _ => rfl) fun f => ?_⟩
    · rw [mpsLeft, l1, Outcome.bind, mpsSite, List.getElem?_eq_getElem (by omega), Outcome.bind]
      exact u1
    · rw [leftOf, bd_bondLeg]
      simp only [mpsSites, List.getElem?_map, List.getElem?_eq_getElem (show k < chain.length by omega),
        Option.map_some]

theorem term_ok (he : MpsEnvOk e) {d : ℕ} {chain : List (Tensor ν NoSymmetry α)}
    (h : IsChain e.nm d none chain) {op : Tensor ν NoSymmetry α} (ho : IsOperator e.nm d op) {i : ℕ}
    (hi : i + 1 < chain.length) : ∃ t, mpsTerm e chain op i = .ok t ∧
      onlyElement t = .ok (bondSum d (operatorVal e.nm op) i (mpsSites e.nm chain) 0 0) := by
  obtain ⟨l, l1, l2⟩ := left_shows he h i (by omega)
  obtain ⟨r, r1, r2⟩ := right_shows he (chain_drop he h (i + 2) (by omega))
  have ha := site_shows he (chain_site he h (k := i) (by omega))
  have hb := site_shows he (chain_site he h (k := i + 1) (by omega))
  obtain ⟨u, u1, u2⟩ := bond_shows he (L := leftOf d (mpsSites e.nm chain) i)
    (R := overlap d (mpsSites e.nm (chain.drop (i + 2)))) l2 ha hb (operator_shows he ho) r2
  refine ⟨u, ?_, ?_⟩
  · rw [← u1, mpsTerm, l1, Outcome.bind, mpsSite, List.getElem?_eq_getElem (by omega), Outcome.bind,
      mpsSite, List.getElem?_eq_getElem (by omega), Outcome.bind, r1]
    rfl
  · rw [u2.only fun _ => 0]
    congr 1
    simp only [bd_bondLeg]
    have hd : mpsSites e.nm (chain.drop i) = (bondAt (mpsSites e.nm chain) (i + 1), siteVal e.nm chain[i]) ::
        (bondAt (mpsSites e.nm chain) (i + 2), siteVal e.nm chain[i + 1]) ::
          mpsSites e.nm (chain.drop (i + 2)) := by
      rw [List.drop_eq_getElem_cons (by omega), List.drop_eq_getElem_cons (by omega)]
      simp only [mpsSites, List.map_cons, bondAt, List.getElem?_map]
      rw [List.getElem?_eq_getElem (by omega), List.getElem?_eq_getElem (by omega)]
      rfl
    rw [bond_sums, ← hd]
    have := left_sums d (mpsSites e.nm chain) (operatorVal e.nm op) i 0
      (by rw [mpsSites, List.length_map]; omega)
    rw [Nat.add_zero] at this
    rw [← this, mpsSites, mpsSites, List.map_drop]

theorem sum_ok (he : MpsEnvOk e) {d : ℕ} {chain : List (Tensor ν NoSymmetry α)}
    (h : IsChain e.nm d none chain) {op : Tensor ν NoSymmetry α} (ho : IsOperator e.nm d op) :
    ∀ (is : List ℕ) (acc : α), (∀ i ∈ is, i + 1 < chain.length) →
      mpsSum e chain op is acc = .ok (acc +
        (is.map fun i => bondSum d (operatorVal e.nm op) i (mpsSites e.nm chain) 0 0).sum)
  | [], acc, _ => by simp [mpsSum]
  | i :: is, acc, hi => by
    obtain ⟨t, t1, t2⟩ := term_ok he h ho (hi i (by simp))
    rw [mpsSum, t1, Outcome.bind, t2, Outcome.bind,
      sum_ok he h ho is _ fun j hj => hi j (by simp [hj]), List.map_cons, List.sum_cons, add_assoc]

end TAT.Mps
