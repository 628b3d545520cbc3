import Verif.Square.AuxCalls

/-!
# The value of the network with sites replaced
-/

namespace TAT

set_option linter.unusedSectionVars false

variable {ν α β : Type} [LinearOrder ν] [CommRing α] [LinearOrder β] [Zero β]
variable {e : AuxEnv ν α β} {s : Side → String}

/-- The two parts around a column closed over one site, `L` is the part before the column. -/
theorem close_sum (a a' b b' c c' z y : Option ℕ) (A C : Tensor ν NoSymmetry α) (W : ℕ → ℕ → ℕ → ℕ → α)
    (L R : ℕ × ℕ × ℕ → α) :
    ∑ x1 ∈ Finset.range (bondDim a'), ∑ x2 ∈ Finset.range (bondDim b'),
        ∑ x3 ∈ Finset.range (bondDim c), ∑ k' ∈ Finset.range (bondDim y),
          (∑ q ∈ Finset.range (bondDim b), ∑ k ∈ Finset.range (bondDim z),
            (∑ x ∈ Finset.range (bondDim a), L (x, q, x3) * siteVal e s A x x1 0 k) * W q x2 k k') *
          (∑ w ∈ Finset.range (bondDim c'), siteVal e s C x3 w k' 0 * R (x1, x2, w)) =
      ∑ x' ∈ Finset.range (bondDim a') ×ˢ Finset.range (bondDim b') ×ˢ Finset.range (bondDim c'),
        (∑ x ∈ Finset.range (bondDim a) ×ˢ Finset.range (bondDim b) ×ˢ Finset.range (bondDim c),
          L x * column e s z y A C W x x') * R x' := by
  rw [Finset.sum_product]
  refine Finset.sum_congr rfl fun x1 _ => ?_
  rw [Finset.sum_product]
  refine Finset.sum_congr rfl fun x2 _ => ?_
  simp only [sum_column]
  simp only [Finset.mul_sum (s := Finset.range (bondDim c'))]
  calc _ = ∑ x3 ∈ Finset.range (bondDim c), ∑ w ∈ Finset.range (bondDim c'), ∑ k' ∈ Finset.range (bondDim y),
          (∑ q ∈ Finset.range (bondDim b), ∑ k ∈ Finset.range (bondDim z),
            (∑ x ∈ Finset.range (bondDim a), L (x, q, x3) * siteVal e s A x x1 0 k) * W q x2 k k') *
          (siteVal e s C x3 w k' 0 * R (x1, x2, w)) := Finset.sum_congr rfl fun x3 _ => Finset.sum_comm
    _ = ∑ w ∈ Finset.range (bondDim c'), ∑ x3 ∈ Finset.range (bondDim c), ∑ k' ∈ Finset.range (bondDim y),
          (∑ q ∈ Finset.range (bondDim b), ∑ k ∈ Finset.range (bondDim z),
            (∑ x ∈ Finset.range (bondDim a), L (x, q, x3) * siteVal e s A x x1 0 k) * W q x2 k k') *
          (siteVal e s C x3 w k' 0 * R (x1, x2, w)) := Finset.sum_comm
    _ = _ := by
      refine Finset.sum_congr rfl fun w _ => ?_
      rw [Finset.sum_mul]
      refine Finset.sum_congr rfl fun x3 _ => ?_
      rw [Finset.sum_mul]
      refine Finset.sum_congr rfl fun k' _ => ?_
      rw [mul_assoc]

/-- A row of sites with the one in column `j` replaced. -/
def setCol (W : ℕ → ℕ → ℕ → ℕ → ℕ → α) (j : ℕ) (V : ℕ → ℕ → ℕ → ℕ → α) (j' : ℕ) : ℕ → ℕ → ℕ → ℕ → α :=
  if j' = j then V else W j'

/-- The sum over two neighbouring columns and the parts before and after, one site replaced. -/
theorem ladder_one {N : ℕ} {A T C : ℕ → Tensor ν NoSymmetry α} {ha hb hc z y : ℕ → Option ℕ} {j : ℕ} (hj : j < N)
    (V : ℕ → ℕ → ℕ → ℕ → α) :
    chain (rung ha hb hc) (fun i => column e s (z i) (y i) (A i) (C i) (setCol (fun i => siteVal e s (T i)) j V i)) N =
      ∑ x' ∈ rung ha hb hc (j + 1), (∑ x ∈ rung ha hb hc j, ladderTo e s A T C ha hb hc z y j x *
        column e s (z j) (y j) (A j) (C j) V x x') * ladderFrom e s A T C ha hb hc z y (N - 1 - j) (j + 1) x' := by
  have hN : N = j + 1 + (N - 1 - j) := by omega
  conv_lhs => rw [hN]
  rw [chain_link, Finset.sum_comm]
  refine Finset.sum_congr rfl fun x' _ => ?_
  rw [Finset.sum_mul]
  refine Finset.sum_congr rfl fun x _ => ?_
  congr 1
  · congr 1
    · refine congrFun (chainTo_congr (fun _ _ => rfl) fun k hk => ?_) x
      rw [setCol, if_neg (by omega)]
    · rw [setCol, if_pos rfl]
  · refine congrFun (chainFrom_congr (fun _ _ _ => rfl) fun k h1 _ => ?_) x'
    rw [setCol, if_neg (by omega)]

/-- Two neighbouring sites replaced. -/
theorem ladder_two {N : ℕ} {A T C : ℕ → Tensor ν NoSymmetry α} {ha hb hc z y : ℕ → Option ℕ} {j : ℕ}
    (hj : j + 1 < N) (V1 V2 : ℕ → ℕ → ℕ → ℕ → α) :
    chain (rung ha hb hc) (fun i => column e s (z i) (y i) (A i) (C i)
        (setCol (setCol (fun i => siteVal e s (T i)) j V1) (j + 1) V2 i)) N =
      ∑ x' ∈ rung ha hb hc (j + 2), (∑ x ∈ rung ha hb hc (j + 1),
        (∑ x0 ∈ rung ha hb hc j, ladderTo e s A T C ha hb hc z y j x0 *
          column e s (z j) (y j) (A j) (C j) V1 x0 x) *
        column e s (z (j + 1)) (y (j + 1)) (A (j + 1)) (C (j + 1)) V2 x x') *
        ladderFrom e s A T C ha hb hc z y (N - 1 - (j + 1)) (j + 2) x' := by
  have hN : N = j + 1 + 1 + (N - 1 - (j + 1)) := by omega
  conv_lhs => rw [hN]
  rw [chain_link, Finset.sum_comm]
  refine Finset.sum_congr rfl fun x' _ => ?_
  rw [Finset.sum_mul]
  refine Finset.sum_congr rfl fun x _ => ?_
  congr 1
  · congr 1
    · rw [chainTo]
      refine Finset.sum_congr rfl fun x0 _ => ?_
      congr 1
      · refine congrFun (chainTo_congr (fun _ _ => rfl) fun k hk => ?_) x0
        rw [setCol, if_neg (by omega), setCol, if_neg (by omega)]
      · rw [setCol, if_neg (by omega), setCol, if_pos rfl]
    · rw [setCol, if_pos rfl]
  · refine congrFun (chainFrom_congr (fun _ _ _ => rfl) fun k h1 _ => ?_) x'
    rw [setCol, if_neg (by omega), setCol, if_neg (by omega)]

/-- Nothing replaced: the sweep from the right over all columns. -/
theorem ladder_zero (he : AuxEnvOk e) (hs : Dirs s) {N : ℕ}
    {A T C : ℕ → Tensor ν NoSymmetry α} {ha hb hc z y : ℕ → Option ℕ}
    (hl : LadderOn e s N A T C ha hb hc z y) :
    ∃ t, sweep33 e (s .down) (s .up) (s .right) (s .left) "3" "1" ((List.range N).map C).reverse
        ((List.range N).map T).reverse ((List.range N).map A).reverse N = .ok t ∧
      HasLegs (legName e.nm fun x => s x.rot) t (fun _ => none) ∧
      onlyElement t = .ok (chain (rung ha hb hc)
        (fun i => column e s (z i) (y i) (A i) (C i) (siteVal e s (T i))) N) := by
  obtain ⟨t, h1, h2, h3⟩ := right33_ok he hs hl N le_rfl
  have h2 : HasLegs (legName e.nm fun x => s x.rot) t fun _ => none := h2.cast fun g => by
    rw [Nat.sub_self, hl.near.left, hl.mid.left, hl.far.left]
    simp [threeLegs]
  refine ⟨t, h1, h2, ?_⟩
  rw [only_ok h2 (threeIdx .three .one (0, 0, 0)), h3 (0, 0, 0), chain_eq_from]
  congr 1
  rw [rung, hl.near.left, hl.mid.left, hl.far.left, ladderFrom, Nat.sub_self]
  simp [bondDim]

theorem replaceOne_ok (he : AuxEnvOk e) (hs : Dirs s) {N : ℕ}
    {A T C : ℕ → Tensor ν NoSymmetry α} {ha hb hc z y : ℕ → Option ℕ}
    (hl : LadderOn e s N A T C ha hb hc z y) {j : ℕ} (hj : j < N) {new : Tensor ν NoSymmetry α}
    (hn : SiteOn e s new (hb j) (hb (j + 1)) (z j) (y j)) :
    ∃ t t' r, sweep31 e (s .up) (s .down) (s .left) (s .right) "1" "3" ((List.range N).map A)
        ((List.range N).map T) ((List.range N).map C) j = .ok t ∧
      sweep31 e (s .down) (s .up) (s .right) (s .left) "3" "1" ((List.range N).map C).reverse
        ((List.range N).map T).reverse ((List.range N).map A).reverse (N - 1 - j) = .ok t' ∧
      replaceOne e (s .up) (s .down) (s .left) (s .right) t new t' = .ok r ∧
      onlyElement r = .ok (chain (rung ha hb hc)
        (fun i => column e s (z i) (y i) (A i) (C i) (setCol (fun i => siteVal e s (T i)) j (siteVal e s new) i)) N) := by
  obtain ⟨t, a1, a2, a3⟩ := sweep31_ok he hs (Or.inl ⟨rfl, rfl⟩) hl j hj
  obtain ⟨t', b1, b2, b3⟩ := right31_ok he hs hl j hj
  obtain ⟨t1, c1, c2, c3⟩ := insert_ok he hs a2 hn
  obtain ⟨r, d1, d2⟩ := close_ok he hs c2 b2
  refine ⟨t, t', r, a1, b1, ?_, ?_⟩
  · rw [replaceOne, c1, Outcome.bind, d1]
  · rw [d2, ladder_one hj]
    congr 1
    simp only [c3, a3, b3]
    rw [close_sum]
    rfl

theorem replaceTwo_ok (he : AuxEnvOk e) (hs : Dirs s) {N : ℕ}
    {A T C : ℕ → Tensor ν NoSymmetry α} {ha hb hc z y : ℕ → Option ℕ}
    (hl : LadderOn e s N A T C ha hb hc z y) {j : ℕ} (hj : j + 1 < N) {new1 new2 : Tensor ν NoSymmetry α}
    (hn1 : SiteOn e s new1 (hb j) (hb (j + 1)) (z j) (y j))
    (hn2 : SiteOn e s new2 (hb (j + 1)) (hb (j + 2)) (z (j + 1)) (y (j + 1))) :
    ∃ t t' r, sweep31 e (s .up) (s .down) (s .left) (s .right) "1" "3" ((List.range N).map A)
        ((List.range N).map T) ((List.range N).map C) j = .ok t ∧
      sweep31 e (s .down) (s .up) (s .right) (s .left) "3" "1" ((List.range N).map C).reverse
        ((List.range N).map T).reverse ((List.range N).map A).reverse (N - 1 - (j + 1)) = .ok t' ∧
      replaceTwo e (s .up) (s .down) (s .left) (s .right) t new1 (C j) (A (j + 1)) new2 t' = .ok r ∧
      onlyElement r = .ok (chain (rung ha hb hc)
        (fun i => column e s (z i) (y i) (A i) (C i)
          (setCol (setCol (fun i => siteVal e s (T i)) j (siteVal e s new1)) (j + 1) (siteVal e s new2) i)) N) := by
  obtain ⟨t, a1, a2, a3⟩ := sweep31_ok he hs (Or.inl ⟨rfl, rfl⟩) hl j (by omega)
  obtain ⟨t', b1, b2, b3⟩ := right31_ok he hs hl (j + 1) hj
  obtain ⟨t1, c1, c2, c3⟩ := insert_ok he hs a2 hn1
  obtain ⟨t2, f1, f2, f3⟩ := insertFar_ok he hs c2 (hl.far.site j (by omega))
  obtain ⟨t3, g1, g2, g3⟩ := insertNear_ok he hs f2 (hl.near.site (j + 1) hj)
  obtain ⟨t4, k1, k2, k3⟩ := insert_ok he hs g2 hn2
  obtain ⟨r, d1, d2⟩ := close_ok he hs k2 b2
  refine ⟨t, t', r, a1, b1, ?_, ?_⟩
  · rw [replaceTwo, c1, Outcome.bind, f1, Outcome.bind, g1, Outcome.bind, k1, Outcome.bind, d1]
  · rw [d2, ladder_two hj]
    congr 1
    simp only [k3, g3, b3]
    have hL : ∀ x : ℕ × ℕ × ℕ, gval (legName e.nm s) t2 (threeIdx .one .three x) =
        ∑ x0 ∈ rung ha hb hc j, ladderTo e s A T C ha hb hc z y j x0 *
          column e s (z j) (y j) (A j) (C j) (siteVal e s new1) x0 x := by
      rintro ⟨x1, x2, x3⟩
      rw [f3, rung, sum_column]
      simp only [c3, a3]
    simp only [hL]
    exact close_sum (ha (j + 1)) (ha (j + 2)) (hb (j + 1)) (hb (j + 2)) (hc (j + 1)) (hc (j + 2)) (z (j + 1))
      (y (j + 1)) (A (j + 1)) (C (j + 1)) (siteVal e s new2) (fun x => ∑ x0 ∈ rung ha hb hc j,
        ladderTo e s A T C ha hb hc z y j x0 * column e s (z j) (y j) (A j) (C j) (siteVal e s new1) x0 x)
      (ladderFrom e s A T C ha hb hc z y (N - 1 - (j + 1)) (j + 2))

theorem sum_six {κ1 κ2 κ3 κ4 κ5 κ6 : Type} (A : Finset κ1) (B : Finset κ2) (C : Finset κ3) (D : Finset κ4) (G : Finset κ5) (H : Finset κ6)
    (f : κ1 → κ2 → κ3 → κ4 → κ5 → κ6 → α) :
    ∑ a ∈ A, ∑ b ∈ B, ∑ c ∈ C, ∑ d ∈ D, ∑ g ∈ G, ∑ h ∈ H, f a b c d g h =
      ∑ g ∈ G, ∑ b ∈ B, ∑ h ∈ H, ∑ d ∈ D, ∑ a ∈ A, ∑ c ∈ C, f a b c d g h := by
  calc _ = ∑ a ∈ A, ∑ b ∈ B, ∑ c ∈ C, ∑ g ∈ G, ∑ d ∈ D, ∑ h ∈ H, f a b c d g h :=
        Finset.sum_congr rfl fun a _ => Finset.sum_congr rfl fun b _ => Finset.sum_congr rfl fun c _ => Finset.sum_comm
    _ = ∑ a ∈ A, ∑ b ∈ B, ∑ g ∈ G, ∑ c ∈ C, ∑ d ∈ D, ∑ h ∈ H, f a b c d g h :=
        Finset.sum_congr rfl fun a _ => Finset.sum_congr rfl fun b _ => Finset.sum_comm
    _ = ∑ a ∈ A, ∑ g ∈ G, ∑ b ∈ B, ∑ c ∈ C, ∑ d ∈ D, ∑ h ∈ H, f a b c d g h :=
        Finset.sum_congr rfl fun a _ => Finset.sum_comm
    _ = ∑ g ∈ G, ∑ a ∈ A, ∑ b ∈ B, ∑ c ∈ C, ∑ d ∈ D, ∑ h ∈ H, f a b c d g h :=
        Finset.sum_comm
    _ = ∑ g ∈ G, ∑ b ∈ B, ∑ a ∈ A, ∑ c ∈ C, ∑ d ∈ D, ∑ h ∈ H, f a b c d g h :=
        Finset.sum_congr rfl fun g _ => Finset.sum_comm
    _ = ∑ g ∈ G, ∑ b ∈ B, ∑ a ∈ A, ∑ c ∈ C, ∑ h ∈ H, ∑ d ∈ D, f a b c d g h :=
        Finset.sum_congr rfl fun g _ => Finset.sum_congr rfl fun b _ => Finset.sum_congr rfl fun a _ => Finset.sum_congr rfl fun c _ => Finset.sum_comm
    _ = ∑ g ∈ G, ∑ b ∈ B, ∑ a ∈ A, ∑ h ∈ H, ∑ c ∈ C, ∑ d ∈ D, f a b c d g h :=
        Finset.sum_congr rfl fun g _ => Finset.sum_congr rfl fun b _ => Finset.sum_congr rfl fun a _ => Finset.sum_comm
    _ = ∑ g ∈ G, ∑ b ∈ B, ∑ h ∈ H, ∑ a ∈ A, ∑ c ∈ C, ∑ d ∈ D, f a b c d g h :=
        Finset.sum_congr rfl fun g _ => Finset.sum_congr rfl fun b _ => Finset.sum_comm
    _ = ∑ g ∈ G, ∑ b ∈ B, ∑ h ∈ H, ∑ a ∈ A, ∑ d ∈ D, ∑ c ∈ C, f a b c d g h :=
        Finset.sum_congr rfl fun g _ => Finset.sum_congr rfl fun b _ => Finset.sum_congr rfl fun h _ => Finset.sum_congr rfl fun a _ => Finset.sum_comm
    _ = ∑ g ∈ G, ∑ b ∈ B, ∑ h ∈ H, ∑ d ∈ D, ∑ a ∈ A, ∑ c ∈ C, f a b c d g h :=
        Finset.sum_congr rfl fun g _ => Finset.sum_congr rfl fun b _ => Finset.sum_congr rfl fun h _ => Finset.sum_comm

theorem sum_hole (ra rb rc rd rg rh : Finset ℕ) (P Q : ℕ → ℕ → ℕ → ℕ → α) (V : ℕ → ℕ → ℕ → ℕ → α) :
    ∑ a ∈ ra, ∑ b ∈ rb, ∑ c ∈ rc, ∑ d ∈ rd, (∑ g ∈ rg, ∑ h ∈ rh, P a g c h * V g b h d) * Q a b c d =
      ∑ g ∈ rg, ∑ b ∈ rb, ∑ h ∈ rh, ∑ d ∈ rd, (∑ a ∈ ra, ∑ c ∈ rc, P a g c h * Q a b c d) * V g b h d := by
  simp only [Finset.sum_mul]
  rw [sum_six]
  refine Finset.sum_congr rfl fun _ _ => Finset.sum_congr rfl fun _ _ => Finset.sum_congr rfl fun _ _ =>
    Finset.sum_congr rfl fun _ _ => Finset.sum_congr rfl fun _ _ => Finset.sum_congr rfl fun _ _ => ?_
  ring

theorem hole_sum (he : AuxEnvOk e) (hs : Dirs s) {N : ℕ}
    {A T C : ℕ → Tensor ν NoSymmetry α} {ha hb hc z y : ℕ → Option ℕ}
    (hl : LadderOn e s N A T C ha hb hc z y) {j : ℕ} (hj : j < N) :
    ∃ t t' r, sweep31 e (s .up) (s .down) (s .left) (s .right) "1" "3" ((List.range N).map A)
        ((List.range N).map T) ((List.range N).map C) j = .ok t ∧
      sweep31 e (s .down) (s .up) (s .right) (s .left) "3" "1" ((List.range N).map C).reverse
        ((List.range N).map T).reverse ((List.range N).map A).reverse (N - 1 - j) = .ok t' ∧
      e.join t t' [(s .right ++ "1", s .left ++ "1"), (s .right ++ "3", s .left ++ "3")] = .ok r ∧
      HasLegs (legName e.nm s) (e.rename r [(s .right ++ "2", s .left ++ "0"), (s .down, s .up ++ "0"),
        (s .up, s .down ++ "0"), (s .left ++ "2", s .right ++ "0")]) (holeLegs (hb j) (hb (j + 1)) (z j) (y j)) ∧
      ∀ V, chain (rung ha hb hc)
        (fun i => column e s (z i) (y i) (A i) (C i) (setCol (fun i => siteVal e s (T i)) j V i)) N =
        ∑ q ∈ Finset.range (bondDim (hb j)), ∑ q' ∈ Finset.range (bondDim (hb (j + 1))),
          ∑ k ∈ Finset.range (bondDim (z j)), ∑ k' ∈ Finset.range (bondDim (y j)),
          gval (legName e.nm s) (e.rename r [(s .right ++ "2", s .left ++ "0"), (s .down, s .up ++ "0"),
            (s .up, s .down ++ "0"), (s .left ++ "2", s .right ++ "0")]) (holeIdx q q' k k') * V q q' k k' := by
  obtain ⟨t, a1, a2, a3⟩ := sweep31_ok he hs (Or.inl ⟨rfl, rfl⟩) hl j hj
  obtain ⟨t', b1, b2, b3⟩ := right31_ok he hs hl j hj
  obtain ⟨r, c1, c2, c3⟩ := hole_ok he hs a2 b2
  refine ⟨t, t', r, a1, b1, c1, c2, fun V => ?_⟩
  rw [ladder_one hj, rung, rung, ← close_sum]
  simp only [c3, a3, b3]
  exact sum_hole _ _ _ _ _ _
    (fun a g c h => ∑ x ∈ Finset.range (bondDim (ha j)), ladderTo e s A T C ha hb hc z y j (x, g, c) *
      siteVal e s (A j) x a 0 h)
    (fun a b c d => ∑ x ∈ Finset.range (bondDim (hc (j + 1))), siteVal e s (C j) c x d 0 *
      ladderFrom e s A T C ha hb hc z y (N - 1 - j) (j + 1) (a, b, x)) V

end TAT
