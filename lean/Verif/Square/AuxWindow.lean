import Verif.Square.AuxLadder

/-!
# One row of the network between the lines above and below
-/

namespace TAT

set_option linter.unusedSectionVars false

/-- A chain read backwards. -/
theorem chainTo_reverse {α X Y : Type} [CommRing α] {A : ℕ → Finset X} {R : ℕ → X → X → α} {A' : ℕ → Finset Y}
    {R' : ℕ → Y → Y → α} (φ : X → Y) (M : ℕ)
    (hA : ∀ k < M, ∀ f : Y → α, ∑ y ∈ A' k, f y = ∑ x ∈ A (M - k), f (φ x))
    (hR : ∀ k < M, ∀ x x', R' k (φ x') (φ x) = R (M - 1 - k) x x') (k : ℕ) (hk : k ≤ M) (x : X) :
    chainTo A' R' k (φ x) = chainFrom A R k (M - k) x := by
  induction k generalizing x with
  | zero => rfl
  | succ k ih =>
    rw [chainTo, hA k (by omega), chainFrom, show M - (k + 1) + 1 = M - k by omega]
    refine Finset.sum_congr rfl fun x' _ => ?_
    rw [ih (by omega), hR k (by omega), show M - 1 - k = M - (k + 1) by omega, mul_comm]

variable {ν α β : Type} [LinearOrder ν] [CommRing α] [LinearOrder β] [Zero β]
variable {e : AuxEnv ν α β} {s : Side → String}

theorem RowOn.flip {N : ℕ} {t : ℕ → Tensor ν NoSymmetry α} {h u d : ℕ → Option ℕ} :
    RowOn e (fun x => s x.flip) N t h u d ↔ RowOn e s N t h d u :=
  ⟨fun r => ⟨r.left, r.right, fun j hj => siteOn_flip.1 (r.site j hj)⟩,
    fun r => ⟨r.left, r.right, fun j hj => siteOn_flip.2 (r.site j hj)⟩⟩

theorem lineVal_flip (he : AuxEnvOk e) (hs : Dirs s) {N : ℕ}
    {t : ℕ → Tensor ν NoSymmetry α} {h u d : ℕ → Option ℕ} (hr : RowOn e s N t h u d) (z y : ℕ → ℕ) :
    lineVal e (fun x => s x.flip) N t h z y = lineVal e s N t h y z := by
  unfold lineVal rowChain
  refine chain_congr (fun _ _ => rfl) fun j hj => ?_
  funext a b
  exact siteVal_flip he hs (hr.site j hj) _ _ _ _

theorem RowOn.rot {N : ℕ} {t : ℕ → Tensor ν NoSymmetry α} {h u d : ℕ → Option ℕ} (r : RowOn e s N t h u d) :
    RowOn e (fun x => s x.rot) N (fun j => t (N - 1 - j)) (fun j => h (N - j)) (fun j => d (N - 1 - j))
      fun j => u (N - 1 - j) := by
  refine ⟨by simpa using r.right, by simpa using r.left, fun j hj => siteOn_rot.2 ?_⟩
  have := r.site (N - 1 - j) (by omega)
  rw [show N - 1 - j + 1 = N - j by omega] at this
  rwa [show N - (j + 1) = N - 1 - j by omega]

theorem LadderOn.rot {N : ℕ} {A T C : ℕ → Tensor ν NoSymmetry α} {ha hb hc z y : ℕ → Option ℕ}
    (hl : LadderOn e s N A T C ha hb hc z y) :
    LadderOn e (fun x => s x.rot) N (fun j => C (N - 1 - j)) (fun j => T (N - 1 - j)) (fun j => A (N - 1 - j))
      (fun j => hc (N - j)) (fun j => hb (N - j)) (fun j => ha (N - j)) (fun j => y (N - 1 - j))
      fun j => z (N - 1 - j) := ⟨hl.far.rot, hl.mid.rot, hl.near.rot⟩

/-- The part of the three lines of `m` columns that begins at column `k`. -/
noncomputable def ladderFrom (e : AuxEnv ν α β) (s : Side → String) (A T C : ℕ → Tensor ν NoSymmetry α)
    (ha hb hc z y : ℕ → Option ℕ) (m k : ℕ) (x : ℕ × ℕ × ℕ) : α :=
  chainFrom (rung ha hb hc) (fun j => column e s (z j) (y j) (A j) (C j) (siteVal e s (T j))) m k x

theorem column_rot (he : AuxEnvOk e) (hs : Dirs s) {N : ℕ}
    {A T C : ℕ → Tensor ν NoSymmetry α} {ha hb hc z y : ℕ → Option ℕ}
    (hl : LadderOn e s N A T C ha hb hc z y) {j : ℕ} (hj : j < N) (x x' : ℕ × ℕ × ℕ) :
    column e (fun x => s x.rot) (y j) (z j) (C j) (A j) (siteVal e (fun x => s x.rot) (T j))
        (x'.2.2, x'.2.1, x'.1) (x.2.2, x.2.1, x.1) =
      column e s (z j) (y j) (A j) (C j) (siteVal e s (T j)) x x' := by
  rw [column, column, Finset.sum_comm]
  refine Finset.sum_congr rfl fun k _ => Finset.sum_congr rfl fun k' _ => ?_
  rw [siteVal_rot he hs (hl.far.site j hj), siteVal_rot he hs (hl.mid.site j hj),
    siteVal_rot he hs (hl.near.site j hj)]
  ring

theorem ladderTo_rot (he : AuxEnvOk e) (hs : Dirs s) {N : ℕ}
    {A T C : ℕ → Tensor ν NoSymmetry α} {ha hb hc z y : ℕ → Option ℕ}
    (hl : LadderOn e s N A T C ha hb hc z y) (k : ℕ) (hk : k ≤ N) (x : ℕ × ℕ × ℕ) :
    ladderTo e (fun x => s x.rot) (fun j => C (N - 1 - j)) (fun j => T (N - 1 - j)) (fun j => A (N - 1 - j))
      (fun j => hc (N - j)) (fun j => hb (N - j)) (fun j => ha (N - j)) (fun j => y (N - 1 - j))
      (fun j => z (N - 1 - j)) k (x.2.2, x.2.1, x.1) = ladderFrom e s A T C ha hb hc z y k (N - k) x := by
  refine chainTo_reverse (fun x : ℕ × ℕ × ℕ => (x.2.2, x.2.1, x.1)) N (fun k _ f => ?_) (fun k hk x x' => ?_) k hk x
  · rw [rung, rung]
    simp only [Finset.sum_product]
    rw [Finset.sum_comm]
    simp only [Finset.sum_comm (s := Finset.range (bondDim (hc (N - k))))]
    rw [Finset.sum_comm]
  · exact column_rot he hs hl (by omega) x x'

theorem reverse_map (N : ℕ) (t : ℕ → Tensor ν NoSymmetry α) :
    ((List.range N).map t).reverse = (List.range N).map fun j => t (N - 1 - j) := by
  refine List.ext_getElem (by simp) fun i h1 h2 => ?_
  simp

/-- The sweep from the right, over all columns from the `k`-th from the right. -/
theorem right33_ok (he : AuxEnvOk e) (hs : Dirs s) {N : ℕ}
    {A T C : ℕ → Tensor ν NoSymmetry α} {ha hb hc z y : ℕ → Option ℕ}
    (hl : LadderOn e s N A T C ha hb hc z y) (k : ℕ) (hk : k ≤ N) :
    ∃ t, sweep33 e (s .down) (s .up) (s .right) (s .left) "3" "1" ((List.range N).map C).reverse
        ((List.range N).map T).reverse ((List.range N).map A).reverse k = .ok t ∧
      HasLegs (legName e.nm fun x => s x.rot) t (threeLegs .three .one (hc (N - k)) (hb (N - k)) (ha (N - k))) ∧
      ∀ x : ℕ × ℕ × ℕ, gval (legName e.nm fun x => s x.rot) t (threeIdx .three .one (x.2.2, x.2.1, x.1)) =
        ladderFrom e s A T C ha hb hc z y k (N - k) x := by
  obtain ⟨t, h1, h2, h3⟩ := sweep33_ok he (hs.turn Side.rot_rot) (Or.inr ⟨rfl, rfl⟩) hl.rot k hk
  refine ⟨t, ?_, h2, fun x => ?_⟩
  · rw [reverse_map, reverse_map, reverse_map]
    exact h1
  · rw [h3, ladderTo_rot he hs hl k hk]

theorem right31_ok (he : AuxEnvOk e) (hs : Dirs s) {N : ℕ}
    {A T C : ℕ → Tensor ν NoSymmetry α} {ha hb hc z y : ℕ → Option ℕ}
    (hl : LadderOn e s N A T C ha hb hc z y) (j : ℕ) (hj : j < N) :
    ∃ t, sweep31 e (s .down) (s .up) (s .right) (s .left) "3" "1" ((List.range N).map C).reverse
        ((List.range N).map T).reverse ((List.range N).map A).reverse (N - 1 - j) = .ok t ∧
      HasLegs (legName e.nm fun x => s x.rot) t (fourLegs .three .one (hc j) (hb (j + 1)) (ha (j + 1)) (y j)) ∧
      ∀ x1 x2 x3 i, gval (legName e.nm fun x => s x.rot) t (fourIdx .three .one x3 x2 x1 i) =
        ∑ x ∈ Finset.range (bondDim (hc (j + 1))),
          siteVal e s (C j) x3 x i 0 * ladderFrom e s A T C ha hb hc z y (N - 1 - j) (j + 1) (x1, x2, x) := by
  obtain ⟨t, h1, h2, h3⟩ := sweep31_ok he (hs.turn Side.rot_rot) (Or.inr ⟨rfl, rfl⟩) hl.rot (N - 1 - j)
    (by omega)
  have n1 : N - (N - 1 - j) = j + 1 := by omega
  have n2 : N - (N - 1 - j + 1) = j := by omega
  have n3 : N - 1 - (N - 1 - j) = j := by omega
  simp only [n1, n2, n3] at h2 h3
  refine ⟨t, ?_, h2, fun x1 x2 x3 i => ?_⟩
  · rw [reverse_map, reverse_map, reverse_map]
    exact h1
  · rw [h3]
    refine Finset.sum_congr rfl fun x _ => ?_
    rw [ladderTo_rot he hs hl (N - 1 - j) (by omega) (x1, x2, x), siteVal_rot he hs (hl.far.site j hj), n1, mul_comm]

/-! ## The network -/

/-- The sites of a network with `M` rows and `N` columns: `h i j` is the edge on the left of site `i j` and
`v i j` that above. -/
structure GridOn (e : AuxEnv ν α β) (s : Side → String) (M N : ℕ) (site : ℕ → ℕ → Tensor ν NoSymmetry α)
    (h v : ℕ → ℕ → Option ℕ) : Prop where
  rows : ∀ i < M, RowOn e s N (site i) (h i) (v i) (v (i + 1))
  top : ∀ j, v 0 j = none
  bottom : ∀ j, v M j = none

/-- A row of the network: the lines above and below contain the rest of it. -/
theorem window_ok (he : AuxEnvOk e) (hs : Dirs s) {M N : ℕ} (hN : 0 < N)
    {site : ℕ → ℕ → Tensor ν NoSymmetry α} {h v : ℕ → ℕ → Option ℕ} (hg : GridOn e s M N site h v) {i : ℕ}
    (hi : i < M) :
    ∃ B A ga C gc, (∀ cut, Keeps B cut →
        stack e (s .up) (s .down) (s .left) (s .right) (fun i => (List.range N).map (site i)) N cut i =
          .ok ((List.range N).map A) ∧
        stack e (s .down) (s .up) (s .left) (s .right) (fun i => (List.range N).map (site (M - (i + 1)))) N cut
          (M - (i + 1)) = .ok ((List.range N).map C)) ∧
      LadderOn e s N A (site i) C ga (h i) gc (v i) (v (i + 1)) ∧
      ∀ W : ℕ → ℕ → ℕ → ℕ → ℕ → α,
        netVal M N (fun i j => bondDim (h i j)) (fun i j => bondDim (v i j))
          (fun i' => if i' = i then W else fun j => siteVal e s (site i' j)) =
        chain (rung ga (h i) gc) (fun j => column e s (v i j) (v (i + 1) j) (A j) (C j) (W j)) N := by
  obtain ⟨B, A, ga, a1, a2, a3⟩ := stack_ok he hs hN hg.top i fun i' hi' => hg.rows i' (by omega)
  obtain ⟨B', C, gc, c1, c2, c3⟩ := stack_ok (s := fun x => s x.flip) he (hs.turn Side.flip_flip) hN
    (site := fun i => site (M - (i + 1))) (h := fun i => h (M - (i + 1))) (v := fun i => v (M - i))
    (by simpa using hg.bottom) (M - (i + 1)) fun i' hi' => by
      have := hg.rows (M - (i' + 1)) (by omega)
      rw [show M - (i' + 1) + 1 = M - i' by omega] at this
      exact RowOn.flip.2 this
  have n1 : M - (M - (i + 1)) = i + 1 := by omega
  simp only [n1] at c2
  have c2 := RowOn.flip.1 c2
  refine ⟨max B B', A, ga, C, gc, fun cut hc => ⟨a1 cut (hc.le (le_max_left _ _)), c1 cut (hc.le (le_max_right _ _))⟩,
    ⟨a2, hg.rows i hi, c2⟩, fun W => ?_⟩
  rw [netVal_rows]
  have hM : M = i + 1 + (M - (i + 1)) := by omega
  conv_lhs => rw [hM]
  rw [chain_link]
  refine Eq.trans ?_ (ladder N (fun j => bondDim (ga j)) (fun j => bondDim (h i j)) (fun j => bondDim (gc j))
    (fun j => bondDim (v i j)) (fun j => bondDim (v (i + 1) j)) (fun j a b k => siteVal e s (A j) a b 0 k)
    (fun j a b k => siteVal e s (C j) a b k 0) W)
  refine Finset.sum_congr rfl fun z _ => Finset.sum_congr rfl fun y _ => ?_
  congr 1
  · congr 1
    · refine Eq.trans ?_ (a3 z).symm
      refine congrFun (chainTo_congr (fun _ _ => rfl) fun k hk => ?_) z
      funext z y
      rw [if_neg (by omega)]
      rfl
    · rw [if_pos rfl]
  · have q := c3 y
    rw [lineVal_flip he hs c2] at q
    refine Eq.trans ?_ q.symm
    refine Eq.symm (Eq.trans (chainTo_reverse (A := fun i => box N fun j => bondDim (v i j))
      (R := fun i z y => lineVal e s N (site i) (h i) (allIdx z) (allIdx y)) id M
      (fun _ _ _ => rfl) (fun k hk x x' => ?_) (M - (i + 1)) (by omega) y) ?_)
    · have := lineVal_flip he hs (hg.rows (M - (k + 1)) (by omega)) (allIdx x') (allIdx x)
      rw [show M - 1 - k = M - (k + 1) by omega]
      exact this
    · rw [n1]
      refine congrFun (chainFrom_congr (fun _ _ _ => rfl) fun k h1 hk => ?_) y
      funext z y
      rw [if_neg (by omega)]
      rfl

end TAT
