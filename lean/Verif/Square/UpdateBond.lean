import Verif.Square.UpdateStep

/-!
# What a simple update does with the amplitudes: bonds
-/

namespace TAT

set_option linter.unusedSectionVars false

variable {ν α β : Type} [LinearOrder ν] [Field α] [LinearOrder β] [Field β] {e : NetEnv ν α β}

/-- Indices of a site. -/
def netFun (l r u d p : ℕ) : NetLabel → ℕ
  | .left => l
  | .right => r
  | .up => u
  | .below => d
  | .phys => p
  | _ => 0

theorem netFun_right (l r u d p k : ℕ) : Function.update (netFun l r u d p) .right k = netFun l k u d p := by
  funext g
  cases g <;> simp [netFun]

theorem netFun_left (l r u d p k : ℕ) : Function.update (netFun l r u d p) .left k = netFun k r u d p := by
  funext g
  cases g <;> simp [netFun]

theorem netFun_up (l r u d p k : ℕ) : Function.update (netFun l r u d p) .up k = netFun l r k d p := by
  funext g
  cases g <;> simp [netFun]

theorem netFun_below (l r u d p k : ℕ) : Function.update (netFun l r u d p) .below k = netFun l r u k p := by
  funext g
  cases g <;> simp [netFun]

theorem netFun_phys (l r u d p k : ℕ) : Function.update (netFun l r u d p) .phys k = netFun l r u d k := by
  funext g
  cases g <;> simp [netFun]

theorem SiteEdges.val_netFun {nm : String → ν} (hnm : Function.Injective nm) {t : Tensor ν NoSymmetry α}
    {l r u d : Option ℕ} {p : ℕ} (h : SiteEdges nm t l r u d p) (a b x y z : ℕ) :
    gval (netName nm) t (netFun a b x y z) = val t (netIndex nm a b x y z) := h.val_eq hnm _

theorem setDim_getD (h : ℕ → ℕ → Option ℕ) (i j K i' j' : ℕ) :
    (setDim h i j K i' j').getD 1 = if i' = i ∧ j' = j then K else (h i' j').getD 1 := by
  unfold setDim
  split <;> rfl

/-- The environments around a horizontal bond. -/
def horizontalAround (s : NetState ν α β) (i j : ℕ) : List (Option (SingularTable β)) :=
  [s.env false ((i : ℤ), (j : ℤ) - 1), s.env true ((i : ℤ) - 1, (j : ℤ)), s.env true ((i : ℤ), (j : ℤ)),
    s.env true ((i : ℤ) - 1, (j : ℤ) + 1), s.env true ((i : ℤ), (j : ℤ) + 1), s.env false ((i : ℤ), (j : ℤ) + 1)]

/-- The environments around a vertical bond. -/
def verticalAround (s : NetState ν α β) (i j : ℕ) : List (Option (SingularTable β)) :=
  [s.env false ((i : ℤ), (j : ℤ) - 1), s.env true ((i : ℤ) - 1, (j : ℤ)), s.env false ((i : ℤ), (j : ℤ)),
    s.env false ((i : ℤ) + 1, (j : ℤ) - 1), s.env true ((i : ℤ) + 1, (j : ℤ)), s.env false ((i : ℤ) + 1, (j : ℤ))]

/-- The amplitude before (`old`, a function of the two spins) and after (`new`) an update of a bond as a sum over
the indices around it. -/
def PairForm (e : NetEnv ν α β) (d m : ℕ) (a b : NetLabel) (T T' : NetLabel → Option ℕ) (t : Tensor ν NoSymmetry α)
    (E : Option (SingularTable β)) (t' : Tensor ν NoSymmetry α) (s0 s1 : ℕ) (old : Fin d → Fin d → α)
    (new : ℕ → Tensor ν NoSymmetry α → SingularTable β → Tensor ν NoSymmetry α → α) : Prop :=
  ∃ (X : Type) (I : Finset X) (w : X → α) (f f' : X → NetLabel → ℕ), (∀ y, f y .phys = s0 ∧ f' y .phys = s1) ∧
    (∀ p0 p1 : Fin d, old p0 p1 = ∑ y ∈ I, w y * ∑ k ∈ Finset.range m,
      gval (netName e.nm) t (Function.update (Function.update (f y) b k) .phys p0) * envWeight e.c E k *
      gval (netName e.nm) t' (Function.update (Function.update (f' y) a k) .phys p1)) ∧
    ∀ (K₀ K : ℕ) (A : Tensor ν NoSymmetry α) (l : List β) (B : Tensor ν NoSymmetry α),
      HasLegs (netName e.nm) A (Function.update T b (some K₀)) → HasLegs (netName e.nm) B (Function.update T' a (some K₀)) →
      new K A [(0, l)] B = ∑ y ∈ I, w y * ∑ k ∈ Finset.range K,
        gval (netName e.nm) A (Function.update (f y) b k) * e.c (l.getD k 0) *
          gval (netName e.nm) B (Function.update (f' y) a k)

theorem pairForm_act (he : NetEnvOk e) {d m : ℕ} {a b : NetLabel} {T T' : NetLabel → Option ℕ}
    {t t' U : Tensor ν NoSymmetry α} {E : Option (SingularTable β)} {s0 s1 : ℕ} {old : Fin d → Fin d → α}
    {new : ℕ → Tensor ν NoSymmetry α → SingularTable β → Tensor ν NoSymmetry α → α} (hU : OperatorOn d 2 e.nm U)
    (h : PairForm e d m a b T T' t E t' s0 s1 old new) :
    ((∀ f f', bondValue e d m a b U t E t' f f' = 0) →
      ∑ p0, ∑ p1, old p0 p1 * matrixElement e.nm U [p0.val, p1.val] [s0, s1] = 0) ∧
    ∀ (K : ℕ) (A : Tensor ν NoSymmetry α) (l : List β) (B : Tensor ν NoSymmetry α) (κ : α),
      HasLegs (netName e.nm) A (Function.update T b (some K)) → HasLegs (netName e.nm) B (Function.update T' a (some K)) →
      (∀ f f', ∑ k ∈ Finset.range K, gval (netName e.nm) A (Function.update f b k) * e.c (l.getD k 0) *
          gval (netName e.nm) B (Function.update f' a k) = κ * bondValue e d m a b U t E t' f f') →
      new K A [(0, l)] B = κ * ∑ p0, ∑ p1, old p0 p1 * matrixElement e.nm U [p0.val, p1.val] [s0, s1] := by
  obtain ⟨X, I, w, f, f', h1, h2, h3⟩ := h
  have key : ∑ p0, ∑ p1, old p0 p1 * matrixElement e.nm U [p0.val, p1.val] [s0, s1] =
      ∑ y ∈ I, w y * bondValue e d m a b U t E t' (f y) (f' y) := by
    simp only [h2, Finset.sum_mul]
    rw [Finset.sum_congr rfl fun a _ => Finset.sum_comm, Finset.sum_comm]
    refine Finset.sum_congr rfl fun y _ => ?_
    rw [bondValue, Finset.sum_range, Finset.mul_sum]
    refine Finset.sum_congr rfl fun p0 _ => ?_
    rw [Finset.sum_range (n := d), Finset.mul_sum]
    refine Finset.sum_congr rfl fun p1 _ => ?_
    rw [(h1 y).1, (h1 y).2, operator_value2 he hU]
    ring
  refine ⟨fun h0 => ?_, fun K A l B κ hA hB hAB => ?_⟩
  · rw [key]
    exact Finset.sum_eq_zero fun y _ => by rw [h0, mul_zero]
  · rw [key, h3 K K A l B hA hB, Finset.mul_sum]
    refine Finset.sum_congr rfl fun y _ => ?_
    rw [hAB]
    ring

/-- The amplitudes after an update of a bond which cuts are those of the update which does not, with the sum over
the bond restricted to the first indices. -/
theorem pairForm_cut {d m : ℕ} {a b : NetLabel} {T T' : NetLabel → Option ℕ}
    {t t' : Tensor ν NoSymmetry α} {E : Option (SingularTable β)} {s0 s1 : ℕ} {old : Fin d → Fin d → α}
    {new : ℕ → Tensor ν NoSymmetry α → SingularTable β → Tensor ν NoSymmetry α → α}
    (h : PairForm e d m a b T T' t E t' s0 s1 old new) {K D : ℕ} {A B : Tensor ν NoSymmetry α} {l : List β}
    (hA : HasLegs (netName e.nm) A (Function.update T b (some K))) (hB : HasLegs (netName e.nm) B (Function.update T' a (some K))) :
    (∀ {A' B' : Tensor ν NoSymmetry α} {l' : List β} {κ : α},
      HasLegs (netName e.nm) A' (Function.update T b (some D)) → HasLegs (netName e.nm) B' (Function.update T' a (some D)) →
      (∀ f f' k, k < D → gval (netName e.nm) A' (Function.update f b k) * e.c (l'.getD k 0) *
          gval (netName e.nm) B' (Function.update f' a k) =
        κ * (gval (netName e.nm) A (Function.update f b k) * e.c (l.getD k 0) *
          gval (netName e.nm) B (Function.update f' a k))) →
      new D A' [(0, l')] B' = κ * new D A [(0, l)] B) ∧
    ((∀ f f' k, k < D → gval (netName e.nm) A (Function.update f b k) * e.c (l.getD k 0) *
        gval (netName e.nm) B (Function.update f' a k) = 0) → new D A [(0, l)] B = 0) := by
  obtain ⟨X, I, w, f, f', -, -, h3⟩ := h
  refine ⟨fun {A' B' l' κ} hA' hB' hv => ?_, fun hv => ?_⟩
  · rw [h3 D D A' l' B' hA' hB', h3 K D A l B hA hB, Finset.mul_sum]
    refine Finset.sum_congr rfl fun y _ => ?_
    rw [mul_left_comm]
    congr 1
    rw [Finset.mul_sum]
    exact Finset.sum_congr rfl fun k hk => hv _ _ k (Finset.mem_range.1 hk)
  · rw [h3 K D A l B hA hB]
    refine Finset.sum_eq_zero fun y _ => ?_
    rw [Finset.sum_eq_zero, mul_zero]
    exact fun k hk => hv _ _ k (Finset.mem_range.1 hk)

theorem horizontal_pair (he : NetEnvOk e) {M N d : ℕ} {s : NetState ν α β} {h v : ℕ → ℕ → Option ℕ}
    (hs : NetworkOn e.nm M N d s h v) {i j : ℕ} (hi : i < M) (hj : j < N) (hj' : j + 1 < N) (x : SpinConfig M N d) :
    PairForm e d ((h i (j + 1)).getD 1) .left .right
      (netLegs (h i j) (h i (j + 1)) (v i j) (v (i + 1) j) (some d))
      (netLegs (h i (j + 1)) (h i (j + 1 + 1)) (v i (j + 1)) (v (i + 1) (j + 1)) (some d))
      (s.site (i, j)) (s.env false (i, j)) (s.site ((i : ℤ), (j : ℤ) + 1)) (spinAt x i j) (spinAt x i (j + 1))
      (fun p0 p1 => networkAmp e.nm e.c h v s (Function.update (Function.update x (siteOf hi hj) p0) (siteOf hi hj') p1))
      (fun K A S B => networkAmp e.nm e.c (setDim h i (j + 1) K) v (afterBond s false (i, j) ((i : ℤ), (j : ℤ) + 1) A S B) x) := by
  have h0 : SiteEdges e.nm (s.site ((i : ℤ), (j : ℤ))) (h i j) (h i (j + 1)) (v i j) (v (i + 1) j) d :=
    hs.sites.fits i hi j hj
  have h0' : SiteEdges e.nm (s.site (((i : ℤ), (j : ℤ) + 1) : Pos)) (h i (j + 1)) (h i (j + 1 + 1)) (v i (j + 1)) (v (i + 1) (j + 1)) d := hs.sites.fits i hi (j + 1) hj'
  obtain ⟨I, w, l, r, u, b, u', b', hh⟩ := netVal_pair M N (fun i j => (h i j).getD 1) (fun i j => (v i j).getD 1)
    (fun i j l r u d => val (s.site (i, j)) (netIndex e.nm l r u d (spinAt x i j)) *
      envWeight e.c (s.env false (i, j)) r * envWeight e.c (s.env true (i, j)) d) hi hj'
  have pq : ((i : ℤ), (j : ℤ)) ≠ ((i : ℤ), (j : ℤ) + 1) := by simp
  refine ⟨_, I, fun y => w y * (envWeight e.c (s.env true (i, j)) (b y) * envWeight e.c (s.env false (i, (j : ℤ) + 1)) (r y) *
      envWeight e.c (s.env true (i, (j : ℤ) + 1)) (b' y)),
    fun y => netFun (l y) 0 (u y) (b y) (spinAt x i j), fun y => netFun 0 (r y) (u' y) (b' y) (spinAt x i (j + 1)),
    fun y => ⟨rfl, rfl⟩, fun p0 p1 => ?_, fun K₀ K A L B hA hB => ?_⟩
  · refine Eq.trans ?_ ((hh ((h i (j + 1)).getD 1) (fun l r u b => val (s.site (i, j)) (netIndex e.nm l r u b p0) *
          envWeight e.c (s.env false (i, j)) r * envWeight e.c (s.env true (i, j)) b)
        (fun l r u b => val (s.site ((i : ℤ), (j : ℤ) + 1)) (netIndex e.nm l r u b p1) *
          envWeight e.c (s.env false ((i : ℤ), (j : ℤ) + 1)) r * envWeight e.c (s.env true ((i : ℤ), (j : ℤ) + 1)) b)).trans ?_)
    · beta_reduce
      rw [networkAmp]
      have hd : (fun i' j' => if i' = i ∧ j' = j + 1 then (h i (j + 1)).getD 1 else (h i' j').getD 1) =
          fun i' j' => (h i' j').getD 1 := by
        funext i' j'
        split
        · next hc => rw [hc.1, hc.2]
        · rfl
      rw [hd]
      refine netVal_congr fun i' hi' j' hj' => ?_
      rw [spinAt_update, spinAt_update]
      by_cases hp : i' = i ∧ j' = j
      · obtain ⟨rfl, rfl⟩ := hp
        rw [if_neg (by omega), if_pos ⟨rfl, rfl⟩, if_pos ⟨rfl, rfl⟩]
      · by_cases hq : i' = i ∧ j' = j + 1
        · obtain ⟨rfl, rfl⟩ := hq
          rw [if_pos ⟨rfl, rfl⟩, if_neg hp, if_pos ⟨rfl, rfl⟩]
          rfl
        · rw [if_neg hp, if_neg hq, if_neg hq, if_neg hp]
    · refine Finset.sum_congr rfl fun y _ => ?_
      rw [mul_assoc]
      congr 1
      rw [Finset.mul_sum]
      refine Finset.sum_congr rfl fun k _ => ?_
      rw [netFun_right, netFun_phys, netFun_left, netFun_phys, h0.val_netFun he.inj, h0'.val_netFun he.inj]
      ring
  · have hA : SiteEdges e.nm A (h i j) (some K₀) (v i j) (v (i + 1) j) d := (hA.change (T' := netLegs (h i j) (some K₀) (v i j) (v (i + 1) j) (some d))
      fun g => by cases g <;> simp [netLegs]).site
    have hB : SiteEdges e.nm B (some K₀) (h i (j + 1 + 1)) (v i (j + 1)) (v (i + 1) (j + 1)) d := (hB.change (T' := netLegs (some K₀) (h i (j + 1 + 1)) (v i (j + 1)) (v (i + 1) (j + 1)) (some d))
      fun g => by cases g <;> simp [netLegs]).site
    refine Eq.trans ?_ ((hh K (fun l r u b => val A (netIndex e.nm l r u b (spinAt x i j)) * envWeight e.c (some [(0, L)]) r *
          envWeight e.c (s.env true (i, j)) b)
        (fun l r u b => val B (netIndex e.nm l r u b (spinAt x i (j + 1))) *
          envWeight e.c (s.env false ((i : ℤ), (j : ℤ) + 1)) r * envWeight e.c (s.env true ((i : ℤ), (j : ℤ) + 1)) b)).trans ?_)
    · simp only [networkAmp, setDim_getD]
      refine netVal_congr fun i' hi' j' hj' => ?_
      by_cases hp : i' = i ∧ j' = j
      · obtain ⟨rfl, rfl⟩ := hp
        rw [if_pos ⟨rfl, rfl⟩]
        simp [afterBond]
      · rw [if_neg hp]
        have np : ((i' : ℤ), (j' : ℤ)) ≠ ((i : ℤ), (j : ℤ)) := by rw [Ne, Prod.mk.injEq]; omega
        by_cases hq : i' = i ∧ j' = j + 1
        · obtain ⟨rfl, rfl⟩ := hq
          rw [if_pos ⟨rfl, rfl⟩]
          simp [afterBond]
        · rw [if_neg hq]
          have nq : ((i' : ℤ), (j' : ℤ)) ≠ ((i : ℤ), (j : ℤ) + 1) := by rw [Ne, Prod.mk.injEq]; omega
          simp [afterBond, Function.update_of_ne np, Function.update_of_ne nq]
    · refine Finset.sum_congr rfl fun y _ => ?_
      rw [mul_assoc]
      congr 1
      rw [Finset.mul_sum]
      refine Finset.sum_congr rfl fun k _ => ?_
      rw [netFun_right, netFun_left, hA.val_netFun he.inj, hB.val_netFun he.inj]
      simp only [envWeight, OMap.find?, if_true, Option.getD_some]
      ring

theorem horizontal_after (he : NetEnvOk e) {M N d : ℕ} {s : NetState ν α β} {h v : ℕ → ℕ → Option ℕ}
    (hs : NetworkOn e.nm M N d s h v) {i j : ℕ} (hi : i < M) (hj : j < N) (hj' : j + 1 < N) {K : ℕ}
    {A B : Tensor ν NoSymmetry α} {l : List β} (hl : l.length = K)
    (hA : HasLegs (netName e.nm) A (Function.update (netLegs (h i j) (h i (j + 1)) (v i j) (v (i + 1) j) (some d)) .right (some K)))
    (hB : HasLegs (netName e.nm) B (Function.update (netLegs (h i (j + 1)) (h i (j + 1 + 1)) (v i (j + 1)) (v (i + 1) (j + 1)) (some d)) .left (some K))) :
    NetworkOn e.nm M N d (afterBond s false (i, j) ((i : ℤ), (j : ℤ) + 1) A [(0, l)] B) (setDim h i (j + 1) K) v := by
  have hA : SiteEdges e.nm A (h i j) (some K) (v i j) (v (i + 1) j) d := (hA.change (T' := netLegs (h i j) (some K) (v i j) (v (i + 1) j) (some d))
    fun g => by cases g <;> simp [netLegs]).site
  have hB : SiteEdges e.nm B (some K) (h i (j + 1 + 1)) (v i (j + 1)) (v (i + 1) (j + 1)) d := (hB.change (T' := netLegs (some K) (h i (j + 1 + 1)) (v i (j + 1)) (v (i + 1) (j + 1)) (some d))
    fun g => by cases g <;> simp [netLegs]).site
  have pq : ((i : ℤ), (j : ℤ)) ≠ ((i : ℤ), (j : ℤ) + 1) := by simp
  refine ⟨⟨fun i' hi' j' hj' => ?_, fun i' => ?_, fun i' => ?_, hs.sites.top, hs.sites.bottom⟩, fun p S hS => ?_, hs.envs.down⟩
  · by_cases hp : i' = i ∧ j' = j
    · obtain ⟨rfl, rfl⟩ := hp
      simpa [afterBond, setDim, Function.update_of_ne pq] using hA
    · have np : ((i' : ℤ), (j' : ℤ)) ≠ ((i : ℤ), (j : ℤ)) := by rw [Ne, Prod.mk.injEq]; omega
      by_cases hq : i' = i ∧ j' = j + 1
      · obtain ⟨rfl, rfl⟩ := hq
        simpa [afterBond, setDim] using hB
      · have nq : ((i' : ℤ), (j' : ℤ)) ≠ ((i : ℤ), (j : ℤ) + 1) := by rw [Ne, Prod.mk.injEq]; omega
        have := hs.sites.fits i' hi' j' hj'
        show SiteEdges e.nm ((Function.update (Function.update s.site _ A) _ B) _) _ _ _ _ d
        rw [Function.update_of_ne nq, Function.update_of_ne np]
        rw [show setDim h i (j + 1) K i' j' = h i' j' from if_neg hq, show setDim h i (j + 1) K i' (j' + 1) = h i' (j' + 1) from if_neg (by omega)]
        exact this
  · rw [setDim, if_neg (by omega)]; exact hs.sites.left i'
  · rw [setDim, if_neg (by omega)]; exact hs.sites.right i'
  · by_cases hp : p = ((i : ℤ), (j : ℤ))
    · subst hp
      have hS : some [((0 : NoSymmetry), l)] = some S := by simpa [afterBond] using hS
      exact ⟨i, j, rfl, hi, hj', l, (Option.some.inj hS).symm, by rw [setDim, if_pos ⟨rfl, rfl⟩, hl]⟩
    · have hS : s.env false p = some S := by simpa [afterBond, Function.update_of_ne hp] using hS
      obtain ⟨i', j', rfl, b1, b2, L, b3, b4⟩ := hs.envs.right p S hS
      refine ⟨i', j', rfl, b1, b2, L, b3, ?_⟩
      rw [setDim, if_neg, b4]
      rintro ⟨rfl, hj⟩
      obtain rfl : j' = j := by omega
      exact hp rfl

theorem horizontal_step [IsStrictOrderedRing β] (he : NetEnvOk e) {M N d : ℕ} {s : NetState ν α β}
    {h v : ℕ → ℕ → Option ℕ} (hs : NetworkOn e.nm M N d s h v) {U : Tensor ν NoSymmetry α}
    (hU : OperatorOn d 2 e.nm U) {i j : ℕ} (hi : i < M) (hj : j < N) (hj' : j + 1 < N) :
    ∃ K, ((∃ S ∈ horizontalAround s i j, ¬ NoZero S) → ∀ D, Keeps K D ∨ Cuts K D →
      SpoiledBond (updateHorizontal (netOps e D) U ((i : ℤ), (j : ℤ)) (okState s)) false (i, j) ((i : ℤ), (j : ℤ) + 1)) ∧
    ((∀ S ∈ horizontalAround s i j, NoZero S) →
      (∃ s' κ, κ ≠ 0 ∧ (∀ D, Keeps K D → updateHorizontal (netOps e D) U ((i : ℤ), (j : ℤ)) (okState s) = okState s') ∧
        NetworkOn e.nm M N d s' (setDim h i (j + 1) K) v ∧
        (∀ x : SpinConfig M N d, networkAmp e.nm e.c (setDim h i (j + 1) K) v s' x =
          κ * actOn [siteOf hi hj, siteOf hi hj'] (matrixElement e.nm U) (networkAmp e.nm e.c h v s) x) ∧
        ∀ D, Cuts K D →
          (∃ s'' κ', κ' ≠ 0 ∧ updateHorizontal (netOps e D) U ((i : ℤ), (j : ℤ)) (okState s) = okState s'' ∧
            NetworkOn e.nm M N d s'' (setDim h i (j + 1) D) v ∧
            ∀ x : SpinConfig M N d, networkAmp e.nm e.c (setDim h i (j + 1) D) v s'' x =
              κ' * networkAmp e.nm e.c (setDim h i (j + 1) D) v s' x) ∨
          (SpoiledBond (updateHorizontal (netOps e D) U ((i : ℤ), (j : ℤ)) (okState s)) false (i, j) ((i : ℤ), (j : ℤ) + 1) ∧
            ∀ x : SpinConfig M N d, networkAmp e.nm e.c (setDim h i (j + 1) D) v s' x = 0)) ∨
      ((∀ D, Keeps K D ∨ Cuts K D → SpoiledBond (updateHorizontal (netOps e D) U ((i : ℤ), (j : ℤ)) (okState s)) false (i, j) ((i : ℤ), (j : ℤ) + 1)) ∧
        ∀ x : SpinConfig M N d, actOn [siteOf hi hj, siteOf hi hj'] (matrixElement e.nm U)
          (networkAmp e.nm e.c h v s) x = 0)) := by
  have h0 : SiteEdges e.nm (s.site ((i : ℤ), (j : ℤ))) (h i j) (h i (j + 1)) (v i j) (v (i + 1) j) d :=
    hs.sites.fits i hi j hj
  have h0' : SiteEdges e.nm (s.site (((i : ℤ), (j : ℤ) + 1) : Pos)) (h i (j + 1)) (h i (j + 1 + 1)) (v i (j + 1)) (v (i + 1) (j + 1)) d := hs.sites.fits i hi (j + 1) hj'
  obtain ⟨tl, tu, td, tr⟩ := tables_around hs i j
  obtain ⟨-, tu', td', tr'⟩ := tables_around hs i (j + 1)
  have tu' : TableOn (s.env true ((i : ℤ) - 1, (j : ℤ) + 1)) (v i (j + 1)) := tu'
  have td' : TableOn (s.env true ((i : ℤ), (j : ℤ) + 1)) (v (i + 1) (j + 1)) := td'
  have tr' : TableOn (s.env false ((i : ℤ), (j : ℤ) + 1)) (h i (j + 1 + 1)) := tr'
  obtain ⟨inside, hin⟩ : ∃ x, x = [(NetLabel.left, 'v', s.env false ((i : ℤ), (j : ℤ) - 1)),
    (.up, 'v', s.env true ((i : ℤ) - 1, (j : ℤ))), (.below, 'u', s.env true ((i : ℤ), (j : ℤ))),
    (.right, 'u', s.env false ((i : ℤ), (j : ℤ)))] := ⟨_, rfl⟩
  obtain ⟨ar, har⟩ : ∃ x, x = [(NetLabel.left, 'v', s.env false ((i : ℤ), (j : ℤ) - 1)),
    (.up, 'v', s.env true ((i : ℤ) - 1, (j : ℤ))), (.below, 'u', s.env true ((i : ℤ), (j : ℤ)))] := ⟨_, rfl⟩
  obtain ⟨ar', har'⟩ : ∃ x, x = [(NetLabel.up, 'v', s.env true ((i : ℤ) - 1, (j : ℤ) + 1)),
    (.below, 'u', s.env true ((i : ℤ), (j : ℤ) + 1)), (.right, 'u', s.env false ((i : ℤ), (j : ℤ) + 1))] := ⟨_, rfl⟩
  have hall : (∀ S ∈ horizontalAround s i j, NoZero S) ↔ ∀ x ∈ ar ++ ar', NoZero x.2.2 := by
    simp [har, har', horizontalAround]
  obtain ⟨K, k1, k2⟩ := bondUpdate_ok he (a := .left) (b := .right) (Or.inl ⟨rfl, rfl⟩) (h0.legs he.inj)
    (h0'.legs he.inj) (netLegs_site _ _ _ _ _) (netLegs_site _ _ _ _ _) rfl rfl rfl (hU.legs2 he.inj)
    (inside := inside) (around := ar) (around' := ar') (E := s.env false ((i : ℤ), (j : ℤ)))
    (by simp [hin, EnvsFit, IsDirection, netLegs, tl, tu, td, tr]) (by simp [har, EnvsFit, IsDirection, netLegs, tl, tu, td])
    (by simp [har', EnvsFit, IsDirection, netLegs, tu', td', tr'])
    (fun f => by simp [weights, hin, har]; ring) (by simp [har]) (by simp [har'])
  have call : ∀ D, horizontalUpdate e D U (s.site ((i : ℤ), (j : ℤ))) (around s ((i : ℤ), (j : ℤ)))
      (s.site (((i : ℤ), (j : ℤ) + 1) : Pos)) ((around s ((i : ℤ), (j : ℤ) + 1)).drop 1) =
      bondUpdate e D (NetLabel.string .left) (NetLabel.string .right) U (s.site ((i : ℤ), (j : ℤ))) (envCalls inside) (envCalls ar) (s.site (((i : ℤ), (j : ℤ) + 1) : Pos))
        (envCalls ar') := fun D => by rw [hin, har, har']; rfl
  have act : ∀ x : SpinConfig M N d, actOn [siteOf hi hj, siteOf hi hj'] (matrixElement e.nm U)
      (networkAmp e.nm e.c h v s) x = ∑ p0 : Fin d, ∑ p1 : Fin d,
        networkAmp e.nm e.c h v s (Function.update (Function.update x (siteOf hi hj) p0) (siteOf hi hj') p1) *
          matrixElement e.nm U [p0.val, p1.val] [spinAt x i j, spinAt x i (j + 1)] := fun x => by
    rw [actOn_two (by simp [siteOf]), spinAt_siteOf x hi hj, spinAt_siteOf x hi hj']
  refine ⟨K, fun hz D hD => ?_, fun hz => ?_⟩
  · refine updateHorizontal_error e D U s _ ((call D).trans (k1 D hD ?_))
    by_contra hc
    push Not at hc
    obtain ⟨S, hS, hn⟩ := hz
    exact hn (hall.2 hc S hS)
  · rcases k2 (hall.1 hz) with ⟨A, l, B, κ, hl, hκ, hrun, hA, hB, hval, hcut⟩ | ⟨hrun, hval⟩
    · left
      refine ⟨afterBond s false (i, j) ((i : ℤ), (j : ℤ) + 1) A [(0, l)] B, κ, hκ, fun D hD =>
        updateHorizontal_ok e D U s _ ((call D).trans (hrun D hD)), ?_, fun x => ?_, fun D hD => ?_⟩
      · exact horizontal_after he hs hi hj hj' hl hA hB
      · rw [act]
        exact (pairForm_act he hU (horizontal_pair he hs hi hj hj' x)).2 K A l B κ hA hB hval
      · rcases hcut D hD with ⟨A', l', B', κ', c1, c2, c3, c4, c5, c6⟩ | ⟨c1, c2⟩
        · exact Or.inl ⟨afterBond s false (i, j) ((i : ℤ), (j : ℤ) + 1) A' [(0, l')] B', κ', c2,
            updateHorizontal_ok e D U s _ ((call D).trans c3), horizontal_after he hs hi hj hj' c1 c4 c5,
            fun x => (pairForm_cut (horizontal_pair he hs hi hj hj' x) hA hB).1 c4 c5 c6⟩
        · exact Or.inr ⟨updateHorizontal_error e D U s _ ((call D).trans c1),
            fun x => (pairForm_cut (horizontal_pair he hs hi hj hj' x) hA hB).2 c2⟩
    · right
      refine ⟨fun D hD => updateHorizontal_error e D U s _ ((call D).trans (hrun D hD)), fun x => ?_⟩
      rw [act]
      exact (pairForm_act he hU (horizontal_pair he hs hi hj hj' x)).1 hval

theorem vertical_pair (he : NetEnvOk e) {M N d : ℕ} {s : NetState ν α β} {h v : ℕ → ℕ → Option ℕ}
    (hs : NetworkOn e.nm M N d s h v) {i j : ℕ} (hi : i < M) (hj : j < N) (hi' : i + 1 < M) (x : SpinConfig M N d) :
    PairForm e d ((v (i + 1) j).getD 1) .up .below
      (netLegs (h i j) (h i (j + 1)) (v i j) (v (i + 1) j) (some d))
      (netLegs (h (i + 1) j) (h (i + 1) (j + 1)) (v (i + 1) j) (v (i + 1 + 1) j) (some d))
      (s.site (i, j)) (s.env true (i, j)) (s.site ((i : ℤ) + 1, (j : ℤ))) (spinAt x i j) (spinAt x (i + 1) j)
      (fun p0 p1 => networkAmp e.nm e.c h v s (Function.update (Function.update x (siteOf hi hj) p0) (siteOf hi' hj) p1))
      (fun K A S B => networkAmp e.nm e.c h (setDim v (i + 1) j K) (afterBond s true (i, j) ((i : ℤ) + 1, (j : ℤ)) A S B) x) := by
  have h0 : SiteEdges e.nm (s.site ((i : ℤ), (j : ℤ))) (h i j) (h i (j + 1)) (v i j) (v (i + 1) j) d :=
    hs.sites.fits i hi j hj
  have h0' : SiteEdges e.nm (s.site (((i : ℤ) + 1, (j : ℤ)) : Pos)) (h (i + 1) j) (h (i + 1) (j + 1)) (v (i + 1) j) (v (i + 1 + 1) j) d := hs.sites.fits (i + 1) hi' j hj
  obtain ⟨X, I, w, l, r, u, l', r', b', hh⟩ := netVal_pair_column M N (fun i j => (h i j).getD 1) (fun i j => (v i j).getD 1)
    (fun i j l r u d => val (s.site (i, j)) (netIndex e.nm l r u d (spinAt x i j)) *
      envWeight e.c (s.env false (i, j)) r * envWeight e.c (s.env true (i, j)) d) hi' hj
  have pq : ((i : ℤ), (j : ℤ)) ≠ ((i : ℤ) + 1, (j : ℤ)) := by simp
  refine ⟨_, I, fun y => w y * (envWeight e.c (s.env false (i, j)) (r y) * envWeight e.c (s.env false ((i : ℤ) + 1, j)) (r' y) *
      envWeight e.c (s.env true ((i : ℤ) + 1, j)) (b' y)),
    fun y => netFun (l y) (r y) (u y) 0 (spinAt x i j), fun y => netFun (l' y) (r' y) 0 (b' y) (spinAt x (i + 1) j),
    fun y => ⟨rfl, rfl⟩, fun p0 p1 => ?_, fun K₀ K A L B hA hB => ?_⟩
  · refine Eq.trans ?_ ((hh ((v (i + 1) j).getD 1) (fun l r u b => val (s.site (i, j)) (netIndex e.nm l r u b p0) *
          envWeight e.c (s.env false (i, j)) r * envWeight e.c (s.env true (i, j)) b)
        (fun l r u b => val (s.site ((i : ℤ) + 1, (j : ℤ))) (netIndex e.nm l r u b p1) *
          envWeight e.c (s.env false ((i : ℤ) + 1, (j : ℤ))) r * envWeight e.c (s.env true ((i : ℤ) + 1, (j : ℤ))) b)).trans ?_)
    · beta_reduce
      rw [networkAmp]
      have hd : (fun i' j' => if i' = i + 1 ∧ j' = j then (v (i + 1) j).getD 1 else (v i' j').getD 1) =
          fun i' j' => (v i' j').getD 1 := by
        funext i' j'
        split
        · next hc => rw [hc.1, hc.2]
        · rfl
      rw [hd]
      refine netVal_congr fun i' hi' j' hj' => ?_
      rw [spinAt_update, spinAt_update]
      by_cases hp : i' = i ∧ j' = j
      · obtain ⟨rfl, rfl⟩ := hp
        rw [if_neg (by omega), if_pos ⟨rfl, rfl⟩, if_pos ⟨rfl, rfl⟩]
      · by_cases hq : i' = i + 1 ∧ j' = j
        · obtain ⟨rfl, rfl⟩ := hq
          rw [if_pos ⟨rfl, rfl⟩, if_neg hp, if_pos ⟨rfl, rfl⟩]
          rfl
        · rw [if_neg hp, if_neg hq, if_neg hq, if_neg hp]
    · refine Finset.sum_congr rfl fun y _ => ?_
      rw [mul_assoc]
      congr 1
      rw [Finset.mul_sum]
      refine Finset.sum_congr rfl fun k _ => ?_
      rw [netFun_below, netFun_phys, netFun_up, netFun_phys, h0.val_netFun he.inj, h0'.val_netFun he.inj]
      ring
  · have hA : SiteEdges e.nm A (h i j) (h i (j + 1)) (v i j) (some K₀) d := (hA.change (T' := netLegs (h i j) (h i (j + 1)) (v i j) (some K₀) (some d))
      fun g => by cases g <;> simp [netLegs]).site
    have hB : SiteEdges e.nm B (h (i + 1) j) (h (i + 1) (j + 1)) (some K₀) (v (i + 1 + 1) j) d := (hB.change (T' := netLegs (h (i + 1) j) (h (i + 1) (j + 1)) (some K₀) (v (i + 1 + 1) j) (some d))
      fun g => by cases g <;> simp [netLegs]).site
    refine Eq.trans ?_ ((hh K (fun l r u b => val A (netIndex e.nm l r u b (spinAt x i j)) * envWeight e.c (s.env false (i, j)) r *
          envWeight e.c (some [(0, L)]) b)
        (fun l r u b => val B (netIndex e.nm l r u b (spinAt x (i + 1) j)) *
          envWeight e.c (s.env false ((i : ℤ) + 1, (j : ℤ))) r * envWeight e.c (s.env true ((i : ℤ) + 1, (j : ℤ))) b)).trans ?_)
    · simp only [networkAmp, setDim_getD]
      refine netVal_congr fun i' hi' j' hj' => ?_
      by_cases hp : i' = i ∧ j' = j
      · obtain ⟨rfl, rfl⟩ := hp
        rw [if_pos ⟨rfl, rfl⟩]
        simp [afterBond]
      · rw [if_neg hp]
        have np : ((i' : ℤ), (j' : ℤ)) ≠ ((i : ℤ), (j : ℤ)) := by rw [Ne, Prod.mk.injEq]; omega
        by_cases hq : i' = i + 1 ∧ j' = j
        · obtain ⟨rfl, rfl⟩ := hq
          rw [if_pos ⟨rfl, rfl⟩]
          simp [afterBond]
        · rw [if_neg hq]
          have nq : ((i' : ℤ), (j' : ℤ)) ≠ ((i : ℤ) + 1, (j : ℤ)) := by rw [Ne, Prod.mk.injEq]; omega
          simp [afterBond, Function.update_of_ne np, Function.update_of_ne nq]
    · refine Finset.sum_congr rfl fun y _ => ?_
      rw [mul_assoc]
      congr 1
      rw [Finset.mul_sum]
      refine Finset.sum_congr rfl fun k _ => ?_
      rw [netFun_below, netFun_up, hA.val_netFun he.inj, hB.val_netFun he.inj]
      simp only [envWeight, OMap.find?, if_true, Option.getD_some]
      ring

theorem vertical_after (he : NetEnvOk e) {M N d : ℕ} {s : NetState ν α β} {h v : ℕ → ℕ → Option ℕ}
    (hs : NetworkOn e.nm M N d s h v) {i j : ℕ} (hi : i < M) (hj : j < N) (hi' : i + 1 < M) {K : ℕ}
    {A B : Tensor ν NoSymmetry α} {l : List β} (hl : l.length = K)
    (hA : HasLegs (netName e.nm) A (Function.update (netLegs (h i j) (h i (j + 1)) (v i j) (v (i + 1) j) (some d)) .below (some K)))
    (hB : HasLegs (netName e.nm) B (Function.update (netLegs (h (i + 1) j) (h (i + 1) (j + 1)) (v (i + 1) j) (v (i + 1 + 1) j) (some d)) .up (some K))) :
    NetworkOn e.nm M N d (afterBond s true (i, j) ((i : ℤ) + 1, (j : ℤ)) A [(0, l)] B) h (setDim v (i + 1) j K) := by
  have hA : SiteEdges e.nm A (h i j) (h i (j + 1)) (v i j) (some K) d := (hA.change (T' := netLegs (h i j) (h i (j + 1)) (v i j) (some K) (some d))
    fun g => by cases g <;> simp [netLegs]).site
  have hB : SiteEdges e.nm B (h (i + 1) j) (h (i + 1) (j + 1)) (some K) (v (i + 1 + 1) j) d := (hB.change (T' := netLegs (h (i + 1) j) (h (i + 1) (j + 1)) (some K) (v (i + 1 + 1) j) (some d))
    fun g => by cases g <;> simp [netLegs]).site
  have pq : ((i : ℤ), (j : ℤ)) ≠ ((i : ℤ) + 1, (j : ℤ)) := by simp
  refine ⟨⟨fun i' hi' j' hj' => ?_, hs.sites.left, hs.sites.right, fun j' => ?_, fun j' => ?_⟩, hs.envs.right, fun p S hS => ?_⟩
  · by_cases hp : i' = i ∧ j' = j
    · obtain ⟨rfl, rfl⟩ := hp
      simpa [afterBond, setDim, Function.update_of_ne pq] using hA
    · have np : ((i' : ℤ), (j' : ℤ)) ≠ ((i : ℤ), (j : ℤ)) := by rw [Ne, Prod.mk.injEq]; omega
      by_cases hq : i' = i + 1 ∧ j' = j
      · obtain ⟨rfl, rfl⟩ := hq
        simpa [afterBond, setDim] using hB
      · have nq : ((i' : ℤ), (j' : ℤ)) ≠ ((i : ℤ) + 1, (j : ℤ)) := by rw [Ne, Prod.mk.injEq]; omega
        have := hs.sites.fits i' hi' j' hj'
        show SiteEdges e.nm ((Function.update (Function.update s.site _ A) _ B) _) _ _ _ _ d
        rw [Function.update_of_ne nq, Function.update_of_ne np]
        rw [show setDim v (i + 1) j K i' j' = v i' j' from if_neg hq, show setDim v (i + 1) j K (i' + 1) j' = v (i' + 1) j' from if_neg (by omega)]
        exact this
  · rw [setDim, if_neg (by omega)]; exact hs.sites.top j'
  · rw [setDim, if_neg (by omega)]; exact hs.sites.bottom j'
  · by_cases hp : p = ((i : ℤ), (j : ℤ))
    · subst hp
      have hS : some [((0 : NoSymmetry), l)] = some S := by simpa [afterBond] using hS
      exact ⟨i, j, rfl, hi', hj, l, (Option.some.inj hS).symm, by rw [setDim, if_pos ⟨rfl, rfl⟩, hl]⟩
    · have hS : s.env true p = some S := by simpa [afterBond, Function.update_of_ne hp] using hS
      obtain ⟨i', j', rfl, b1, b2, L, b3, b4⟩ := hs.envs.down p S hS
      refine ⟨i', j', rfl, b1, b2, L, b3, ?_⟩
      rw [setDim, if_neg, b4]
      rintro ⟨hi, rfl⟩
      obtain rfl : i' = i := by omega
      exact hp rfl

theorem vertical_step [IsStrictOrderedRing β] (he : NetEnvOk e) {M N d : ℕ} {s : NetState ν α β}
    {h v : ℕ → ℕ → Option ℕ} (hs : NetworkOn e.nm M N d s h v) {U : Tensor ν NoSymmetry α}
    (hU : OperatorOn d 2 e.nm U) {i j : ℕ} (hi : i < M) (hj : j < N) (hi' : i + 1 < M) :
    ∃ K, ((∃ S ∈ verticalAround s i j, ¬ NoZero S) → ∀ D, Keeps K D ∨ Cuts K D →
      SpoiledBond (updateVertical (netOps e D) U ((i : ℤ), (j : ℤ)) (okState s)) true (i, j) ((i : ℤ) + 1, (j : ℤ))) ∧
    ((∀ S ∈ verticalAround s i j, NoZero S) →
      (∃ s' κ, κ ≠ 0 ∧ (∀ D, Keeps K D → updateVertical (netOps e D) U ((i : ℤ), (j : ℤ)) (okState s) = okState s') ∧
        NetworkOn e.nm M N d s' h (setDim v (i + 1) j K) ∧
        (∀ x : SpinConfig M N d, networkAmp e.nm e.c h (setDim v (i + 1) j K) s' x =
          κ * actOn [siteOf hi hj, siteOf hi' hj] (matrixElement e.nm U) (networkAmp e.nm e.c h v s) x) ∧
        ∀ D, Cuts K D →
          (∃ s'' κ', κ' ≠ 0 ∧ updateVertical (netOps e D) U ((i : ℤ), (j : ℤ)) (okState s) = okState s'' ∧
            NetworkOn e.nm M N d s'' h (setDim v (i + 1) j D) ∧
            ∀ x : SpinConfig M N d, networkAmp e.nm e.c h (setDim v (i + 1) j D) s'' x =
              κ' * networkAmp e.nm e.c h (setDim v (i + 1) j D) s' x) ∨
          (SpoiledBond (updateVertical (netOps e D) U ((i : ℤ), (j : ℤ)) (okState s)) true (i, j) ((i : ℤ) + 1, (j : ℤ)) ∧
            ∀ x : SpinConfig M N d, networkAmp e.nm e.c h (setDim v (i + 1) j D) s' x = 0)) ∨
      ((∀ D, Keeps K D ∨ Cuts K D → SpoiledBond (updateVertical (netOps e D) U ((i : ℤ), (j : ℤ)) (okState s)) true (i, j) ((i : ℤ) + 1, (j : ℤ))) ∧
        ∀ x : SpinConfig M N d, actOn [siteOf hi hj, siteOf hi' hj] (matrixElement e.nm U)
          (networkAmp e.nm e.c h v s) x = 0)) := by
  have h0 : SiteEdges e.nm (s.site ((i : ℤ), (j : ℤ))) (h i j) (h i (j + 1)) (v i j) (v (i + 1) j) d :=
    hs.sites.fits i hi j hj
  have h0' : SiteEdges e.nm (s.site (((i : ℤ) + 1, (j : ℤ)) : Pos)) (h (i + 1) j) (h (i + 1) (j + 1)) (v (i + 1) j) (v (i + 1 + 1) j) d := hs.sites.fits (i + 1) hi' j hj
  obtain ⟨tl, tu, td, tr⟩ := tables_around hs i j
  obtain ⟨tl', -, td', tr'⟩ := tables_around hs (i + 1) j
  have tl' : TableOn (s.env false ((i : ℤ) + 1, (j : ℤ) - 1)) (h (i + 1) j) := tl'
  have td' : TableOn (s.env true ((i : ℤ) + 1, (j : ℤ))) (v (i + 1 + 1) j) := td'
  have tr' : TableOn (s.env false ((i : ℤ) + 1, (j : ℤ))) (h (i + 1) (j + 1)) := tr'
  obtain ⟨inside, hin⟩ : ∃ x, x = [(NetLabel.left, 'v', s.env false ((i : ℤ), (j : ℤ) - 1)),
    (.up, 'v', s.env true ((i : ℤ) - 1, (j : ℤ))), (.below, 'u', s.env true ((i : ℤ), (j : ℤ))),
    (.right, 'u', s.env false ((i : ℤ), (j : ℤ)))] := ⟨_, rfl⟩
  obtain ⟨ar, har⟩ : ∃ x, x = [(NetLabel.left, 'v', s.env false ((i : ℤ), (j : ℤ) - 1)),
    (.up, 'v', s.env true ((i : ℤ) - 1, (j : ℤ))), (.right, 'u', s.env false ((i : ℤ), (j : ℤ)))] := ⟨_, rfl⟩
  obtain ⟨ar', har'⟩ : ∃ x, x = [(NetLabel.left, 'v', s.env false ((i : ℤ) + 1, (j : ℤ) - 1)),
    (.below, 'u', s.env true ((i : ℤ) + 1, (j : ℤ))), (.right, 'u', s.env false ((i : ℤ) + 1, (j : ℤ)))] := ⟨_, rfl⟩
  have hall : (∀ S ∈ verticalAround s i j, NoZero S) ↔ ∀ x ∈ ar ++ ar', NoZero x.2.2 := by
    simp [har, har', verticalAround]
  obtain ⟨K, k1, k2⟩ := bondUpdate_ok he (a := .up) (b := .below) (Or.inr ⟨rfl, rfl⟩) (h0.legs he.inj)
    (h0'.legs he.inj) (netLegs_site _ _ _ _ _) (netLegs_site _ _ _ _ _) rfl rfl rfl (hU.legs2 he.inj)
    (inside := inside) (around := ar) (around' := ar') (E := s.env true ((i : ℤ), (j : ℤ)))
    (by simp [hin, EnvsFit, IsDirection, netLegs, tl, tu, td, tr]) (by simp [har, EnvsFit, IsDirection, netLegs, tl, tu, tr])
    (by simp [har', EnvsFit, IsDirection, netLegs, tl', td', tr'])
    (fun f => by simp [weights, hin, har]; ring) (by simp [har]) (by simp [har'])
  have call : ∀ D, verticalUpdate e D U (s.site ((i : ℤ), (j : ℤ))) (around s ((i : ℤ), (j : ℤ)))
      (s.site (((i : ℤ) + 1, (j : ℤ)) : Pos)) ((around s ((i : ℤ) + 1, (j : ℤ))).eraseIdx 1) =
      bondUpdate e D (NetLabel.string .up) (NetLabel.string .below) U (s.site ((i : ℤ), (j : ℤ))) (envCalls inside) (envCalls ar) (s.site (((i : ℤ) + 1, (j : ℤ)) : Pos))
        (envCalls ar') := fun D => by rw [hin, har, har']; rfl
  have act : ∀ x : SpinConfig M N d, actOn [siteOf hi hj, siteOf hi' hj] (matrixElement e.nm U)
      (networkAmp e.nm e.c h v s) x = ∑ p0 : Fin d, ∑ p1 : Fin d,
        networkAmp e.nm e.c h v s (Function.update (Function.update x (siteOf hi hj) p0) (siteOf hi' hj) p1) *
          matrixElement e.nm U [p0.val, p1.val] [spinAt x i j, spinAt x (i + 1) j] := fun x => by
    rw [actOn_two (by simp [siteOf]), spinAt_siteOf x hi hj, spinAt_siteOf x hi' hj]
  refine ⟨K, fun hz D hD => ?_, fun hz => ?_⟩
  · refine updateVertical_error e D U s _ ((call D).trans (k1 D hD ?_))
    by_contra hc
    push Not at hc
    obtain ⟨S, hS, hn⟩ := hz
    exact hn (hall.2 hc S hS)
  · rcases k2 (hall.1 hz) with ⟨A, l, B, κ, hl, hκ, hrun, hA, hB, hval, hcut⟩ | ⟨hrun, hval⟩
    · left
      refine ⟨afterBond s true (i, j) ((i : ℤ) + 1, (j : ℤ)) A [(0, l)] B, κ, hκ, fun D hD =>
        updateVertical_ok e D U s _ ((call D).trans (hrun D hD)), ?_, fun x => ?_, fun D hD => ?_⟩
      · exact vertical_after he hs hi hj hi' hl hA hB
      · rw [act]
        exact (pairForm_act he hU (vertical_pair he hs hi hj hi' x)).2 K A l B κ hA hB hval
      · rcases hcut D hD with ⟨A', l', B', κ', c1, c2, c3, c4, c5, c6⟩ | ⟨c1, c2⟩
        · exact Or.inl ⟨afterBond s true (i, j) ((i : ℤ) + 1, (j : ℤ)) A' [(0, l')] B', κ', c2,
            updateVertical_ok e D U s _ ((call D).trans c3), vertical_after he hs hi hj hi' c1 c4 c5,
            fun x => (pairForm_cut (vertical_pair he hs hi hj hi' x) hA hB).1 c4 c5 c6⟩
        · exact Or.inr ⟨updateVertical_error e D U s _ ((call D).trans c1),
            fun x => (pairForm_cut (vertical_pair he hs hi hj hi' x) hA hB).2 c2⟩
    · right
      refine ⟨fun D hD => updateVertical_error e D U s _ ((call D).trans (hrun D hD)), fun x => ?_⟩
      rw [act]
      exact (pairForm_act he hU (vertical_pair he hs hi hj hi' x)).1 hval

end TAT
