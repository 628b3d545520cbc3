import Verif.Square.UpdateNet

/-!
# What a simple update does with the amplitudes: one term
-/

namespace TAT

set_option linter.unusedSectionVars false

variable {ν α β : Type} [LinearOrder ν]

/-- A state without exceptions. -/
def okState (s : NetState ν α β) : UpdateState (Outcome (Tensor ν NoSymmetry α)) (Outcome (SingularTable β)) :=
  ⟨fun p => .ok (s.site p), fun b p => (s.env b p).map .ok⟩

/-- A lattice dimension changed at one edge. -/
def setDim (h : ℕ → ℕ → Option ℕ) (i j K : ℕ) (i' j' : ℕ) : Option ℕ :=
  if i' = i ∧ j' = j then some K else h i' j'

/-- The site with given indices. -/
def siteOf {M N : ℕ} {i j : ℕ} (hi : i < M) (hj : j < N) : LatticeSite M N := (⟨i, hi⟩, ⟨j, hj⟩)

theorem spinAt_siteOf {M N d : ℕ} (s : SpinConfig M N d) {i j : ℕ} (hi : i < M) (hj : j < N) :
    spinAt s i j = (s (siteOf hi hj)).val := by rw [spinAt, dif_pos ⟨hi, hj⟩]; rfl

theorem spinAt_update {M N d : ℕ} (s : SpinConfig M N d) {i j : ℕ} (hi : i < M) (hj : j < N) (a : Fin d) (i' j' : ℕ) :
    spinAt (Function.update s (siteOf hi hj) a) i' j' = if i' = i ∧ j' = j then a.val else spinAt s i' j' := by
  unfold spinAt
  by_cases h : i' < M ∧ j' < N
  · rw [dif_pos h, dif_pos h]
    by_cases h' : i' = i ∧ j' = j
    · obtain ⟨rfl, rfl⟩ := h'
      rw [if_pos ⟨rfl, rfl⟩]
      show (Function.update s (siteOf hi hj) a (siteOf hi hj)).val = _
      rw [Function.update_self]
    · rw [if_neg h', Function.update_of_ne]
      intro hh
      rw [siteOf, Prod.mk.injEq, Fin.mk.injEq, Fin.mk.injEq] at hh
      exact h' hh
  · rw [dif_neg h, dif_neg h, if_neg]
    rintro ⟨rfl, rfl⟩
    exact h ⟨hi, hj⟩

section

variable [Field α] [LinearOrder β] [Field β] {e : NetEnv ν α β}

theorem allEnvironments_ok (l : List (Option (SingularTable β))) :
    allEnvironments (l.map fun x => x.map .ok) = .ok l := by
  induction l with
  | nil => rfl
  | cons x l ih =>
    cases x with
    | none =>
      rw [List.map_cons]
      show (allEnvironments _).bind _ = _
      rw [ih]
      rfl
    | some x =>
      rw [List.map_cons]
      show (Outcome.ok x).bind _ = _
      rw [Outcome.bind]
      show (allEnvironments _).bind _ = _
      rw [ih]
      rfl

theorem around_ok (s : NetState ν α β) (p : Pos) : around (okState s) p = (around s p).map fun x => x.map .ok := rfl

/-- The environments around a site fit its edges. -/
theorem tables_around {nm : String → ν} {M N d : ℕ} {s : NetState ν α β} {h v : ℕ → ℕ → Option ℕ}
    (hs : NetworkOn nm M N d s h v) (i j : ℕ) :
    TableOn (s.env false ((i : ℤ), (j : ℤ) - 1)) (h i j) ∧ TableOn (s.env true ((i : ℤ) - 1, (j : ℤ))) (v i j) ∧
    TableOn (s.env true ((i : ℤ), (j : ℤ))) (v (i + 1) j) ∧ TableOn (s.env false ((i : ℤ), (j : ℤ))) (h i (j + 1)) := by
  refine ⟨fun T hT => ?_, fun T hT => ?_, fun T hT => ?_, fun T hT => ?_⟩
  · obtain ⟨i', j', hp, _, _, l, h1, h2⟩ := hs.envs.right _ T hT
    rw [Prod.mk.injEq] at hp
    obtain rfl : i = i' := by omega
    obtain rfl : j = j' + 1 := by omega
    exact ⟨l, h1, h2⟩
  · obtain ⟨i', j', hp, _, _, l, h1, h2⟩ := hs.envs.down _ T hT
    rw [Prod.mk.injEq] at hp
    obtain rfl : i = i' + 1 := by omega
    obtain rfl : j = j' := by omega
    exact ⟨l, h1, h2⟩
  · obtain ⟨i', j', hp, _, _, l, h1, h2⟩ := hs.envs.down _ T hT
    rw [Prod.mk.injEq] at hp
    obtain rfl : i = i' := by omega
    obtain rfl : j = j' := by omega
    exact ⟨l, h1, h2⟩
  · obtain ⟨i', j', hp, _, _, l, h1, h2⟩ := hs.envs.right _ T hT
    rw [Prod.mk.injEq] at hp
    obtain rfl : i = i' := by omega
    obtain rfl : j = j' := by omega
    exact ⟨l, h1, h2⟩

theorem netLegs_site (l r u d p : Option ℕ) (g : NetLabel) (hg : ¬ SiteLabel g) : netLegs l r u d p g = none := by
  cases g <;> first | rfl | exact absurd (by simp [SiteLabel]) hg

/-! ## One site -/

theorem single_step (he : NetEnvOk e) {M N d : ℕ} {s : NetState ν α β} {h v : ℕ → ℕ → Option ℕ}
    (hs : NetworkOn e.nm M N d s h v) {U : Tensor ν NoSymmetry α} (hU : OperatorOn d 1 e.nm U) {i j : ℕ}
    (hi : i < M) (hj : j < N) :
    ∃ s', (∀ D, updateSingle (netOps e D) U ((i : ℤ), (j : ℤ)) (okState s) = okState s') ∧ NetworkOn e.nm M N d s' h v ∧
      ∀ x : SpinConfig M N d, networkAmp e.nm e.c h v s' x =
        actOn [siteOf hi hj] (matrixElement e.nm U) (networkAmp e.nm e.c h v s) x := by
  have h0 := hs.sites.fits i hi j hj
  have hU' := hU.legs1 he.inj
  obtain ⟨t, e1, ht, vt⟩ := net_join he (h0.legs he.inj) hU' [(.phys, .in0)] (by simp) (by simp) (by simp [netLegs, legs3])
    (fun g h1 h2 => by
      simp only [List.map_cons, List.map_nil, List.mem_singleton] at h1 h2
      by_cases h3 : g = .out0
      · subst h3; left; rfl
      · right; simp [legs3, h2, h3])
  have ht : HasLegs (netName e.nm) t (Function.update (Function.update
      (netLegs (h i j) (h i (j + 1)) (v i j) (v (i + 1) j) none) .phys none) .out0 (some d)) := ht.change fun g => by
    unfold contractLegs legs3
    cases g <;> simp [netLegs]
  obtain ⟨hr, vr⟩ := net_rename he ht [(.out0, .phys)] (by simp) (by simp) (by simp)
  have hr : HasLegs (netName e.nm) (e.rename t [("O0", "P")])
      (netLegs (h i j) (h i (j + 1)) (v i j) (v (i + 1) j) (some d)) := hr.change fun g => by
    unfold renameLegs
    cases g <;> simp [netLegs]
  obtain ⟨t', ht'⟩ : ∃ t', t' = e.rename t [("O0", "P")] := ⟨_, rfl⟩
  have vt' : ∀ l r u y p, val t' (netIndex e.nm l r u y p) = ∑ a : Fin d,
      val (s.site (i, j)) (netIndex e.nm l r u y a) * matrixElement e.nm U [a.val] [p] := by
    intro l r u y p
    let f : NetLabel → ℕ := fun g => match g with
      | .left => l
      | .right => r
      | .up => u
      | .below => y
      | .phys => p
      | _ => 0
    have e2 := hr.site.val_eq he.inj f
    rw [← ht'] at e2
    have e2 : gval (netName e.nm) t' f = val t' (netIndex e.nm l r u y p) := e2
    rw [← e2, ht', Fin.sum_univ_eq_sum_range (fun a => val (s.site (i, j)) (netIndex e.nm l r u y a) *
      matrixElement e.nm U [a] [p])]
    refine (vr f).trans ?_
    rw [vt, sumPairs]
    refine Finset.sum_congr rfl fun a _ => ?_
    rw [sumPairs]
    congr 1
    · rw [h0.val_eq he.inj]
      congr 1
    · rw [← operator_value1 he hU, gval3 he hU']
      congr 1
  refine ⟨⟨Function.update s.site (i, j) t', s.env⟩, fun D => ?_, ⟨⟨fun i' hi' j' hj' => ?_, hs.sites.left,
    hs.sites.right, hs.sites.top, hs.sites.bottom⟩, hs.envs⟩, fun x => ?_⟩
  · rw [updateSingle, okState]
    congr 1
    funext p
    by_cases hp : p = ((i : ℤ), (j : ℤ))
    · subst hp
      show _ = Outcome.ok (Function.update s.site ((i : ℤ), (j : ℤ)) t' (i, j))
      rw [Function.update_self, Function.update_self, ht']
      show singleUpdate e U (s.site (i, j)) = _
      rw [singleUpdate]
      have e1 : e.join (s.site (i, j)) U [("P", "I0")] = .ok t := e1
      rw [e1]
      rfl
    · rw [Function.update_of_ne hp]
      show _ = Outcome.ok (Function.update s.site ((i : ℤ), (j : ℤ)) t' p)
      rw [Function.update_of_ne hp]
  · by_cases hp : i' = i ∧ j' = j
    · obtain ⟨rfl, rfl⟩ := hp
      show SiteEdges e.nm (Function.update s.site ((i' : ℤ), (j' : ℤ)) t' (i', j')) _ _ _ _ _
      rw [Function.update_self, ht']
      exact hr.site
    · show SiteEdges e.nm (Function.update s.site ((i : ℤ), (j : ℤ)) t' (i', j')) _ _ _ _ _
      rw [Function.update_of_ne (by rw [Ne, Prod.mk.injEq]; omega)]
      exact hs.sites.fits i' hi' j' hj'
  · rw [actOn_one]
    obtain ⟨I, w, l, r, u, b, hh⟩ := netVal_single M N (fun i j => (h i j).getD 1) (fun i j => (v i j).getD 1)
      (fun i j l r u d => val (s.site (i, j)) (netIndex e.nm l r u d (spinAt x i j)) *
        envWeight e.c (s.env false (i, j)) r * envWeight e.c (s.env true (i, j)) d) hi hj
    have h1 : networkAmp e.nm e.c h v ⟨Function.update s.site (i, j) t', s.env⟩ x =
        ∑ y ∈ I, w y * (val t' (netIndex e.nm (l y) (r y) (u y) (b y) (spinAt x i j)) *
          envWeight e.c (s.env false (i, j)) (r y) * envWeight e.c (s.env true (i, j)) (b y)) := by
      rw [networkAmp, ← hh fun l r u d => val t' (netIndex e.nm l r u d (spinAt x i j)) *
        envWeight e.c (s.env false (i, j)) r * envWeight e.c (s.env true (i, j)) d]
      refine netVal_congr fun i' hi' j' hj' => ?_
      by_cases hp : i' = i ∧ j' = j
      · obtain ⟨rfl, rfl⟩ := hp
        simp
      · rw [if_neg hp]
        have : ((i' : ℤ), (j' : ℤ)) ≠ ((i : ℤ), (j : ℤ)) := by rw [Ne, Prod.mk.injEq]; omega
        simp only [Function.update_of_ne this]
    have h2 : ∀ a : Fin d, networkAmp e.nm e.c h v s (Function.update x (siteOf hi hj) a) =
        ∑ y ∈ I, w y * (val (s.site (i, j)) (netIndex e.nm (l y) (r y) (u y) (b y) a) *
          envWeight e.c (s.env false (i, j)) (r y) * envWeight e.c (s.env true (i, j)) (b y)) := by
      intro a
      rw [networkAmp, ← hh fun l r u d => val (s.site (i, j)) (netIndex e.nm l r u d a) *
        envWeight e.c (s.env false (i, j)) r * envWeight e.c (s.env true (i, j)) d]
      refine netVal_congr fun i' hi' j' hj' => ?_
      rw [spinAt_update]
      by_cases hp : i' = i ∧ j' = j
      · obtain ⟨rfl, rfl⟩ := hp
        simp
      · rw [if_neg hp, if_neg hp]
    rw [h1]
    simp only [h2]
    simp only [Finset.sum_mul]
    rw [Finset.sum_comm]
    refine Finset.sum_congr rfl fun y _ => ?_
    rw [vt', ← spinAt_siteOf, Finset.sum_mul, Finset.sum_mul, Finset.mul_sum]
    refine Finset.sum_congr rfl fun a _ => ?_
    ring

/-! ## Bonds -/

/-- The state after a bond has been updated. -/
def afterBond (s : NetState ν α β) (b : Bool) (p q : Pos) (A : Tensor ν NoSymmetry α) (S : SingularTable β)
    (B : Tensor ν NoSymmetry α) : NetState ν α β :=
  ⟨Function.update (Function.update s.site p A) q B, Function.update s.env b (Function.update (s.env b) p (some S))⟩

/-- The state after the update of a bond has failed. -/
def SpoiledBond (st : UpdateState (Outcome (Tensor ν NoSymmetry α)) (Outcome (SingularTable β))) (b : Bool) (p q : Pos) :
    Prop := st.site p = .error "division by zero" ∧ st.site q = .error "division by zero" ∧
      st.env b p = some (.error "division by zero")

theorem write_ok (s : NetState ν α β) (b : Bool) (p q : Pos) (A : Tensor ν NoSymmetry α) (S : SingularTable β)
    (B : Tensor ν NoSymmetry α) :
    (⟨Function.update (Function.update (okState s).site p (.ok A)) q (.ok B),
      Function.update (okState s).env b (Function.update ((okState s).env b) p (some (.ok S)))⟩ :
      UpdateState (Outcome (Tensor ν NoSymmetry α)) (Outcome (SingularTable β))) = okState (afterBond s b p q A S B) := by
  unfold okState afterBond
  congr 1
  · funext x
    by_cases hq : x = q
    · subst hq; simp
    · by_cases hp : x = p
      · subst hp; simp [Function.update_of_ne hq]
      · simp [Function.update_of_ne hq, Function.update_of_ne hp]
  · funext b' x
    by_cases hb : b' = b
    · subst hb
      by_cases hp : x = p
      · subst hp; simp
      · simp [Function.update_of_ne hp]
    · simp [Function.update_of_ne hb]

theorem updateHorizontal_ok (e : NetEnv ν α β) (D : ℕ) (U : Tensor ν NoSymmetry α) (s : NetState ν α β) (p : Pos)
    {A : Tensor ν NoSymmetry α} {S : SingularTable β} {B : Tensor ν NoSymmetry α}
    (h : horizontalUpdate e D U (s.site p) (around s p) (s.site (p.1, p.2 + 1)) ((around s (p.1, p.2 + 1)).drop 1) =
      .ok (A, S, B)) :
    updateHorizontal (netOps e D) U p (okState s) = okState (afterBond s false p (p.1, p.2 + 1) A S B) := by
  rw [← write_ok, updateHorizontal]
  have : (netOps e D).horizontal U ((okState s).site p) (around (okState s) p) ((okState s).site (p.1, p.2 + 1))
      ((around (okState s) (p.1, p.2 + 1)).drop 1) = (.ok A, .ok S, .ok B) := by
    show bondResult ((allEnvironments _).bind fun x => (allEnvironments _).bind fun y => _) = _
    rw [around_ok, around_ok, ← List.map_drop, allEnvironments_ok, Outcome.bind, allEnvironments_ok, Outcome.bind, h]
    rfl
  rw [this]

theorem updateHorizontal_error (e : NetEnv ν α β) (D : ℕ) (U : Tensor ν NoSymmetry α) (s : NetState ν α β) (p : Pos)
    (h : horizontalUpdate e D U (s.site p) (around s p) (s.site (p.1, p.2 + 1)) ((around s (p.1, p.2 + 1)).drop 1) =
      .error "division by zero") :
    SpoiledBond (updateHorizontal (netOps e D) U p (okState s)) false p (p.1, p.2 + 1) := by
  rw [updateHorizontal]
  have : (netOps e D).horizontal U ((okState s).site p) (around (okState s) p) ((okState s).site (p.1, p.2 + 1))
      ((around (okState s) (p.1, p.2 + 1)).drop 1) =
      (.error "division by zero", .error "division by zero", .error "division by zero") := by
    show bondResult ((allEnvironments _).bind fun x => (allEnvironments _).bind fun y => _) = _
    rw [around_ok, around_ok, ← List.map_drop, allEnvironments_ok, Outcome.bind, allEnvironments_ok, Outcome.bind, h]
    rfl
  rw [this]
  have hne : p ≠ (p.1, p.2 + 1) := fun h => by have := congrArg Prod.snd h; simp at this
  exact ⟨by simp only [Function.update_of_ne hne, Function.update_self], by simp, by simp⟩

theorem updateVertical_ok (e : NetEnv ν α β) (D : ℕ) (U : Tensor ν NoSymmetry α) (s : NetState ν α β) (p : Pos)
    {A : Tensor ν NoSymmetry α} {S : SingularTable β} {B : Tensor ν NoSymmetry α}
    (h : verticalUpdate e D U (s.site p) (around s p) (s.site (p.1 + 1, p.2)) ((around s (p.1 + 1, p.2)).eraseIdx 1) =
      .ok (A, S, B)) :
    updateVertical (netOps e D) U p (okState s) = okState (afterBond s true p (p.1 + 1, p.2) A S B) := by
  rw [← write_ok, updateVertical]
  have : (netOps e D).vertical U ((okState s).site p) (around (okState s) p) ((okState s).site (p.1 + 1, p.2))
      ((around (okState s) (p.1 + 1, p.2)).eraseIdx 1) = (.ok A, .ok S, .ok B) := by
    show bondResult ((allEnvironments _).bind fun x => (allEnvironments _).bind fun y => _) = _
    rw [around_ok, around_ok, List.eraseIdx_map, allEnvironments_ok, Outcome.bind, allEnvironments_ok, Outcome.bind, h]
    rfl
  rw [this]

theorem updateVertical_error (e : NetEnv ν α β) (D : ℕ) (U : Tensor ν NoSymmetry α) (s : NetState ν α β) (p : Pos)
    (h : verticalUpdate e D U (s.site p) (around s p) (s.site (p.1 + 1, p.2)) ((around s (p.1 + 1, p.2)).eraseIdx 1) =
      .error "division by zero") :
    SpoiledBond (updateVertical (netOps e D) U p (okState s)) true p (p.1 + 1, p.2) := by
  rw [updateVertical]
  have : (netOps e D).vertical U ((okState s).site p) (around (okState s) p) ((okState s).site (p.1 + 1, p.2))
      ((around (okState s) (p.1 + 1, p.2)).eraseIdx 1) =
      (.error "division by zero", .error "division by zero", .error "division by zero") := by
    show bondResult ((allEnvironments _).bind fun x => (allEnvironments _).bind fun y => _) = _
    rw [around_ok, around_ok, List.eraseIdx_map, allEnvironments_ok, Outcome.bind, allEnvironments_ok, Outcome.bind, h]
    rfl
  rw [this]
  have hne : p ≠ (p.1 + 1, p.2) := fun h => by have := congrArg Prod.fst h; simp at this
  exact ⟨by simp only [Function.update_of_ne hne, Function.update_self], by simp, by simp⟩

end

end TAT
