import Verif.Square.NetLegs
import Verif.Square.AuxStack

/-!
# The vector of the exact lattice, one site after the other
-/

namespace TAT

set_option linter.unusedSectionVars false

variable {ν α β : Type} [LinearOrder ν]

theorem HasLegs.change {G : Type} {ι : G → ν} {t : Tensor ν NoSymmetry α} {T T' : G → Option ℕ}
    (h : HasLegs ι t T) (hT : ∀ g, T g = T' g) : HasLegs ι t T' :=
  ⟨h.dense, h.only, fun g => (h.legs g).trans (hT g)⟩

variable [Field α] [LinearOrder β] [Field β] {e : NetEnv ν α β}

theorem net_join (he : NetEnvOk e) {t1 t2 : Tensor ν NoSymmetry α} {T1 T2 : NetLabel → Option ℕ}
    (h1 : HasLegs (netName e.nm) t1 T1) (h2 : HasLegs (netName e.nm) t2 T2)
    (pairs : List (NetLabel × NetLabel)) (hp1 : (pairs.map Prod.fst).Nodup) (hp2 : (pairs.map Prod.snd).Nodup)
    (hm : ∀ c ∈ pairs, T1 c.1 = T2 c.2)
    (hd : ∀ g, g ∉ pairs.map Prod.fst → g ∉ pairs.map Prod.snd → T1 g = none ∨ T2 g = none) :
    ∃ r, e.join t1 t2 (pairs.map fun p => (p.1.string, p.2.string)) = .ok r ∧
      HasLegs (netName e.nm) r (contractLegs T1 T2 pairs) ∧
      ∀ f, gval (netName e.nm) r f = sumPairs (fun g => (T1 g).getD 1)
        (fun x y => gval (netName e.nm) t1 x * gval (netName e.nm) t2 y) pairs f f := by
  obtain ⟨r, h⟩ := label_contract (netName_inj he.inj) e.ce he.gemm he.names h1 h2 pairs hp1 hp2 hm hd
  refine ⟨r, ?_, h.2⟩
  rw [AuxEnv.join, List.map_map]
  exact h.1

theorem net_rename (he : NetEnvOk e) {t : Tensor ν NoSymmetry α} {T : NetLabel → Option ℕ}
    (h : HasLegs (netName e.nm) t T) (d : List (NetLabel × NetLabel))
    (h1 : (d.map Prod.fst).Nodup) (h2 : (d.map Prod.snd).Nodup) (hd : ∀ c ∈ d, T c.2 = none) :
    HasLegs (netName e.nm) (e.rename t (d.map fun p => (p.1.string, p.2.string))) (renameLegs T d) ∧
      ∀ f, gval (netName e.nm) (e.rename t (d.map fun p => (p.1.string, p.2.string))) f =
        gval (netName e.nm) t fun g => f (renameTo d g) := by
  rw [AuxEnv.rename, List.map_map]
  exact label_rename (netName_inj he.inj) h d h1 h2 hd

theorem net_one (nm : String → ν) :
    HasLegs (netName nm) (oneTensor : Tensor ν NoSymmetry α) fun _ => none := by
  have hl : ∀ n, leg (oneTensor : Tensor ν NoSymmetry α) n = none := fun n => leg_eq_none.2 (by simp [oneTensor])
  refine ⟨⟨⟨rfl, by simp [oneTensor], by simp [oneTensor], rfl, rfl⟩, fun n => ?_⟩, fun n hn => absurd (hl n) hn,
    fun g => hl _⟩
  rw [legDim, hl]
  exact Nat.one_pos

/-! ## A site with its environments -/

theorem siteWithEnvironment_ok (he : NetEnvOk e) {M N d : ℕ} {s : NetState ν α β} {h v : ℕ → ℕ → Option ℕ}
    (hs : NetworkOn e.nm M N d s h v) {i j : ℕ} (hi : i < M) (hj : j < N) :
    ∃ t, siteWithEnvironment e s i j = .ok t ∧
      SiteEdges e.nm t (h i j) (h i (j + 1)) (v i j) (v (i + 1) j) d ∧
      ∀ l r u b p, val t (netIndex e.nm l r u b p) = val (s.site (i, j)) (netIndex e.nm l r u b p) *
        envWeight e.c (s.env false (i, j)) r * envWeight e.c (s.env true (i, j)) b := by
  have h0 := hs.sites.fits i hi j hj
  have hD : TableOn (s.env true (i, j)) (v (i + 1) j) := fun T hT => by
    obtain ⟨i', j', hp, _, _, l, h1, h2⟩ := hs.envs.down _ T hT
    simp only [Prod.mk.injEq, Nat.cast_inj] at hp
    rw [hp.1, hp.2]
    exact ⟨l, h1, h2⟩
  have hR : TableOn (s.env false (i, j)) (h i (j + 1)) := fun T hT => by
    obtain ⟨i', j', hp, _, _, l, h1, h2⟩ := hs.envs.right _ T hT
    simp only [Prod.mk.injEq, Nat.cast_inj] at hp
    rw [hp.1, hp.2]
    exact ⟨l, h1, h2⟩
  obtain ⟨a, a1, a2, a3⟩ := tryMultiple_ok he (h0.legs he.inj) .below (direction := 'u') (by simp [IsDirection]) hD
  obtain ⟨b, b1, b2, b3⟩ := tryMultiple_ok he a2 .right (direction := 'u') (by simp [IsDirection]) hR
  refine ⟨b, ?_, b2.site, fun l r u x p => ?_⟩
  · rw [siteWithEnvironment, tryMultiples]
    have a1 : tryMultiple e false (s.site (i, j)) ("D", 'u', s.env true (i, j)) = .ok a := a1
    have b1 : tryMultiple e false a ("R", 'u', s.env false (i, j)) = .ok b := b1
    rw [a1]
    show tryMultiples e false a _ = _
    rw [tryMultiples, b1]
    rfl
  · let f : NetLabel → ℕ := fun g => match g with
      | .left => l
      | .right => r
      | .up => u
      | .below => x
      | .phys => p
      | _ => 0
    have e1 := b2.site.val_eq he.inj f
    have e2 := h0.val_eq he.inj f
    have e1 : gval (netName e.nm) b f = val b (netIndex e.nm l r u x p) := e1
    have e2 : gval (netName e.nm) (s.site (i, j)) f = val (s.site (i, j)) (netIndex e.nm l r u x p) := e2
    rw [← e1, ← e2, b3, a3]
    show _ * envWeight e.c _ x * envWeight e.c _ r = _
    ring

/-! ## The vector -/

/-- The dimensions of the vector before site `i j` is taken up. -/
def vectorLegs (N d : ℕ) (h v : ℕ → ℕ → Option ℕ) (i j : ℕ) : NetLabel → Option ℕ
  | .right => h i j
  | .column k => if k < N then (if k < j then v (i + 1) k else v i k) else none
  | .at a b => if b < N ∧ (a < i ∨ a = i ∧ b < j) then some d else none
  | _ => none

/-- The elements of the vector, up to a factor. -/
noncomputable def vectorVal (nm : String → ν) (N : ℕ) (h v : ℕ → ℕ → Option ℕ) (site : ℕ → ℕ → Tensor ν NoSymmetry α)
    (i j : ℕ) (f : NetLabel → ℕ) : α :=
  rowElim (fun j => (h i j).getD 1) (fun j => (v i j).getD 1)
    (fun j l r u d => val (site i j) (netIndex nm l r u d (f (.at i j))))
    (topSum N (fun i j => (h i j).getD 1) (fun i j => (v i j).getD 1)
      (fun i j l r u d => val (site i j) (netIndex nm l r u d (f (.at i j)))) i)
    j (f .right) fun k => f (.column k)

/-- What is known of the vector before site `i j` is taken up. -/
def VectorAt (e : NetEnv ν α β) (N d : ℕ) (h v : ℕ → ℕ → Option ℕ) (site : ℕ → ℕ → Tensor ν NoSymmetry α)
    (i j : ℕ) (x : Outcome (Tensor ν NoSymmetry α)) : Prop :=
  (∃ w c, x = .ok w ∧ HasLegs (netName e.nm) w (vectorLegs N d h v i j) ∧ c ≠ 0 ∧
    ∀ f, gval (netName e.nm) w f = c * vectorVal e.nm N h v site i j f) ∨
  (x = .error "division by zero" ∧ ∀ f, vectorVal e.nm N h v site i j f = 0)

theorem vectorVal_succ {nm : String → ν} {N : ℕ} {h v : ℕ → ℕ → Option ℕ} {site : ℕ → ℕ → Tensor ν NoSymmetry α}
    {i j : ℕ} (f : NetLabel → ℕ) : vectorVal nm N h v site i (j + 1) f =
      ∑ a ∈ Finset.range ((h i j).getD 1), ∑ b ∈ Finset.range ((v i j).getD 1),
        vectorVal nm N h v site i j (Function.update (Function.update f .right a) (.column j) b) *
          val (site i j) (netIndex nm a (f .right) b (f (.column j)) (f (.at i j))) := by
  rw [vectorVal, rowElim]
  refine Finset.sum_congr rfl fun a _ => Finset.sum_congr rfl fun b _ => ?_
  rw [vectorVal]
  congr 1
  have e1 : ∀ a' b', Function.update (Function.update f .right a) (.column j) b (.at a' b') = f (.at a' b') :=
    fun a' b' => by rw [Function.update_of_ne (by simp), Function.update_of_ne (by simp)]
  have e2 : Function.update (Function.update f .right a) (.column j) b .right = a := by
    rw [Function.update_of_ne (by simp), Function.update_self]
  have e3 : (fun k => Function.update (Function.update f .right a) (.column j) b (.column k)) =
      Function.update (fun k => f (.column k)) j b := by
    funext k
    by_cases hk : k = j
    · subst hk
      simp
    · rw [Function.update_of_ne (by simpa using hk), Function.update_of_ne (by simp), Function.update_of_ne hk]
  simp only [e1, e2, e3]

theorem addSite_ok (he : NetEnvOk e) {M N d : ℕ} {h v : ℕ → ℕ → Option ℕ}
    {site : ℕ → ℕ → Tensor ν NoSymmetry α} (hs : SitesOn e.nm M N d site h v) {i j : ℕ} (hi : i < M) (hj : j < N)
    {x : Outcome (Tensor ν NoSymmetry α)} (hx : VectorAt e N d h v site i j x) {t : Tensor ν NoSymmetry α}
    (ht : SiteEdges e.nm t (h i j) (h i (j + 1)) (v i j) (v (i + 1) j) d)
    (hval : ∀ l r u b p, val t (netIndex e.nm l r u b p) = val (site i j) (netIndex e.nm l r u b p)) :
    VectorAt e N d h v site i (j + 1) (x.bind fun w => addSite e w t i j) := by
  rcases hx with ⟨w, c, rfl, hw, hc, hv⟩ | ⟨rfl, h0⟩
  · obtain ⟨r1, r2⟩ := net_rename he (ht.legs he.inj) [(.below, .column j), (.phys, .at i j)]
      (by simp) (by simp) (by simp [netLegs])
    generalize hy : e.rename t ([(NetLabel.below, NetLabel.column j), (.phys, .at i j)].map
      fun p => (p.1.string, p.2.string)) = y at r1 r2
    have hy : e.rename t [("D", "D" ++ toString j),
      ("P", "P-" ++ toString (i : ℤ) ++ "-" ++ toString (j : ℤ))] = y := hy
    have hdisj : ∀ g, renameLegs (netLegs (h i j) (h i (j + 1)) (v i j) (v (i + 1) j) (some d))
        [(.below, .column j), (.phys, .at i j)] g =
        match g with
        | .left => h i j
        | .right => h i (j + 1)
        | .up => v i j
        | .column k => if k = j then v (i + 1) j else none
        | .at a b => if a = i ∧ b = j then some d else none
        | _ => none := by
      intro g
      cases g with
      | column k =>
        by_cases hk : k = j
        · subst hk
          simp [renameLegs, netLegs]
        · simp [renameLegs, netLegs, hk, Ne.symm hk]
      | «at» a b =>
        by_cases hk : a = i ∧ b = j
        · obtain ⟨rfl, rfl⟩ := hk
          simp [renameLegs, netLegs]
        · have hk' : ¬ (i = a ∧ j = b) := fun h => hk ⟨h.1.symm, h.2.symm⟩
          simp [renameLegs, netLegs, hk, hk']
      | _ => simp [renameLegs, netLegs]
    have r1' := r1.change hdisj
    obtain ⟨z, z1, z2, z3⟩ := net_join he hw r1' [(.right, .left), (.column j, .up)] (by simp) (by simp) (by
      intro c hc
      simp only [List.mem_cons, List.not_mem_nil, or_false] at hc
      rcases hc with rfl | rfl
      · rfl
      · simp [vectorLegs, hj]) (by
      intro g g1 g2
      cases g <;> simp [vectorLegs] at g1 g2 ⊢
      · exact Or.inr fun h => absurd h g1
      · rename_i a b
        by_cases hab : a = i ∧ b = j
        · exact Or.inl fun _ => by omega
        · exact Or.inr fun h1 h2 => hab ⟨h1, h2⟩)
    have z1 : e.join w y [("R", "L"), ("D" ++ toString j, "U")] = .ok z := z1
    have z2 := z2.change (T' := vectorLegs N d h v i (j + 1)) (by
      intro g
      cases g with
      | column k =>
        by_cases hk : k = j
        · subst hk
          simp [contractLegs, vectorLegs, hj]
        · have : k < j + 1 ↔ k < j := by omega
          simp [contractLegs, vectorLegs, hk, this]
      | «at» a b =>
        simp only [contractLegs, vectorLegs, List.map_cons, List.map_nil, List.mem_cons, reduceCtorEq,
          List.not_mem_nil, or_self, if_false]
        by_cases hk : a = i ∧ b = j
        · obtain ⟨rfl, rfl⟩ := hk
          simp [hj]
        · have : (b < N ∧ (a < i ∨ a = i ∧ b < j + 1)) ↔ (b < N ∧ (a < i ∨ a = i ∧ b < j)) := by omega
          rw [if_congr this rfl rfl]
          simp [hk]
      | _ => simp [contractLegs, vectorLegs])
    have hz : ∀ f, gval (netName e.nm) z f = c * vectorVal e.nm N h v site i (j + 1) f := by
      intro f
      rw [z3, vectorVal_succ, Finset.mul_sum]
      simp only [sumPairs]
      have e1 : (vectorLegs N d h v i j (.column j)) = v i j := by simp [vectorLegs, hj]
      rw [e1]
      refine Finset.sum_congr rfl fun a _ => ?_
      rw [Finset.mul_sum]
      refine Finset.sum_congr rfl fun b _ => ?_
      rw [hv, r2, ht.val_eq he.inj, hval, mul_assoc]
      have q1 : renameTo [(NetLabel.below, NetLabel.column j), (.phys, .at i j)] .left = .left := rfl
      have q2 : renameTo [(NetLabel.below, NetLabel.column j), (.phys, .at i j)] .right = .right := rfl
      have q3 : renameTo [(NetLabel.below, NetLabel.column j), (.phys, .at i j)] .up = .up := rfl
      have q4 : renameTo [(NetLabel.below, NetLabel.column j), (.phys, .at i j)] .below = .column j := rfl
      have q5 : renameTo [(NetLabel.below, NetLabel.column j), (.phys, .at i j)] .phys = .at i j := rfl
      simp [q1, q2, q3, q4, q5]
    have hadd : addSite e w t i j = normalised e z := by
      rw [addSite, hy, z1]
      rfl
    obtain ⟨n1, n2⟩ := normalised_ok he z2
    by_cases hzero : ∀ f, gval (netName e.nm) z f = 0
    · refine Or.inr ⟨?_, fun f => ?_⟩
      · show addSite e w t i j = _
        rw [hadd, n1 hzero]
      · have := hzero f
        rw [hz] at this
        exact (mul_eq_zero.1 this).resolve_left hc
    · obtain ⟨r, a, n3, n4, n5, n6⟩ := n2 hzero
      refine Or.inl ⟨r, c * a, ?_, n4, mul_ne_zero hc n5, fun f => ?_⟩
      · show addSite e w t i j = _
        rw [hadd, n3]
      · rw [n6, hz]
        ring
  · refine Or.inr ⟨rfl, fun f => ?_⟩
    rw [vectorVal_succ]
    refine Finset.sum_eq_zero fun a _ => Finset.sum_eq_zero fun b _ => ?_
    rw [h0, zero_mul]

/-- The end of a row. -/
theorem vectorAt_row (he : NetEnvOk e) {M N d : ℕ} {h v : ℕ → ℕ → Option ℕ}
    {site : ℕ → ℕ → Tensor ν NoSymmetry α} (hs : SitesOn e.nm M N d site h v) {i : ℕ}
    {x : Outcome (Tensor ν NoSymmetry α)} (hx : VectorAt e N d h v site i N x) :
    VectorAt e N d h v site (i + 1) 0 x := by
  have hv : ∀ f : NetLabel → ℕ, vectorVal e.nm N h v site (i + 1) 0 f =
      vectorVal e.nm N h v site i N (Function.update f .right 0) := by
    intro f
    rw [vectorVal, rowElim, topSum_succ _ (by rw [hs.right]; rfl), vectorVal]
    have e1 : ∀ g : NetLabel, g ≠ .right → Function.update f .right 0 g = f g := fun g hg => Function.update_of_ne hg _ _
    simp only [e1, ne_eq, reduceCtorEq, not_false_eq_true, Function.update_self]
  rcases hx with ⟨w, c, rfl, hw, hc, hval⟩ | ⟨rfl, h0⟩
  · have hw' := hw.change (T' := vectorLegs N d h v (i + 1) 0) (by
      intro g
      cases g with
      | right => rw [vectorLegs, vectorLegs, hs.right, hs.left]
      | column k => simp only [vectorLegs]; split <;> simp_all
      | «at» a b =>
        simp only [vectorLegs]
        refine if_congr ?_ rfl rfl
        omega
      | _ => rfl)
    refine Or.inl ⟨w, c, rfl, hw', hc, fun f => ?_⟩
    rw [hv, ← hval]
    refine gval_congr (netName_inj he.inj) hw' fun g hg => ?_
    rw [Function.update_of_ne]
    rintro rfl
    exact hg (hs.left _)
  · exact Or.inr ⟨rfl, fun f => by rw [hv, h0]⟩

/-- Row by row. -/
theorem foldlM_positions {σ : Type} (F : σ → ℕ × ℕ → Outcome σ) (a : σ) (M N : ℕ) (P : ℕ → ℕ → Outcome σ → Prop)
    (h0 : P 0 0 (.ok a)) (hrow : ∀ i < M, ∀ x, P i N x → P (i + 1) 0 x)
    (hstep : ∀ i < M, ∀ j < N, ∀ x, P i j x → P i (j + 1) (x.bind fun y => F y (i, j))) :
    P M 0 ((sitePositions M N).foldlM F a) := by
  have hb : ∀ (x : Outcome σ) (G : σ → Outcome σ), (x >>= G) = x.bind G := fun _ _ => rfl
  have hp : ∀ (x : Outcome σ) (l : List (ℕ × ℕ)) (p : ℕ × ℕ),
      (x.bind fun y => (l ++ [p]).foldlM F y) = (x.bind fun y => l.foldlM F y).bind fun y => F y p := by
    intro x l p
    cases x with
    | ok y =>
      show (l ++ [p]).foldlM F y = (l.foldlM F y).bind _
      rw [List.foldlM_append]
      show (l.foldlM F y).bind _ = _
      congr 1
      funext z
      show (F z p).bind _ = _
      cases F z p <;> rfl
    | error m => rfl
    | ub => rfl
  have hrows : ∀ m ≤ M, P m 0 ((sitePositions m N).foldlM F a) := by
    intro m hm
    induction m with
    | zero => exact h0
    | succ m ih =>
      have ih := ih (by omega)
      refine hrow m (by omega) _ ?_
      have hcols : ∀ n ≤ N, P m n (((sitePositions m N).foldlM F a).bind fun y =>
          ((List.range n).map fun j => (m, j)).foldlM F y) := by
        intro n hn
        induction n with
        | zero =>
          have : (((sitePositions m N).foldlM F a).bind fun y => ((List.range 0).map fun j => (m, j)).foldlM F y) =
              (sitePositions m N).foldlM F a := by
            cases (sitePositions m N).foldlM F a <;> rfl
          rw [this]
          exact ih
        | succ n ihn =>
          rw [List.range_succ, List.map_append, List.map_cons, List.map_nil, hp]
          exact hstep m (by omega) n (by omega) _ (ihn (by omega))
      have := hcols N le_rfl
      rw [← hb, ← List.foldlM_append] at this
      have e1 : sitePositions (m + 1) N = sitePositions m N ++ (List.range N).map fun j => (m, j) := by
        rw [sitePositions, List.range_succ, List.flatMap_append]
        simp [sitePositions]
      rw [e1]
      exact this
  exact hrows M le_rfl

/-- The whole vector. -/
theorem vectorAt_fold (he : NetEnvOk e) {M N d : ℕ} {h v : ℕ → ℕ → Option ℕ}
    {site : ℕ → ℕ → Tensor ν NoSymmetry α} (hs : SitesOn e.nm M N d site h v)
    (F : Tensor ν NoSymmetry α → ℕ × ℕ → Outcome (Tensor ν NoSymmetry α))
    (hF : ∀ i < M, ∀ j < N, ∃ t, (∀ w, F w (i, j) = addSite e w t i j) ∧
      SiteEdges e.nm t (h i j) (h i (j + 1)) (v i j) (v (i + 1) j) d ∧
      ∀ l r u b p, val t (netIndex e.nm l r u b p) = val (site i j) (netIndex e.nm l r u b p)) :
    VectorAt e N d h v site M 0 ((sitePositions M N).foldlM F oneTensor) := by
  refine foldlM_positions F oneTensor M N (fun i j x => VectorAt e N d h v site i j x) ?_ ?_ ?_
  · refine Or.inl ⟨oneTensor, 1, rfl, (net_one e.nm).change fun g => ?_, one_ne_zero, fun f => ?_⟩
    · cases g <;> simp [vectorLegs, hs.left, hs.top]
    · rw [gval, oneTensor_val, vectorVal, rowElim, topSum_zero, mul_one]
  · exact fun i _ x hx => vectorAt_row he hs hx
  · intro i hi j hj x hx
    obtain ⟨t, h1, h2, h3⟩ := hF i hi j hj
    simp only [h1]
    exact addSite_ok he hs hi hj hx h2 h3

/-- The amplitudes of the vector. -/
theorem vectorAt_end (he : NetEnvOk e) {M N d : ℕ} {h v : ℕ → ℕ → Option ℕ}
    {site : ℕ → ℕ → Tensor ν NoSymmetry α} (hs : SitesOn e.nm M N d site h v)
    {x : Outcome (Tensor ν NoSymmetry α)} (hx : VectorAt e N d h v site M 0 x) :
    (∃ w c, x = .ok w ∧ VectorOn M N d e.nm w ∧ c ≠ 0 ∧
      ∀ s : SpinConfig M N d, amplitude e.nm w s = c * sitesAmp e.nm h v site s) ∨
    (x = .error "division by zero" ∧ ∀ s : SpinConfig M N d, sitesAmp e.nm h v site s = 0) := by
  have hphys : ∀ a b : ℕ, netName e.nm (.at a b) = physName e.nm ((a : ℤ), (b : ℤ)) := fun _ _ => rfl
  have hconf : ∀ (s : SpinConfig M N d) (q : ℕ → ℕ), (∀ j, q j = 0) → ∀ r,
      sitesAmp e.nm h v site s = vectorVal e.nm N h v site M 0 fun g => match g with
        | .at i j => spinAt s i j
        | .column k => q k
        | _ => r := by
    intro s q hq r
    rw [sitesAmp, vectorVal, rowElim, netVal_top _ (fun j => by rw [hs.bottom]; rfl) q fun j _ => hq j]
  rcases hx with ⟨w, c, rfl, hw, hc, hval⟩ | ⟨rfl, h0⟩
  · refine Or.inl ⟨w, c, rfl, ⟨hw.dense, fun y => ?_, fun n hn => ?_⟩, hc, fun s => ?_⟩
    · have := hw.legs (.at y.1 y.2)
      rw [vectorLegs, if_pos ⟨y.2.2, Or.inl y.1.2⟩] at this
      exact this
    · obtain ⟨g, rfl⟩ := hw.only n hn
      have hg : vectorLegs N d h v M 0 g ≠ none := by rw [← hw.legs g]; exact hn
      cases g with
      | «at» a b =>
        simp only [vectorLegs, ne_eq, ite_eq_right_iff, reduceCtorEq, imp_false, not_not] at hg
        exact ⟨(⟨a, by omega⟩, ⟨b, hg.1⟩), rfl⟩
      | right => exact absurd (hs.left _) hg
      | column k => simp [vectorLegs, hs.bottom] at hg
      | _ => exact absurd rfl hg
    · rw [amplitude, val_eq_gval (netName_inj he.inj) hw, hconf s (fun _ => 0) (fun _ => rfl) 0, ← hval]
      refine gval_congr (netName_inj he.inj) hw fun g hg => ?_
      cases g with
      | «at» a b =>
        simp only [vectorLegs, ne_eq, ite_eq_right_iff, reduceCtorEq, imp_false, not_not] at hg
        have ha : a < M := by omega
        have := configIndex_site he.inj s (⟨a, ha⟩, ⟨b, hg.1⟩)
        show configIndex e.nm s (netName e.nm (.at a b)) = spinAt s a b
        rw [spinAt, dif_pos ⟨ha, hg.1⟩]
        exact this
      | right => exact absurd (hs.left _) hg
      | column k => simp [vectorLegs, hs.bottom] at hg
      | _ => exact absurd rfl hg
  · refine Or.inr ⟨rfl, fun s => ?_⟩
    rw [hconf s (fun _ => 0) (fun _ => rfl) 0, h0]

end TAT
