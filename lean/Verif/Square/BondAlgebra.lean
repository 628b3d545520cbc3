import Verif.Square.ConvLemmas
import Verif.Square.DenseCut

/-!
# An update of a bond in terms of labels
-/

namespace TAT

set_option linter.unusedSectionVars false

variable {ν α β : Type} [LinearOrder ν]

/-! ## Sums -/

/-- The matrices on both sides of a bond, taken apart and put together. -/
theorem bond_algebra [CommRing α] {Q Q' K m d : ℕ} {q q' : ℕ → α} {r r' u v : ℕ → ℕ → ℕ → α} {c : ℕ → α}
    {U : ℕ → ℕ → α} {s0 s1 : ℕ}
    (h : ∀ i j, ∑ k ∈ Finset.range K, u i k s0 * c k * v k j s1 =
      ∑ p0 ∈ Finset.range d, ∑ p1 ∈ Finset.range d,
        (∑ n ∈ Finset.range m, r i n p0 * r' n j p1) * U p0 p1) :
    ∑ k ∈ Finset.range K, (∑ i ∈ Finset.range Q, u i k s0 * q i) * c k *
        (∑ j ∈ Finset.range Q', v k j s1 * q' j) =
      ∑ p0 ∈ Finset.range d, ∑ p1 ∈ Finset.range d, U p0 p1 * ∑ n ∈ Finset.range m,
        (∑ i ∈ Finset.range Q, q i * r i n p0) * (∑ j ∈ Finset.range Q', q' j * r' n j p1) := by
  calc _ = ∑ i ∈ Finset.range Q, ∑ j ∈ Finset.range Q', q i * q' j *
        ∑ k ∈ Finset.range K, u i k s0 * c k * v k j s1 := by
        simp only [Finset.sum_mul, Finset.mul_sum]
        rw [Finset.sum_comm, Finset.sum_congr rfl fun j _ => Finset.sum_comm, Finset.sum_comm]
        refine Finset.sum_congr rfl fun i _ => Finset.sum_congr rfl fun j _ => Finset.sum_congr rfl fun k _ => ?_
        ring
    _ = ∑ i ∈ Finset.range Q, ∑ j ∈ Finset.range Q', ∑ p0 ∈ Finset.range d, ∑ p1 ∈ Finset.range d,
        q i * q' j * ((∑ n ∈ Finset.range m, r i n p0 * r' n j p1) * U p0 p1) := by
        simp only [h, Finset.mul_sum]
    _ = ∑ p0 ∈ Finset.range d, ∑ p1 ∈ Finset.range d, ∑ i ∈ Finset.range Q, ∑ j ∈ Finset.range Q',
        q i * q' j * ((∑ n ∈ Finset.range m, r i n p0 * r' n j p1) * U p0 p1) := by
        rw [Finset.sum_congr rfl fun i _ => Finset.sum_comm, Finset.sum_comm]
        refine Finset.sum_congr rfl fun p0 _ => ?_
        rw [Finset.sum_congr rfl fun i _ => Finset.sum_comm, Finset.sum_comm]
    _ = _ := by
        refine Finset.sum_congr rfl fun p0 _ => Finset.sum_congr rfl fun p1 _ => ?_
        simp only [Finset.sum_mul, Finset.mul_sum]
        rw [Finset.sum_congr rfl fun i _ => Finset.sum_comm, Finset.sum_comm]
        refine Finset.sum_congr rfl fun n _ => ?_
        rw [Finset.sum_comm]
        refine Finset.sum_congr rfl fun j _ => Finset.sum_congr rfl fun i _ => ?_
        ring

/-! ## Singular value decomposition -/

variable [Field α] [LinearOrder β] [Field β] {e : NetEnv ν α β}

/-- `svd` with a cut which is not reached: U and V, and the singular values; and with a cut which is reached: the
first ones of them. -/
theorem net_svd (he : NetEnvOk e) {t : Tensor ν NoSymmetry α} {T : NetLabel → Option ℕ}
    (ht : HasLegs (netName e.nm) t T) (set : List NetLabel) {commonU commonV : NetLabel}
    (hU : commonU ∈ set → T commonU = none) (hV : commonV ∉ set → T commonV = none) :
    ∃ u l v, (∀ D, Keeps l.length D → svd e.gesvd e.svdEnv e.svdJunk e.sn t (set.map (netName e.nm))
        (netName e.nm commonU) (netName e.nm commonV) D = .ok (u, [(0, l)], v)) ∧
      HasLegs (netName e.nm) u (fun g => if g = commonU then some l.length else if g ∈ set then T g else none) ∧
      HasLegs (netName e.nm) v (fun g => if g = commonV then some l.length else if g ∈ set then none else T g) ∧
      (∀ f, gval (netName e.nm) t f = ∑ k ∈ Finset.range l.length,
        gval (netName e.nm) u (Function.update f commonU k) * e.c (l.getD k 0) *
          gval (netName e.nm) v (Function.update f commonV k)) ∧
      ∀ D, D ≠ 0 → D ≠ 2 ^ 64 - 1 → D < l.length → ∃ u' v',
        svd e.gesvd e.svdEnv e.svdJunk e.sn t (set.map (netName e.nm)) (netName e.nm commonU) (netName e.nm commonV) D =
          .ok (u', [(0, l.take D)], v') ∧
        HasLegs (netName e.nm) u' (fun g => if g = commonU then some D else if g ∈ set then T g else none) ∧
        HasLegs (netName e.nm) v' (fun g => if g = commonV then some D else if g ∈ set then none else T g) ∧
        (∀ f, f commonU < D → gval (netName e.nm) u' f = gval (netName e.nm) u f) ∧
        ∀ f, f commonV < D → gval (netName e.nm) v' f = gval (netName e.nm) v f := by
  have hι := netName_inj he.inj
  have l : ∀ g, leg t (netName e.nm g) = T g := ht.legs
  have off : ∀ n, (∀ g, n ≠ netName e.nm g) → leg t n = none := fun n hn => by
    by_contra h
    obtain ⟨g, rfl⟩ := ht.only n h
    exact hn g rfl
  obtain ⟨u, S, v, w, K, e1, e2, e3, e4, e5, e6, e7, e8, e9, e10, L, rfl, rfl⟩ :=
    dense_svd_parts e.ce he.gemm he.names he.svd e.svdEnv e.svdJunk e.junk (fun x => x⁻¹) he.sn
    ht.dense (set.map (netName e.nm)) (commonU := netName e.nm commonU) (commonV := netName e.nm commonV)
    (he.u _) (he.v _)
    (fun h => by rw [l]; exact hU ((mem_map_label hι).1 h))
    (fun h => by rw [l]; exact hV fun h' => h ((mem_map_label hι).2 h'))
  obtain ⟨w', f1, f2, f3, f4⟩ := dense_multiple e.junk e.c (fun x => x⁻¹) e9 (n := netName e.nm commonU)
    (direction := 'u') (by simp [IsDirection]) false (S := L) (by rw [e10, e6, if_pos rfl])
  have : w' = w := by rw [e2] at f1; exact (Outcome.ok.inj f1).symm
  subst this
  have hu : HasLegs (netName e.nm) u
      (fun g => if g = commonU then some L.length else if g ∈ set then T g else none) := by
    refine ⟨e9, fun n hn => ?_, fun g => ?_⟩
    · by_contra h
      push Not at h
      rw [e10, e6, if_neg (h _), off n h, ite_self] at hn
      exact hn rfl
    · rw [gleg, e10, e6, l]
      exact if_congr hι.eq_iff rfl (if_congr (mem_map_label hι) rfl rfl)
  have hv : HasLegs (netName e.nm) v
      (fun g => if g = commonV then some L.length else if g ∈ set then none else T g) := by
    refine ⟨e4, fun n hn => ?_, fun g => ?_⟩
    · by_contra h
      push Not at h
      rw [e7, if_neg (h _), off n h, ite_self] at hn
      exact hn rfl
    · rw [gleg, e7, l]
      exact if_congr hι.eq_iff rfl (if_congr (mem_map_label hι) rfl rfl)
  refine ⟨u, L, v, fun D hD => ?_, hu, hv, fun f => ?_, fun D h0 h1 h2 => ?_⟩
  · rcases hD with hD | rfl
    · exact C35_large_cut _ _ _ t _ _ _ e1 (by rw [e5]; exact hD)
    · exact e1
  · rw [gval, e8]
    refine Finset.sum_congr rfl fun k _ => ?_
    rw [f4, Function.update_self, extend_update hι, extend_update hι]
    rfl
  · obtain ⟨u', v', c1, c2, c3⟩ := dense_svd_cut he.svd e.svdEnv e.svdJunk he.sn ht.dense (set.map (netName e.nm))
      (he.u _) (he.v _) (fun h => by rw [l]; exact hU ((mem_map_label hι).1 h))
      (fun h => by rw [l]; exact hV fun h' => h ((mem_map_label hι).2 h')) e1 e9 e4 h0 h1 h2
    have first : ∀ {g : NetLabel} {A B : Tensor ν NoSymmetry α} {TA : NetLabel → Option ℕ},
        HasLegs (netName e.nm) A TA → FirstOf (netName e.nm g) D B A → TA g ≠ none →
        HasLegs (netName e.nm) B (fun g' => if g' = g then some D else TA g') ∧
        ∀ f : NetLabel → ℕ, f g < D → gval (netName e.nm) B f = gval (netName e.nm) A f := by
      intro g A B TA hA hB hg
      refine ⟨⟨hB.dense, fun n hn => ?_, fun g' => ?_⟩, fun f hf => hB.vals _ ?_⟩
      · rw [hB.legs] at hn
        split at hn
        · next h => exact ⟨g, h⟩
        · exact hA.only n hn
      · rw [gleg, hB.legs]
        exact if_congr hι.eq_iff rfl (hA.legs g')
      · rw [hι.extend_apply]; exact hf
    obtain ⟨d1, d2⟩ := first hu c2 (by simp)
    obtain ⟨d3, d4⟩ := first hv c3 (by simp)
    refine ⟨u', v', c1, d1.change fun g => ?_, d3.change fun g => ?_, d2, d4⟩
    · split <;> rfl
    · split <;> rfl

theorem net_qr (he : NetEnvOk e) {t : Tensor ν NoSymmetry α} {T : NetLabel → Option ℕ}
    (ht : HasLegs (netName e.nm) t T) (set : List NetLabel) {commonQ commonR : NetLabel}
    (hQ : commonQ ∉ set → T commonQ = none) (hR : commonR ∈ set → T commonR = none) :
    ∃ q r K, qr e.lp e.qrEnv e.qrJunk e.qn t 'r' (set.map (netName e.nm)) (netName e.nm commonQ)
        (netName e.nm commonR) = .ok (q, r) ∧
      HasLegs (netName e.nm) q (fun g => if g = commonQ then some K else if g ∈ set then none else T g) ∧
      HasLegs (netName e.nm) r (fun g => if g = commonR then some K else if g ∈ set then T g else none) ∧
      ∀ f, gval (netName e.nm) t f = ∑ k ∈ Finset.range K,
        gval (netName e.nm) q (Function.update f commonQ k) * gval (netName e.nm) r (Function.update f commonR k) :=
  label_qr (netName_inj he.inj) e.ce he.gemm he.names he.qr e.qrEnv e.qrJunk he.qn he.x1 he.x2 ht set hQ hR

/-! ## Several environments -/

/-- The product of the singular values of some edges. -/
def weights (c : β → α) (l : List (NetLabel × Char × Option (SingularTable β))) (f : NetLabel → ℕ) : α :=
  (l.map fun x => envWeight c x.2.2 (f x.1)).prod

/-- The environments belong to edges of a tensor. -/
def EnvsFit (l : List (NetLabel × Char × Option (SingularTable β))) (T : NetLabel → Option ℕ) : Prop :=
  ∀ x ∈ l, IsDirection x.2.1 ∧ TableOn x.2.2 (T x.1)

/-- The calls as the code has them. -/
def envCalls (l : List (NetLabel × Char × Option (SingularTable β))) :
    List (String × Char × Option (SingularTable β)) := l.map fun x => (x.1.string, x.2.1, x.2.2)

theorem tryMultiples_ok (he : NetEnvOk e) {T : NetLabel → Option ℕ}
    (l : List (NetLabel × Char × Option (SingularTable β))) (hl : EnvsFit l T) {t : Tensor ν NoSymmetry α}
    (ht : HasLegs (netName e.nm) t T) :
    ∃ r, tryMultiples e false t (envCalls l) = .ok r ∧ HasLegs (netName e.nm) r T ∧
      ∀ f, gval (netName e.nm) r f = gval (netName e.nm) t f * weights e.c l f := by
  induction l generalizing t with
  | nil => exact ⟨t, rfl, ht, fun f => by simp [weights]⟩
  | cons x l ih =>
    obtain ⟨a, a1, a2, a3⟩ := tryMultiple_ok he ht x.1 (hl x (by simp)).1 (hl x (by simp)).2
    obtain ⟨b, b1, b2, b3⟩ := ih (fun y hy => hl y (by simp [hy])) a2
    refine ⟨b, ?_, b2, fun f => ?_⟩
    · rw [envCalls, List.map_cons, tryMultiples, a1]
      exact b1
    · rw [b3, a3, weights, weights, List.map_cons, List.prod_cons, mul_assoc]

theorem tryDivides_ok (he : NetEnvOk e) {T : NetLabel → Option ℕ}
    (l : List (NetLabel × Char × Option (SingularTable β))) (hl : EnvsFit l T) {t : Tensor ν NoSymmetry α}
    (ht : HasLegs (netName e.nm) t T) :
    (¬ (∀ x ∈ l, NoZero x.2.2) → tryMultiples e true t (envCalls l) = .error "division by zero") ∧
    ((∀ x ∈ l, NoZero x.2.2) → ∃ r, tryMultiples e true t (envCalls l) = .ok r ∧ HasLegs (netName e.nm) r T ∧
      ∀ f, gval (netName e.nm) t f = gval (netName e.nm) r f * weights e.c l f) := by
  induction l generalizing t with
  | nil => exact ⟨fun h => absurd (fun x hx => by simp at hx) h, fun _ => ⟨t, rfl, ht, fun f => by simp [weights]⟩⟩
  | cons x l ih =>
    obtain ⟨a1, a2⟩ := tryDivide_ok he ht x.1 (hl x (by simp)).1 (hl x (by simp)).2
    have hl' : EnvsFit l T := fun y hy => hl y (by simp [hy])
    by_cases hx : NoZero x.2.2
    · obtain ⟨r, r1, r2, r3⟩ := a2 hx
      obtain ⟨b1, b2⟩ := ih hl' r2
      refine ⟨fun h => ?_, fun h => ?_⟩
      · rw [envCalls, List.map_cons, tryMultiples, r1]
        refine b1 fun h' => h fun y hy => ?_
        rcases List.mem_cons.1 hy with rfl | hy
        · exact hx
        · exact h' y hy
      · obtain ⟨b, c1, c2, c3⟩ := b2 fun y hy => h y (by simp [hy])
        refine ⟨b, ?_, c2, fun f => ?_⟩
        · rw [envCalls, List.map_cons, tryMultiples, r1]
          exact c1
        · rw [r3, c3, weights, weights, List.map_cons, List.prod_cons]
          ring
    · refine ⟨fun _ => ?_, fun h => absurd (h x (by simp)) hx⟩
      rw [envCalls, List.map_cons, tryMultiples, a1 hx]
      rfl

/-- The weights do not vanish at indices of the tensor. -/
theorem weights_ne_zero (he : NetEnvOk e) {T : NetLabel → Option ℕ}
    (l : List (NetLabel × Char × Option (SingularTable β))) (hl : EnvsFit l T) (hz : ∀ x ∈ l, NoZero x.2.2)
    {f : NetLabel → ℕ} (hf : ∀ x ∈ l, ∀ n ∈ T x.1, f x.1 < n) : weights e.c l f ≠ 0 := by
  rw [weights]
  refine List.prod_ne_zero fun h => ?_
  obtain ⟨x, hx, h0⟩ := List.mem_map.1 h
  have h1 := (hl x hx).2
  have h2 := hz x hx
  have h3 := hf x hx
  cases hS : x.2.2 with
  | none =>
    rw [hS] at h0
    exact one_ne_zero h0
  | some S =>
    rw [hS] at h0 h1 h2
    obtain ⟨k, rfl, hk⟩ := h1 S rfl
    have h0 : e.c (((OMap.find? [((0 : NoSymmetry), k)] 0).getD []).getD (f x.1) 0) = 0 := h0
    have h0 : k.getD (f x.1) 0 = 0 := by simpa [OMap.find?, he.c_zero] using h0
    have hlt := h3 k.length hk
    rw [List.getD_eq_getElem _ _ hlt] at h0
    exact h2 [(0, k)] rfl (0, k) (by simp) _ (List.getElem_mem hlt) h0

theorem gval_outside {t : Tensor ν NoSymmetry α} {T : NetLabel → Option ℕ} (hnm : Function.Injective e.nm)
    (ht : HasLegs (netName e.nm) t T) {f : NetLabel → ℕ} {g : NetLabel} {n : ℕ} (hg : T g = some n)
    (hf : n ≤ f g) : gval (netName e.nm) t f = 0 := by
  have hl : leg t (netName e.nm g) = some n := by rw [← hg]; exact ht.legs g
  refine val_outside ht.dense.wf (n := netName e.nm g) (by rw [hl]; simp) ?_
  rw [(netName_inj hnm).extend_apply, legDim, hl]
  exact hf

end TAT
