import Verif.Diag.Apply
import Verif.Square.AuxCalls
import Mathlib.Algebra.Order.Field.Basic
import Mathlib.Order.Bounds.Basic
import Mathlib.Logic.Function.Iterate
import Mathlib.Tactic.Ring

/-!
# Lemmas for `examples/diag.cpp`
-/

namespace TAT.Diag

set_option linter.unusedSectionVars false

open Mps

variable {ν α β : Type} [LinearOrder ν] [Field α] [LinearOrder β] [Field β] {e : NetEnv ν α β} {n : ℕ} {nm : String → ν}

/-! ## states -/

theorem IsState.leg_eq {t r : Tensor ν NoSymmetry α} (ht : IsState nm n t) (hr : IsState nm n r) (m : ν) :
    leg r m = leg t m := by
  by_cases h : ∃ k : Fin n, m = nm (toString k.val)
  · obtain ⟨k, rfl⟩ := h
    rw [ht.site, hr.site]
  · have h1 : leg t m = none := by
      by_contra hn
      exact h (ht.only m hn)
    have h2 : leg r m = none := by
      by_contra hn
      exact h (hr.only m hn)
    rw [h1, h2]

theorem IsState.of_leg {t r : Tensor ν NoSymmetry α} (ht : IsState nm n t) (hr : Dense r) (hl : ∀ m, leg r m = leg t m) :
    IsState nm n r :=
  ⟨hr, fun k => by rw [hl, ht.site], fun m hm => ht.only m (by rwa [hl] at hm)⟩

/-- The stored elements are the amplitudes. -/
theorem IsState.elems (hi : Function.Injective nm) {t : Tensor ν NoSymmetry α} (ht : IsState nm n t) {a : α} :
    a ∈ allElems t ↔ ∃ s : Spins n, ampOf nm t s = a := by
  rw [dense_elems ht.dense]
  constructor
  · rintro ⟨x, hx, rfl⟩
    have hb : ∀ k : Fin n, x (nm (toString k.val)) < 2 := fun k => by
      have := hx (nm (toString k.val)) (by rw [ht.site]; simp)
      rwa [legDim, ht.site] at this
    refine ⟨fun k => ⟨x (nm (toString k.val)), hb k⟩, val_congr fun m hm => ?_⟩
    obtain ⟨k, rfl⟩ := ht.only m hm
    rw [spinsAt_site hi]
  · rintro ⟨s, rfl⟩
    refine ⟨spinsAt nm s, fun m hm => ?_, rfl⟩
    obtain ⟨k, rfl⟩ := ht.only m hm
    rw [spinsAt_site hi, legDim, ht.site]
    exact (s k).isLt

/-- `norm<-1>` is the largest modulus of the amplitudes. -/
theorem normMax_greatest (he : DiagEnvOk e) {t : Tensor ν NoSymmetry α} (ht : IsState e.nm n t) :
    IsGreatest (Set.range fun s : Spins n => e.abs (ampOf e.nm t s)) (normMax e.abs t) := by
  obtain ⟨h1, h2, h3⟩ := C48_max e.abs t
  refine ⟨?_, ?_⟩
  · rcases h3 with h3 | ⟨x, hx, h3⟩
    · refine ⟨fun _ => 0, ?_⟩
      have := h1 _ ((ht.elems he.inj).2 ⟨fun _ => 0, rfl⟩)
      rw [h3] at this ⊢
      exact le_antisymm this (he.abs_nonneg _)
    · obtain ⟨s, rfl⟩ := (ht.elems he.inj).1 hx
      exact ⟨s, h3.symm⟩
  · rintro _ ⟨s, rfl⟩
    exact h1 _ ((ht.elems he.inj).2 ⟨s, rfl⟩)

theorem mapped_state {t : Tensor ν NoSymmetry α} (ht : IsState nm n t) {f : α → α}
    (hf : f 0 = 0) : IsState nm n (transform f t) ∧ ∀ s : Spins n, ampOf nm (transform f t) s = f (ampOf nm t s) := by
  obtain ⟨h1, h2, h3⟩ := dense_number ht.dense hf
  exact ⟨ht.of_leg h1 h2, fun s => h3 _⟩

/-- `state / state.norm<-1>()` -/
theorem normalised_state [IsStrictOrderedRing β] (he : DiagEnvOk e) {t : Tensor ν NoSymmetry α} (ht : IsState e.nm n t) :
    ((∀ s : Spins n, ampOf e.nm t s = 0) ∧ normalised e t = .error "division by zero") ∨
    ∃ t' c, normalised e t = .ok t' ∧ IsState e.nm n t' ∧ c ≠ 0 ∧
      (∀ s : Spins n, ampOf e.nm t' s = c * ampOf e.nm t s) ∧
      IsGreatest (Set.range fun s : Spins n => e.abs (ampOf e.nm t' s)) 1 := by
  have hg := normMax_greatest he ht
  obtain ⟨h1, h2, h3⟩ := C48_max e.abs t
  by_cases hz : normMax e.abs t = 0
  · refine Or.inl ⟨fun s => ?_, by rw [normalised, if_pos hz]⟩
    have := hg.2 ⟨s, rfl⟩
    rw [hz] at this
    exact (he.abs_zero _).1 (le_antisymm this (he.abs_nonneg _))
  · right
    have hc : e.c (normMax e.abs t) ≠ 0 := fun h => by
      have := he.abs_c _ h2
      rw [h, (he.abs_zero 0).2 rfl] at this
      exact hz this.symm
    obtain ⟨k1, k2⟩ := mapped_state ht (f := fun x => x / e.c (normMax e.abs t)) (zero_div _)
    have k3 : ∀ s : Spins n, ampOf e.nm (transform (fun x => x / e.c (normMax e.abs t)) t) s =
        (e.c (normMax e.abs t))⁻¹ * ampOf e.nm t s := fun s => by rw [k2, div_eq_mul_inv, mul_comm]
    have hpos : 0 < normMax e.abs t := lt_of_le_of_ne h2 (Ne.symm hz)
    have h1' : e.abs 1 = 1 := by
      have h := he.abs_mul 1 1
      rw [mul_one] at h
      have hne : e.abs 1 ≠ 0 := fun h => one_ne_zero ((he.abs_zero 1).1 h)
      exact (mul_right_cancel₀ hne (by rw [one_mul]; exact h)).symm
    have hinv : e.abs (e.c (normMax e.abs t))⁻¹ = (normMax e.abs t)⁻¹ := by
      have h := he.abs_mul (e.c (normMax e.abs t)) (e.c (normMax e.abs t))⁻¹
      rw [mul_inv_cancel₀ hc, h1', he.abs_c _ h2] at h
      exact eq_inv_of_mul_eq_one_right h.symm
    refine ⟨_, _, by rw [normalised, if_neg hz]; rfl, k1, inv_ne_zero hc, k3, ?_, ?_⟩
    · obtain ⟨s, hs⟩ := hg.1
      have hs : e.abs (ampOf e.nm t s) = normMax e.abs t := hs
      refine ⟨s, ?_⟩
      show e.abs _ = 1
      rw [k3, he.abs_mul, hs, hinv, inv_mul_cancel₀ hz]
    · rintro _ ⟨s, rfl⟩
      show e.abs _ ≤ 1
      rw [k3, he.abs_mul, hinv, inv_mul_le_one₀ hpos]
      exact hg.2 ⟨s, rfl⟩

/-! ## linearity -/

theorem applyTo_smul (h : ℕ → ℕ → ℕ → ℕ → α) (c : α) (ψ : Spins n → α) (l : Link n) :
    applyTo h (fun s => c * ψ s) l = fun s => c * applyTo h ψ l s := by
  funext s
  simp only [applyTo, Finset.mul_sum, mul_assoc]

theorem applyAll_smul (h : ℕ → ℕ → ℕ → ℕ → α) (c : α) (ls : List (Link n)) (ψ : Spins n → α) :
    applyAll h ls (fun s => c * ψ s) = fun s => c * applyAll h ls ψ s := by
  induction ls generalizing ψ with
  | nil => rfl
  | cons l ls ih =>
    rw [applyAll, List.foldl_cons, applyTo_smul]
    exact ih _

theorem iterate_smul (h : ℕ → ℕ → ℕ → ℕ → α) (c : α) (ls : List (Link n)) (N : ℕ) (ψ : Spins n → α) :
    (applyAll h ls)^[N] (fun s => c * ψ s) = fun s => c * (applyAll h ls)^[N] ψ s := by
  induction N generalizing ψ with
  | zero => rfl
  | succ N ih =>
    rw [Function.iterate_succ_apply, applyAll_smul, ih, Function.iterate_succ_apply]

theorem applyTo_zero (h : ℕ → ℕ → ℕ → ℕ → α) {ψ : Spins n → α} (hψ : ∀ s, ψ s = 0) (l : Link n) (s : Spins n) :
    applyTo h ψ l s = 0 := by
  simp [applyTo, hψ]

theorem applyAll_zero (h : ℕ → ℕ → ℕ → ℕ → α) (ls : List (Link n)) {ψ : Spins n → α} (hψ : ∀ s, ψ s = 0) (s : Spins n) :
    applyAll h ls ψ s = 0 := by
  induction ls generalizing ψ with
  | nil => exact hψ s
  | cons l ls ih => exact ih (applyTo_zero h hψ l)

theorem iterate_zero (h : ℕ → ℕ → ℕ → ℕ → α) (ls : List (Link n)) (N : ℕ) {ψ : Spins n → α} (hψ : ∀ s, ψ s = 0)
    (s : Spins n) : (applyAll h ls)^[N] ψ s = 0 := by
  induction N generalizing ψ with
  | zero => exact hψ s
  | succ N ih => exact ih (applyAll_zero h ls hψ)

theorem applyTo_congr {h h' : ℕ → ℕ → ℕ → ℕ → α}
    (hh : ∀ x y a b, x < 2 → y < 2 → a < 2 → b < 2 → h x y a b = h' x y a b) :
    applyTo (n := n) h = applyTo h' := by
  funext ψ l s
  refine Finset.sum_congr rfl fun a _ => Finset.sum_congr rfl fun b _ => ?_
  rw [hh _ _ _ _ a.isLt b.isLt (s l.1).isLt (s l.2).isLt]

/-! ## updates -/

theorem updateLinks_ok [IsStrictOrderedRing β] (he : DiagEnvOk e) {op : Tensor ν NoSymmetry α}
    (ho : IsOperator e.nm 2 op) (ls : List (Link n)) (hl : ∀ l ∈ ls, l.1 ≠ l.2) {t : Tensor ν NoSymmetry α}
    (ht : IsState e.nm n t) :
    (ls ≠ [] ∧ (∀ s, applyAll (operatorVal e.nm op) ls (ampOf e.nm t) s = 0) ∧
      updateLinks e op (codeLinks ls) t = .error "division by zero") ∨
    ∃ t' c, updateLinks e op (codeLinks ls) t = .ok t' ∧ IsState e.nm n t' ∧ c ≠ 0 ∧
      (∀ s, ampOf e.nm t' s = c * applyAll (operatorVal e.nm op) ls (ampOf e.nm t) s) ∧
      (ls ≠ [] → IsGreatest (Set.range fun s : Spins n => e.abs (ampOf e.nm t' s)) 1) := by
  induction ls generalizing t with
  | nil => exact Or.inr ⟨t, 1, rfl, ht, one_ne_zero, fun s => (one_mul _).symm, fun h => absurd rfl h⟩
  | cons l ls ih =>
    obtain ⟨a, a1, a2, a3⟩ := apply_ok he ho ht (hl l (by simp))
    have hrun : updateLinks e op (codeLinks (l :: ls)) t =
        (normalised e a).bind fun t => updateLinks e op (codeLinks ls) t := by
      rw [codeLinks, List.map_cons, updateLinks, a1, Outcome.bind]
      rfl
    have hamp : (ampOf e.nm a : Spins n → α) = applyTo (operatorVal e.nm op) (ampOf e.nm t) l := funext a3
    have hall : applyAll (operatorVal e.nm op) (l :: ls) (ampOf e.nm t) =
        applyAll (operatorVal e.nm op) ls (ampOf e.nm a : Spins n → α) := by rw [hamp]; rfl
    rcases normalised_state he a2 with ⟨b1, b2⟩ | ⟨b, c, b1, b2, b3, b4, b5⟩
    · refine Or.inl ⟨by simp, fun s => ?_, by rw [hrun, b2, Outcome.bind]⟩
      rw [hall]
      exact applyAll_zero _ ls b1 s
    · have hb : (ampOf e.nm b : Spins n → α) = fun s => c * ampOf e.nm a s := funext b4
      rcases ih (fun l h => hl l (by simp [h])) b2 with ⟨-, d1, d2⟩ | ⟨d, c', d1, d2, d3, d4, d5⟩
      · refine Or.inl ⟨by simp, fun s => ?_, by rw [hrun, b1, Outcome.bind, d2]⟩
        have := d1 s
        rw [hb, applyAll_smul] at this
        rw [hall]
        exact (mul_eq_zero.1 this).resolve_left b3
      · refine Or.inr ⟨d, c' * c, by rw [hrun, b1, Outcome.bind, d1], d2, mul_ne_zero d3 b3, fun s => ?_, fun _ => ?_⟩
        · rw [d4, hb, applyAll_smul, hall, mul_assoc]
        · by_cases h : ls = []
          · subst h
            have : d = b := by
              have : Outcome.ok b = Outcome.ok d := d1
              injection this with this
              exact this.symm
            rw [this]
            exact b5
          · exact d5 h

theorem updateSteps_ok [IsStrictOrderedRing β] (he : DiagEnvOk e) {op : Tensor ν NoSymmetry α}
    (ho : IsOperator e.nm 2 op) {ls : List (Link n)} (hl : ∀ l ∈ ls, l.1 ≠ l.2) (N : ℕ) {t : Tensor ν NoSymmetry α}
    (ht : IsState e.nm n t) :
    (ls ≠ [] ∧ N ≠ 0 ∧ (∀ s, (applyAll (operatorVal e.nm op) ls)^[N] (ampOf e.nm t) s = 0) ∧
      updateSteps e op (codeLinks ls) N t = .error "division by zero") ∨
    ∃ t' c, updateSteps e op (codeLinks ls) N t = .ok t' ∧ IsState e.nm n t' ∧ c ≠ 0 ∧
      (∀ s, ampOf e.nm t' s = c * (applyAll (operatorVal e.nm op) ls)^[N] (ampOf e.nm t) s) ∧
      (ls ≠ [] → N ≠ 0 → IsGreatest (Set.range fun s : Spins n => e.abs (ampOf e.nm t' s)) 1) := by
  induction N generalizing t with
  | zero => exact Or.inr ⟨t, 1, rfl, ht, one_ne_zero, fun s => (one_mul _).symm, fun _ h => absurd rfl h⟩
  | succ N ih =>
    have hrun : updateSteps e op (codeLinks ls) (N + 1) t =
        (updateLinks e op (codeLinks ls) t).bind fun t => updateSteps e op (codeLinks ls) N t := rfl
    rcases updateLinks_ok he ho ls hl ht with ⟨b0, b1, b2⟩ | ⟨b, c, b1, b2, b3, b4, b5⟩
    · refine Or.inl ⟨b0, by simp, fun s => ?_, by rw [hrun, b2, Outcome.bind]⟩
      rw [Function.iterate_succ_apply]
      exact iterate_zero _ ls N b1 s
    · have hb : (ampOf e.nm b : Spins n → α) = fun s => c * applyAll (operatorVal e.nm op) ls (ampOf e.nm t) s :=
        funext b4
      rcases ih b2 with ⟨d0, -, d1, d2⟩ | ⟨d, c', d1, d2, d3, d4, d5⟩
      · refine Or.inl ⟨d0, by simp, fun s => ?_, by rw [hrun, b1, Outcome.bind, d2]⟩
        have := d1 s
        rw [hb, iterate_smul] at this
        exact (mul_eq_zero.1 this).resolve_left b3
      · refine Or.inr ⟨d, c' * c, by rw [hrun, b1, Outcome.bind, d1], d2, mul_ne_zero d3 b3, fun s => ?_, fun h _ => ?_⟩
        · rw [d4, hb, iterate_smul, Function.iterate_succ_apply, mul_assoc]
        · cases N with
          | zero =>
            have : d = b := by
              have : Outcome.ok b = Outcome.ok d := d1
              injection this with this
              exact this.symm
            rw [this]
            exact b5 h
          | succ N => exact d5 h (by simp)

/-! ## the energy -/

theorem sumNames_spins (hi : Function.Injective nm) {dims : ν → ℕ} (hd : ∀ k : Fin n, dims (nm (toString k.val)) = 2)
    {F : (ν → ℕ) → α} {G : Spins n → α} (xs : List (Fin n)) (hx : xs.Nodup) (z : ν → ℕ) (s : Spins n)
    (hF : ∀ z' s', (∀ x ∈ xs, z' (nm (toString x.val)) = (s' x).val) → (∀ x, x ∉ xs → s' x = s x) →
      (∀ m, (∀ x ∈ xs, m ≠ nm (toString x.val)) → z' m = z m) → F z' = G s') :
    sumNames dims F (xs.map fun x => nm (toString x.val)) z =
      ∑ s', if ∀ x, x ∉ xs → s' x = s x then G s' else 0 := by
  induction xs generalizing z s with
  | nil =>
    rw [List.map_nil, sumNames, hF z s (by simp) (fun _ _ => rfl) (fun _ _ => rfl), Finset.sum_eq_single s]
    · rw [if_pos fun _ _ => rfl]
    · intro s' _ hs
      rw [if_neg]
      intro h
      exact hs (funext fun x => h x (by simp))
    · intro h
      exact absurd (Finset.mem_univ _) h
  | cons x xs ih =>
    rw [List.nodup_cons] at hx
    rw [List.map_cons, sumNames, hd, Finset.sum_range]
    have step : ∀ k : Fin 2, sumNames dims F (xs.map fun x => nm (toString x.val))
        (Function.update z (nm (toString x.val)) k.val) =
        ∑ s', if ∀ y, y ∉ xs → s' y = Function.update s x k y then G s' else 0 := by
      intro k
      refine ih hx.2 _ _ fun z' s' h1 h2 h3 => hF z' s' ?_ ?_ ?_
      · intro y hy
        rcases List.mem_cons.1 hy with rfl | hy
        · rw [h3 _ fun y' hy' h => hx.1 (by rw [siteName_inj hi h]; exact hy'), Function.update_self,
            h2 _ hx.1, Function.update_self]
        · exact h1 y hy
      · intro y hy
        rw [List.mem_cons, not_or] at hy
        rw [h2 y hy.2, Function.update_of_ne hy.1]
      · intro m hm
        rw [h3 m fun y hy => hm y (List.mem_cons_of_mem _ hy), Function.update_of_ne (hm x (by simp))]
    rw [Finset.sum_congr rfl fun k _ => step k, Finset.sum_comm]
    refine Finset.sum_congr rfl fun s' _ => ?_
    rw [Finset.sum_eq_single (s' x)]
    · congr 1
      apply propext
      constructor
      · intro h y hy
        rw [List.mem_cons, not_or] at hy
        rw [h y hy.2, Function.update_of_ne hy.1]
      · intro h y hy
        by_cases e : y = x
        · rw [e, Function.update_self]
        · rw [Function.update_of_ne e, h y (by simp [e, hy])]
    · intro k _ hk
      rw [if_neg]
      intro h
      have := h x hx.1
      rw [Function.update_self] at this
      exact hk this.symm
    · intro h
      exact absurd (Finset.mem_univ _) h

/-- `state.contract_all_edge(other)` -/
theorem product_ok (he : DiagEnvOk e) {t r : Tensor ν NoSymmetry α} (ht : IsState e.nm n t) (hr : IsState e.nm n r) :
    ∃ x, contractAllEdge e.ce e.cn t r = .ok x ∧
      onlyElement x = .ok (product (ampOf e.nm t : Spins n → α) (ampOf e.nm r)) := by
  obtain ⟨x, x1, x2, x3, x4⟩ := dense_all e.ce he.gemm he.names ht.dense hr.dense
    (ns := (List.finRange n).map fun k => e.nm (toString k.val))
    ((List.nodup_finRange n).map fun a b h => siteName_inj he.inj h) (fun m => by
      rw [ht.leg_eq hr, and_self, List.mem_map]
      constructor
      · rintro ⟨k, -, rfl⟩
        rw [ht.site]
        simp
      · intro h
        obtain ⟨k, rfl⟩ := ht.only m h
        exact ⟨k, List.mem_finRange k, rfl⟩) (fun m _ => (ht.leg_eq hr m).symm)
  refine ⟨x, x1, ?_⟩
  have hnone : ∀ m, leg x m = none := fun m => by
    rw [x3]
    split
    · rfl
    · next h =>
      have : leg t m = none := by
        by_contra hn
        obtain ⟨k, rfl⟩ := ht.only m hn
        exact h (List.mem_map.2 ⟨k, List.mem_finRange k, rfl⟩)
      rw [ht.leg_eq hr, this]
      rfl
  rw [only_ok (ι := fun _ => e.nm "") ⟨x2, fun m hm => absurd (hnone m) hm, fun g => hnone _⟩ fun _ => 0, gval, x4,
    sumNames_spins he.inj (G := fun s => ampOf e.nm t s * ampOf e.nm r s)
    (fun k => by rw [legDim, ht.site]; rfl) _ (List.nodup_finRange n) _ (fun _ => 0)]
  · rw [product]
    congr 1
    refine Finset.sum_congr rfl fun s _ => if_pos fun k hk => absurd (List.mem_finRange k) hk
  · intro z s h1 _ _
    congr 1
    · refine val_congr fun m hm => ?_
      obtain ⟨k, rfl⟩ := ht.only m hm
      rw [h1 k (List.mem_finRange k), spinsAt_site he.inj]
    · refine val_congr fun m hm => ?_
      obtain ⟨k, rfl⟩ := hr.only m hm
      rw [h1 k (List.mem_finRange k), spinsAt_site he.inj]

theorem sumLinks_ok (he : DiagEnvOk e) (env : Env NoSymmetry α) {op t : Tensor ν NoSymmetry α}
    (ho : IsOperator e.nm 2 op) (ht : IsState e.nm n t) (ls : List (Link n)) (hl : ∀ l ∈ ls, l.1 ≠ l.2)
    {acc : Tensor ν NoSymmetry α} (ha : IsState e.nm n acc) :
    ∃ r, sumLinks e env op t (codeLinks ls) acc = .ok r ∧ IsState e.nm n r ∧
      ∀ s, ampOf e.nm r s = ampOf e.nm acc s + sumOver (operatorVal e.nm op) ls (ampOf e.nm t) s := by
  induction ls generalizing acc with
  | nil => exact ⟨acc, rfl, ha, fun s => (add_zero _).symm⟩
  | cons l ls ih =>
    obtain ⟨a, a1, a2, a3⟩ := apply_ok he ho ht (hl l (by simp))
    obtain ⟨b, b1, b2, b3, b4⟩ := dense_inplace env (op := fun x y => x + y) (add_zero _) ha.dense a2.dense
      (ha.leg_eq a2)
    obtain ⟨r, r1, r2, r3⟩ := ih (fun l h => hl l (by simp [h])) (ha.of_leg b2 b3)
    refine ⟨r, ?_, r2, fun s => ?_⟩
    · rw [codeLinks, List.map_cons, sumLinks, a1, Outcome.bind, b1, Outcome.bind]
      exact r1
    · rw [r3, ampOf, b4]
      show ampOf e.nm acc s + ampOf e.nm a s + _ = _
      rw [a3, add_assoc]
      rfl

end TAT.Diag
