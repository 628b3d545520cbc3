import Verif.Torus.Props

/-!
# C88 for all sizes, one site included
-/

namespace TAT.Torus

open TAT.Grid (IsSite sides GridEnvOk Lab labName labText_injective movedLegs moves gridLegs numbered positions)

set_option linter.unusedSectionVars false

variable {ν α β : Type} [LinearOrder ν] [Field α] [LinearOrder β] [Zero β] {e : AuxEnv ν α β} {L : ℕ}

theorem dense_block {t : Tensor ν NoSymmetry α} (h : Dense t) :
    ∃ k d, t.core.blocks = [(k, d)] ∧ d.length = (t.names.map (legDim t)).prod := by
  have hm : t.core.edges.map Edge.map = ((t.names.map (legDim t)).map plainEdge).map Edge.map := by
    rw [maps_named h.wf, List.map_map, List.map_map]
    exact List.map_congr_left fun n hn => h.map hn
  have hb := h.wf.blocks
  rw [hm, blockShapes_plain] at hb
  match hbl : t.core.blocks with
  | [] => rw [hbl] at hb; simp at hb
  | [(k, d)] =>
    rw [hbl] at hb
    simp only [List.map_cons, List.map_nil, List.cons.injEq, Prod.mk.injEq, and_true] at hb
    exact ⟨k, d, rfl, hb.2⟩
  | a :: b :: l => rw [hbl] at hb; simp at hb

/-- The conversion to a number needs one element, that is edges of dimension one only. -/
theorem dense_number_only {t : Tensor ν NoSymmetry α} (h : Dense t) :
    onlyElement t = if ∀ n ∈ t.names, legDim t n = 1 then .ok (val t fun _ => 0)
      else .error "Try to get the only element of the tensor which contains more than one element" := by
  obtain ⟨k, d, h1, h2⟩ := dense_block h
  have hp : (t.names.map (legDim t)).prod = 1 ↔ ∀ n ∈ t.names, legDim t n = 1 := by
    generalize t.names = l
    induction l with
    | nil => simp
    | cons n l ih => rw [List.map_cons, List.prod_cons, mul_eq_one, ih, List.forall_mem_cons]
  split
  · next hn =>
    rw [hp.2 hn] at h2
    match d, h2 with
    | [x], _ =>
      rw [onlyElement, h1]
      have hv := (dense_elems h (a := val t fun _ => 0)).2 ⟨fun _ => 0, fun n _ => h.pos n, rfl⟩
      rw [allElems, h1] at hv
      simp only [List.flatMap_cons, List.flatMap_nil, List.append_nil, List.mem_singleton] at hv
      rw [hv]
  · next hn =>
    have hd : d.length ≠ 1 := by
      rw [h2]
      exact fun h => hn (hp.1 h)
    rw [onlyElement, h1]
    match d, hd with
    | [], _ => rfl
    | a :: b :: l, _ => rfl

/-- **C88**: a lattice with one site.  Its edges do not meet, and the result is a number only if all edges have
dimension one. -/
theorem C88_one (he : GridEnvOk e sides) {site : ℕ → ℕ → Tensor ν NoSymmetry α} {h v : ℕ → ℕ → ℕ}
    (ht : IsTorus e.nm 1 site h v) :
    getExact e 1 site = if h 0 0 = 1 ∧ v 0 0 = 1 then .ok (torusValue e.nm 1 h v site)
      else .error "Try to get the only element of the tensor which contains more than one element" := by
  have hι : Function.Injective (labName e.nm) := he.inj.comp labText_injective
  have hs := ht.site 0 one_pos 0 one_pos
  rw [show h 0 (0 + 1) = h 0 0 from ht.row 0 one_pos, show v (0 + 1) 0 = v 0 0 from ht.column 0 one_pos] at hs
  obtain ⟨m1, m2⟩ := moved he 0 0 hs
  have hl : ∀ n, leg (oneTensor : Tensor ν NoSymmetry α) n = none := fun n => leg_eq_none.2 (by simp [oneTensor])
  have h1 : HasLegs (labName e.nm) (oneTensor : Tensor ν NoSymmetry α) fun _ => none :=
    ⟨(oneTensor_legs (e := e) sides).dense, fun n hn => absurd (hl n) hn, fun g => hl _⟩
  have hk := known_labs h1 m1 (allLabs 1 0 0)
  have hf : (allLabs 1 0 0).filter (fun c => ((none : Option ℕ)).isSome &&
      (movedLegs 0 0 (some (h 0 0)) (some (h 0 0)) (some (v 0 0)) (some (v 0 0)) c.2).isSome) = [] := by
    simp
  rw [hf] at hk
  obtain ⟨r, c1, c2, c3⟩ := label_contract hι e.ce he.gemm he.names h1 m1 [] (by simp) (by simp) (by simp)
    (fun _ _ _ => Or.inl rfl)
  have hr : getExact e 1 site = onlyElement r := by
    have : exactStep e 1 site oneTensor (0, 0) = .ok r := by
      rw [exactStep, AuxEnv.join, exactPairs_labs, C29_missing_ignored, hk]
      exact c1
    show (exactSteps e 1 site [(0, 0)] oneTensor).bind onlyElement = _
    rw [exactSteps, this]
    rfl
  have hlegs : ∀ g, leg r (labName e.nm g) = movedLegs 0 0 (some (h 0 0)) (some (h 0 0)) (some (v 0 0)) (some (v 0 0)) g :=
    fun g => (c2.legs g).trans (by simp [contractLegs])
  have hiff : (∀ n ∈ r.names, legDim r n = 1) ↔ h 0 0 = 1 ∧ v 0 0 = 1 := by
    constructor
    · intro hn
      have q : ∀ g d, leg r (labName e.nm g) = some d → d = 1 := fun g d hd => by
        have := hn _ (leg_ne_none.1 (by rw [hd]; simp))
        rwa [legDim, hd] at this
      exact ⟨q (.left, some 0) _ (hlegs _), q (.up, some 0) _ (hlegs _)⟩
    · rintro ⟨a, b⟩ n hn
      obtain ⟨⟨x, o⟩, rfl⟩ := c2.only n (leg_ne_none.2 hn)
      rw [legDim, hlegs, a, b]
      cases x <;> cases o <;> simp only [movedLegs, Option.getD_none] <;> split <;> rfl
  rw [hr, dense_number_only c2.dense]
  simp only [hiff]
  split
  · next hc =>
    congr 1
    have hg : val r (fun _ => 0) = gval (labName e.nm) r fun _ => 0 := val_eq_gval hι c2 _
    rw [hg, c3, sumPairs, m2, gval, oneTensor_val, one_mul, torusValue]
    have e1 : (Fintype.piFinset fun i : Fin 1 => Fintype.piFinset fun j : Fin 1 => Finset.range (h i j)) =
        {fun _ _ => 0} := by
      ext p
      simp only [Fintype.mem_piFinset, Finset.mem_range, Finset.mem_singleton]
      constructor
      · intro hp
        funext i j
        have := hp i j
        rw [Subsingleton.elim i 0, Subsingleton.elim j 0] at this ⊢
        change p 0 0 < h 0 0 at this
        omega
      · rintro rfl i j
        rw [Subsingleton.elim i 0, Subsingleton.elim j 0]
        change 0 < h 0 0
        omega
    have e2 : (Fintype.piFinset fun i : Fin 1 => Fintype.piFinset fun j : Fin 1 => Finset.range (v i j)) =
        {fun _ _ => 0} := by
      ext p
      simp only [Fintype.mem_piFinset, Finset.mem_range, Finset.mem_singleton]
      constructor
      · intro hp
        funext i j
        have := hp i j
        rw [Subsingleton.elim i 0, Subsingleton.elim j 0] at this ⊢
        change p 0 0 < v 0 0 at this
        omega
      · rintro rfl i j
        rw [Subsingleton.elim i 0, Subsingleton.elim j 0]
        change 0 < v 0 0
        omega
    rw [e1, e2, Finset.sum_singleton, Finset.sum_singleton]
    simp
  · rfl

/-- **C88**: what `get_exact` gives for all sizes. -/
theorem C88_exact (he : GridEnvOk e sides) {site : ℕ → ℕ → Tensor ν NoSymmetry α} {h v : ℕ → ℕ → ℕ}
    (ht : IsTorus e.nm L site h v) :
    getExact e L site = if L = 1 ∧ ¬ (h 0 0 = 1 ∧ v 0 0 = 1) then
        .error "Try to get the only element of the tensor which contains more than one element"
      else .ok (torusValue e.nm L h v site) := by
  by_cases hL : L = 1
  · subst hL
    rw [C88_one he ht]
    by_cases hc : h 0 0 = 1 ∧ v 0 0 = 1
    · rw [if_pos hc, if_neg (fun h => h.2 hc)]
    · rw [if_neg hc, if_pos ⟨rfl, hc⟩]
  · rw [if_neg (fun h => hL h.1), C88_exact_partial he hL ht]

end TAT.Torus
