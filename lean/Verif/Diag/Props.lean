import Verif.Diag.Lemmas
import Verif.Mps.UpdateProps

/-!
# C87: the example with one tensor for all sites
-/

namespace TAT.Diag

set_option linter.unusedSectionVars false

open Mps

variable {ν α β : Type} [LinearOrder ν] [Field α] [LinearOrder β] [Field β] {e : NetEnv ν α β} {n : ℕ}

/-- **C87**: `create_vector` and `set_state` give a state whose amplitudes are the numbers of the generator, in the
order of the configurations, for any number of sites. -/
theorem C87_new {S : Type} (hi : Function.Injective e.nm) (gen : S → α × S) (s : S) (n : ℕ) :
    ∃ t, newState e gen s n = .ok t ∧ IsState e.nm n t ∧ allElems t = outputs gen s (2 ^ n) := by
  have hn : ((List.range n).map fun i => e.nm (toString i)).Nodup := by
    refine List.nodup_range.map fun a b h => ?_
    have := labText_injective (show labText (.site a) = labText (.site b) from hi h)
    simpa using this
  obtain ⟨t, t1, t2, t3, t4, t5⟩ := dense_set e.junk gen s (dims := List.replicate n 2) hn (by simp)
    (fun d hd => by rw [List.eq_of_mem_replicate hd]; decide)
  have hmap : ((List.range n).map fun _ => (⟨false, [(0, 2)]⟩ : Edge NoSymmetry)) =
      (List.replicate n 2).map plainEdge := by
    rw [List.map_replicate, List.map_const', List.length_range]
    rfl
  refine ⟨_, by rw [newState, createVector, hmap, t1, Outcome.bind], ⟨t2, fun k => ?_, fun m hm => ?_⟩, ?_⟩
  · have := t4 k.val (by simp)
    simpa using this
  · rw [leg_ne_none, t3] at hm
    obtain ⟨i, hi, rfl⟩ := List.mem_map.1 hm
    exact ⟨⟨i, List.mem_range.1 hi⟩, rfl⟩
  · rw [t5, List.prod_replicate]

/-- **C87**: the first call of `set_h` gives the operator in the list. -/
theorem C87_set_h (hi : Function.Injective e.nm) {h : List α} (hh : h.length = 16) :
    ∃ ham, setH e h 0 = .ok ham ∧ IsOperator e.nm 2 ham ∧ ∀ x y a b, x < 2 → y < 2 → a < 2 → b < 2 →
      operatorVal e.nm ham x y a b = listed h x y a b := by
  obtain ⟨f1, f2⟩ := filled_operator hi hh
  exact ⟨_, filled_ok hi hh, f1, f2⟩

/-- **C87**: the counter of `set_h` is not set to zero again.  A second call, on this object or another one, reads
after the end of the list. -/
theorem C87_second (hi : Function.Injective e.nm) {h : List α} (hh : h.length = 16) : setH e h 16 = .ub := by
  have key := mkTensor_eq e.junk [e.nm "I0", e.nm "I1", e.nm "O0", e.nm "O1"]
    ([2, 2, 2, 2].map plainEdge) false (fun e h => by
      obtain ⟨d, -, rfl⟩ := List.mem_map.1 h
      exact List.pairwise_singleton _ _) rfl (filled_names hi)
  rw [show arrowed ([2, 2, 2, 2].map plainEdge) false = [2, 2, 2, 2].map plainEdge from rfl, prunedEdges_plain,
    freshBlocks, blockShapes_plain] at key
  have key' : mkTensor e.junk [e.nm "I0", e.nm "I1", e.nm "O0", e.nm "O1"]
    [⟨false, [(0, 2)]⟩, ⟨false, [(0, 2)]⟩, ⟨false, [(0, 2)]⟩, ⟨false, [(0, 2)]⟩] =
      .ok ⟨[e.nm "I0", e.nm "I1", e.nm "O0", e.nm "O1"],
      [plainEdge 2, plainEdge 2, plainEdge 2, plainEdge 2],
      [([0, 0, 0, 0], (List.range 16).map (e.junk [0, 0, 0, 0]))]⟩ := key
  rw [setH, mpsFilled, key', Outcome.bind, if_neg]
  rw [hh]
  show ¬ 32 ≤ 16
  omega

/-- **C87**: an operator applied to two different sites. -/
theorem C87_apply (he : DiagEnvOk e) {op t : Tensor ν NoSymmetry α} (ho : IsOperator e.nm 2 op)
    (ht : IsState e.nm n t) {l : Link n} (hl : l.1 ≠ l.2) :
    ∃ t', applyLink e op t (l.1.val, l.2.val) = .ok t' ∧ IsState e.nm n t' ∧
      ∀ s : Spins n, ampOf e.nm t' s = applyTo (operatorVal e.nm op) (ampOf e.nm t) l s :=
  apply_ok he ho ht hl

/-- **C87**: `update` applies `1 - δ h` to all links, one after the other, `N` times.  The result has a factor, with
which the largest modulus is one, and amplitudes which are small are then zero.  If a state on the way is zero, so is
the last one, and there is a division by zero. -/
theorem C87_update [IsStrictOrderedRing β] (he : DiagEnvOk e) (env : Env NoSymmetry α) (tiny : β) {h : List α}
    (hh : h.length = 16) {ls : List (Link n)} (hl : ∀ l ∈ ls, l.1 ≠ l.2) (δ : α) (N : ℕ)
    {t : Tensor ν NoSymmetry α} (ht : IsState e.nm n t) :
    ∃ ham, setH e h 0 = .ok ham ∧
    let target := (applyAll (updaterOf δ h) ls)^[N] (ampOf e.nm t : Spins n → α)
    ((ls ≠ [] ∧ N ≠ 0 ∧ (∀ s, target s = 0) ∧
      update e env tiny ham (codeLinks ls) δ N t = .error "division by zero") ∨
    ∃ t' c, update e env tiny ham (codeLinks ls) δ N t = .ok t' ∧ IsState e.nm n t' ∧ c ≠ 0 ∧
      (∀ s : Spins n, ampOf e.nm t' s = if tiny < e.abs (c * target s) then c * target s else 0) ∧
      (ls ≠ [] → N ≠ 0 → IsGreatest (Set.range fun s => e.abs (c * target s)) 1)) := by
  obtain ⟨ham, op, h1, h2, h3, h4, h5⟩ := updater_ok he.inj env hh δ
  refine ⟨ham, h1, ?_⟩
  have hop : applyTo (n := n) (operatorVal e.nm op) = applyTo (updaterOf δ h) :=
    applyTo_congr fun x y a b hx hy ha hb => (h5 x y a b hx hy ha hb).2
  have hall : applyAll (operatorVal e.nm op) ls = applyAll (updaterOf δ h) ls := by
    funext ψ
    rw [applyAll, applyAll, hop]
  rcases updateSteps_ok he h4 hl N ht with ⟨b0, b1, b2, b3⟩ | ⟨b, c, b1, b2, b3, b4, b5⟩
  · rw [hall] at b2
    exact Or.inl ⟨b0, b1, b2, by rw [update, h2, Outcome.bind, b3, Outcome.bind]⟩
  · rw [hall] at b4
    obtain ⟨k1, k2⟩ := mapped_state b2 (f := chop e tiny) (by simp [chop])
    refine Or.inr ⟨_, c, by rw [update, h2, Outcome.bind, b1, Outcome.bind], k1, b3, fun s => ?_, fun g1 g2 => ?_⟩
    · rw [k2, chop, b4]
    · have := b5 g1 g2
      simpa only [b4] using this

/-- **C87**: `energy` is the quotient of the products of the state, with the sum of the operator over all links and
without it. -/
theorem C87_energy [DecidableEq α] (he : DiagEnvOk e) (env : Env NoSymmetry α) {h : List α} (hh : h.length = 16)
    {ls : List (Link n)} (hl : ∀ l ∈ ls, l.1 ≠ l.2) {t : Tensor ν NoSymmetry α} (ht : IsState e.nm n t) :
    ∃ ham, setH e h 0 = .ok ham ∧
    let ψ : Spins n → α := ampOf e.nm t
    energy e env ham (codeLinks ls) t =
      if product ψ ψ = 0 then .error "the norm is zero"
      else .ok (product ψ (sumOver (listed h) ls ψ) / product ψ ψ) := by
  obtain ⟨ham, h1, h3, h5⟩ := C87_set_h (e := e) he.inj hh
  refine ⟨ham, h1, ?_⟩
  obtain ⟨x, x1, x2⟩ := product_ok he ht ht
  obtain ⟨z, z1, z2, z3, z4⟩ := dense_zero e.junk ht.dense
  have hz := ht.of_leg z2 z3
  obtain ⟨r, r1, r2, r3⟩ := sumLinks_ok he env h3 ht ls hl hz
  obtain ⟨y, y1, y2⟩ := product_ok he ht r2
  have hop : applyTo (n := n) (operatorVal e.nm ham) = applyTo (listed h) := applyTo_congr h5
  have hr : (ampOf e.nm r : Spins n → α) = sumOver (listed h) ls (ampOf e.nm t) := by
    funext s
    rw [r3, ampOf, z4, zero_add, sumOver, sumOver, hop]
  rw [hr] at y2
  show energy e env ham (codeLinks ls) t = _
  rw [energy, x1, Outcome.bind, z1, Outcome.bind, r1, Outcome.bind, y1, Outcome.bind, y2, Outcome.bind, x2,
    Outcome.bind]

end TAT.Diag
