import Verif.Trace.Props
import Verif.Square.AuxLegs

/-!
# The trace of one pair of edges without symmetry
-/

namespace TAT

variable {ν α G : Type} [LinearOrder ν] [DecidableEq G]

theorem dense_trace [CommRing α] (env1 env2 : Env NoSymmetry α) (junk : List NoSymmetry → ℕ → α) {tn : TraceNames ν}
    (htn : [tn.t1, tn.t2, tn.t3].Nodup) {t : Tensor ν NoSymmetry α} (h : Dense t) {a b : ν} {D : ℕ} (hab : a ≠ b)
    (ha : leg t a = some D) (hb : leg t b = some D) :
    ∃ r, traceTensor env1 env2 junk tn t [(a, b)] = .ok r ∧ Dense r ∧
      (∀ n, leg r n = if n = a ∨ n = b then none else leg t n) ∧
      ∀ x, val r x = ∑ k ∈ Finset.range D, val t (Function.update (Function.update x a k) b k) := by
  have ma : a ∈ t.names := leg_ne_none.1 (by rw [ha]; simp)
  have mb : b ∈ t.names := leg_ne_none.1 (by rw [hb]; simp)
  have da : mapOf t a = [(0, D)] := by rw [h.map ma, legDim, ha]; rfl
  have db : mapOf t b = [(0, D)] := by rw [h.map mb, legDim, hb]; rfl
  obtain ⟨r, r1, r2, r3, ⟨e, r4, r5⟩, r6⟩ := C30_trace_partial env1 env2 junk htn h.wf (pairs := [(a, b)])
    (by simpa [pairNames] using hab) (by simp [pairNames, ma, mb])
    ⟨fun hf => absurd hf (by decide), fun c hc s => by
      rw [List.mem_singleton] at hc
      subst hc
      rw [da, db]⟩ (Or.inr fun s => rfl)
    ⟨fun _ => (0, 0), (mem_keys_named h.wf _).2 ⟨fun n hn => by rw [h.map hn]; simp [OMap.keys], noSym_eq _ _⟩,
      noSym_eq _ _⟩
  have hmem : ∀ n, n ∈ r.names ↔ n ∈ t.names ∧ ¬ (n = a ∨ n = b) := by
    intro n
    rw [r2, others, List.mem_filter, decide_eq_true_iff]
    simp [pairNames]
  have hpr : prunedEdges (r.names.map e) = r.names.map e := by
    refine (prunedEdges_eq_iff r3.nodup e).2 fun n hn s _ => ⟨fun _ => (0, 0), ⟨fun m hm => ?_, noSym_eq _ _⟩, noSym_eq _ _⟩
    show (0 : NoSymmetry) ∈ OMap.keys (e m).map
    rw [(r5 m hm).1, h.map ((hmem m).1 hm).1]
    simp [OMap.keys]
  rw [hpr] at r4
  have hmap : ∀ n ∈ r.names, mapOf r n = mapOf t n := fun n hn => by
    rw [mapOf, edgeOf_unique r3 r4 n hn, (r5 n hn).1]
  have hleg : ∀ n, leg r n = if n = a ∨ n = b then none else leg t n := by
    intro n
    by_cases hr : n ∈ r.names
    · obtain ⟨h1, h2⟩ := (hmem n).1 hr
      rw [if_neg h2, leg_of_mem hr, leg_of_mem h1, hmap n hr]
    · rw [leg_eq_none.2 hr]
      split
      · rfl
      · next h2 => exact (leg_eq_none.2 fun h1 => hr ((hmem n).2 ⟨h1, h2⟩)).symm
  have hpos : ∀ n, 0 < legDim r n := fun n => by
    rw [legDim, hleg]
    split
    · exact one_pos
    · exact h.pos n
  refine ⟨r, r1, ⟨r3, hpos⟩, hleg, fun x => ?_⟩
  by_cases hv : ∀ n ∈ r.names, x n < legDim r n
  · have hel := r6 (fun n => (0, x n)) ⟨fun n hn => by
      have := hv n hn
      rwa [legDim_of_mem hn, hmap n hn] at this, noSym_eq _ _⟩
    rw [elem_val r3 fun n hn => hv n (leg_ne_none.1 hn), Option.some.injEq] at hel
    rw [hel, traced]
    have hE : ∀ n, mapOf t n = [(0, D)] → edgePositions (mapOf t n) = (List.range D).map fun k => ((0 : NoSymmetry), k) := by
      intro n hn
      rw [hn]
      simp [edgePositions]
    simp only [pairNames, List.flatMap_cons, List.flatMap_nil, List.append_nil, sumOver, hE a da, hE b db, List.map_map]
    rw [← List.sum_toFinset _ List.nodup_range, List.toFinset_range]
    refine Finset.sum_congr rfl fun k hk => ?_
    rw [Function.comp_apply, ← List.sum_toFinset _ List.nodup_range, List.toFinset_range, Finset.sum_eq_single k]
    · rw [Function.comp_apply, if_pos]
      · rw [traceSign, if_neg (by decide), one_smul, amp_eq_val]
        congr 1
        funext n
        by_cases h1 : n = b
        · subst h1; simp
        · rw [Function.update_of_ne h1, Function.update_of_ne h1]
          by_cases h2 : n = a
          · subst h2; simp
          · rw [Function.update_of_ne h2, Function.update_of_ne h2]
      · intro c hc
        rw [List.mem_singleton] at hc
        subst hc
        exact ⟨noSym_eq _ _, by simp [Function.update_of_ne hab]⟩
    · intro l _ hl
      rw [Function.comp_apply, if_neg]
      intro hd
      have := (hd (a, b) (by simp)).2
      simp [Function.update_of_ne hab] at this
      exact hl this.symm
    · exact fun hk' => absurd hk hk'
  · push Not at hv
    obtain ⟨n, hn, hx⟩ := hv
    obtain ⟨h1, h2⟩ := (hmem n).1 hn
    rw [val_outside r3 (leg_ne_none.2 hn) hx]
    symm
    refine Finset.sum_eq_zero fun k _ => val_outside h.wf (leg_ne_none.2 h1) ?_
    push Not at h2
    rw [Function.update_of_ne h2.2, Function.update_of_ne h2.1]
    rwa [legDim, hleg, if_neg (by push Not; exact h2)] at hx

theorem label_trace [CommRing α] {ι : G → ν} (hι : Function.Injective ι) (env1 env2 : Env NoSymmetry α)
    (junk : List NoSymmetry → ℕ → α) {tn : TraceNames ν} (htn : [tn.t1, tn.t2, tn.t3].Nodup)
    {t : Tensor ν NoSymmetry α} {T : G → Option ℕ} (h : HasLegs ι t T) {a b : G} {D : ℕ} (hab : a ≠ b)
    (ha : T a = some D) (hb : T b = some D) :
    ∃ r, traceTensor env1 env2 junk tn t [(ι a, ι b)] = .ok r ∧
      HasLegs ι r (fun g => if g = a ∨ g = b then none else T g) ∧
      ∀ f, gval ι r f = ∑ k ∈ Finset.range D, gval ι t (Function.update (Function.update f a k) b k) := by
  obtain ⟨r, r1, r2, r3, r4⟩ := dense_trace env1 env2 junk htn h.dense (hι.ne hab) ((h.legs a).trans ha)
    ((h.legs b).trans hb)
  refine ⟨r, r1, ⟨r2, fun n hn => ?_, fun g => ?_⟩, fun f => ?_⟩
  · rw [r3] at hn
    refine h.only n fun h0 => hn ?_
    rw [h0, ite_self]
  · rw [gleg, r3]
    simp only [hι.eq_iff]
    split
    · rfl
    · exact h.legs g
  · rw [gval, r4]
    refine Finset.sum_congr rfl fun k _ => ?_
    rw [extend_update hι, extend_update hι]
    rfl

end TAT
