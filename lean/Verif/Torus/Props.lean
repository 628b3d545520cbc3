import Verif.Torus.Loop
import Verif.Grid.Props

/-!
# C88: a lattice on a torus gives its value
-/

namespace TAT.Torus

open TAT.Grid (IsSite sides GridEnvOk positions positions_mem positions_nodup sides_injective stateAfter_add)

set_option linter.unusedSectionVars false

variable {ν α β : Type} [LinearOrder ν] [Field α] [LinearOrder β] [Zero β] {e : AuxEnv ν α β} {L : ℕ}

/-- **C88**: `get_exact` gives the sum over the indices of all edges of the product of the elements of all sites.
Missing: a lattice with one site (`C88_single`). -/
theorem C88_exact_partial (he : GridEnvOk e sides) (hL : L ≠ 1) {site : ℕ → ℕ → Tensor ν NoSymmetry α}
    {h v : ℕ → ℕ → ℕ} (ht : IsTorus e.nm L site h v) : getExact e L site = .ok (torusValue e.nm L h v site) := by
  rcases Nat.lt_or_ge L 2 with h2 | h2
  · obtain rfl : L = 0 := by omega
    simp [getExact, positions, exactSteps, Outcome.bind, oneTensor, onlyElement, torusValue]
  · exact getExact_ok he h2 ht

/-! ## The constructor -/

theorem fresh_ok {S : Type} (he : GridEnvOk e sides) (gen : S → α × S) (s : S) {D : ℕ} (hD : 0 < D) {ns : List String}
    (hnd : ns.Nodup) (hs : ∀ n, n ∈ ns ↔ ∃ x, n = sides x) :
    ∃ t, mkTensor e.junk (ns.map e.nm) (ns.map fun _ => (⟨false, [(0, D)]⟩ : Edge NoSymmetry)) = .ok t ∧
      IsSite e.nm sides (setWith gen s t) (some D) (some D) (some D) (some D) ∧
      allElems (setWith gen s t) = outputs gen s (D ^ ns.length) ∧
      (genBlocks gen t.core.blocks s).2 = stateAfter gen s (D ^ ns.length) := by
  obtain ⟨t, t1, t2, t3, t4, t5⟩ := dense_set e.junk gen s (names := ns.map e.nm)
    (dims := ns.map fun _ => D) (hnd.map he.inj) (by simp)
    (fun d hd => by
      obtain ⟨n, -, rfl⟩ := List.mem_map.1 hd
      exact hD)
  have hleg : ∀ x, leg (setWith gen s t) (e.nm (sides x)) = some D := by
    intro x
    obtain ⟨k, hk, hx⟩ := List.getElem_of_mem ((hs _).2 ⟨x, rfl⟩)
    have := t4 k (by simpa using hk)
    rwa [List.getElem_map, List.getElem_map, hx] at this
  have hout : ∀ (l : List (List NoSymmetry × List α)) (s : S),
      (genBlocks gen l s).2 = stateAfter gen s (l.map fun b => b.2.length).sum := by
    intro l
    induction l with
    | nil => exact fun s => rfl
    | cons b l ih =>
      intro s
      rw [genBlocks, genList_eq, List.map_cons, List.sum_cons, stateAfter_add]
      exact ih _
  refine ⟨t, ?_, ⟨t2, hleg .left, hleg .right, hleg .up, hleg .down, fun n hn => ?_⟩, by simpa using t5, ?_⟩
  · rw [← t1, List.map_map]
    rfl
  · have hn : n ∈ (setWith gen s t).names := by
      by_contra h
      exact hn (leg_eq_none.2 h)
    rw [t3, List.mem_map] at hn
    obtain ⟨m, hm, rfl⟩ := hn
    obtain ⟨x, rfl⟩ := (hs m).1 hm
    exact ⟨x, rfl⟩
  · rw [hout]
    congr 1
    have := mkTensor_eq e.junk (ns.map e.nm) ((ns.map fun _ => D).map plainEdge) false
      (fun e h => by
        obtain ⟨d, -, rfl⟩ := List.mem_map.1 h
        exact List.pairwise_singleton _ _) (by simp) (hnd.map he.inj)
    have harrow : arrowed ((ns.map fun _ => D).map plainEdge) false = (ns.map fun _ => D).map plainEdge := rfl
    rw [harrow, prunedEdges_plain, freshBlocks, blockShapes_plain, t1] at this
    injection this with this
    rw [this]
    simp

theorem newSite_ok {S : Type} (he : GridEnvOk e sides) (gen : S → α × S) (s : S) {D : ℕ} (hD : 0 < D) :
    ∃ t, mkTensor e.junk (["left", "right", "up", "down"].map e.nm)
        [⟨false, [(0, D)]⟩, ⟨false, [(0, D)]⟩, ⟨false, [(0, D)]⟩, ⟨false, [(0, D)]⟩] = .ok t ∧
      IsSite e.nm sides (setWith gen s t) (some D) (some D) (some D) (some D) ∧
      allElems (setWith gen s t) = outputs gen s (D ^ 4) ∧
      (genBlocks gen t.core.blocks s).2 = stateAfter gen s (D ^ 4) :=
  fresh_ok he gen s hD (ns := ["left", "right", "up", "down"]) (by decide) fun n => by
    constructor
    · intro hm
      simp only [List.mem_cons, List.not_mem_nil, or_false] at hm
      rcases hm with rfl | rfl | rfl | rfl
      exacts [⟨.left, rfl⟩, ⟨.right, rfl⟩, ⟨.up, rfl⟩, ⟨.down, rfl⟩]
    · rintro ⟨x, rfl⟩
      cases x <;> decide

theorem newSites_ok {S : Type} (he : GridEnvOk e sides) (gen : S → α × S) {D m : ℕ} (hD : 0 < D) (hm : D ^ 4 = m) :
    ∀ (ps : List (ℕ × ℕ)) (s : S), ps.Nodup →
      ∃ site : ℕ → ℕ → Tensor ν NoSymmetry α,
        newSites e gen D ps s = .ok (ps.map fun p => (p, site p.1 p.2)) ∧
        (∀ p ∈ ps, IsSite e.nm sides (site p.1 p.2) (some D) (some D) (some D) (some D)) ∧
        (ps.flatMap fun p => allElems (site p.1 p.2)) = outputs gen s (ps.length * m)
  | [], s, _ => ⟨fun _ _ => oneTensor, rfl, by simp, by simp [outputs]⟩
  | p :: ps, s, hn => by
    obtain ⟨t, t1, t2, t3, t4⟩ := newSite_ok he gen s hD
    rw [hm] at t3 t4
    obtain ⟨site, s1, s2, s3⟩ := newSites_ok he gen hD hm ps (genBlocks gen t.core.blocks s).2 (List.nodup_cons.1 hn).2
    have hne : ∀ q ∈ ps, q ≠ p := fun q hq h => (List.nodup_cons.1 hn).1 (h ▸ hq)
    obtain ⟨site', p1, hq⟩ : ∃ site' : ℕ → ℕ → Tensor ν NoSymmetry α, site' p.1 p.2 = setWith gen s t ∧
        ∀ q ∈ ps, site' q.1 q.2 = site q.1 q.2 :=
      ⟨fun i j => if (i, j) = p then setWith gen s t else site i j, if_pos rfl, fun q hq => if_neg (hne q hq)⟩
    refine ⟨site', ?_, fun q hq' => ?_, ?_⟩
    · rw [newSites, t1, Outcome.bind, s1, Outcome.bind, List.map_cons, p1]
      congr 2
      exact List.map_congr_left fun q h => by rw [hq q h]
    · rcases List.mem_cons.1 hq' with rfl | hq'
      · rw [p1]
        exact t2
      · rw [hq q hq']
        exact s2 q hq'
    · rw [List.flatMap_cons, p1, t3, List.length_cons, Nat.add_mul, one_mul, Nat.add_comm, outputs_append, ← t4, ← s3]
      refine congrArg (fun l => outputs gen s m ++ l) ?_
      simp only [List.flatMap]
      exact congrArg List.flatten (List.map_congr_left fun q h => by rw [hq q h])

/-- **C88**: the constructor gives a lattice on a torus with edges of dimension `D`, and its elements are the
numbers of the generator in the order of the sites. -/
theorem C88_new {S : Type} (he : GridEnvOk e sides) (gen : S → α × S) (s : S) (L : ℕ) {D : ℕ} (hD : 0 < D) :
    ∃ site : ℕ → ℕ → Tensor ν NoSymmetry α,
      newLattice e gen s L D = .ok ((positions L).map fun p => (p, site p.1 p.2)) ∧
      IsTorus e.nm L site (fun _ _ => D) (fun _ _ => D) ∧
      ((positions L).flatMap fun p => allElems (site p.1 p.2)) = outputs gen s (L ^ 2 * D ^ 4) := by
  obtain ⟨site, s1, s2, s3⟩ := newSites_ok he gen hD rfl (positions L) s (positions_nodup L)
  refine ⟨site, s1, ⟨fun i hi j hj => s2 (i, j) (positions_mem.2 ⟨hi, hj⟩), fun _ _ => rfl, fun _ _ => rfl⟩, ?_⟩
  rw [s3, positions]
  simp [sq]

end TAT.Torus
