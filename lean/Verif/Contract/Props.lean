import Verif.Contract.Errors
import Verif.EdgeMisc.Props

/-!
# Properties of contraction

C28: contraction of symmetric tensors, C29: contractions that throw.  What is computed is
`contracted` in `Verif/Contract/Spec.lean`.
-/

namespace TAT

variable {ν σ α : Type}

/-! ## statements -/

section
variable [LinearOrder ν] [TatSym σ]

/-- The pairs both of whose names exist. -/
def knownPairs (t1 t2 : Tensor ν σ α) (pairs : List (ν × ν)) : List (ν × ν) :=
  pairs.filter fun c => decide (c.1 ∈ t1.names ∧ c.2 ∈ t2.names)

theorem knownPairs_eq (t1 t2 : Tensor ν σ α) (pairs : List (ν × ν)) :
    keepPairs t1.names t2.names pairs = knownPairs t1 t2 pairs := by
  unfold keepPairs knownPairs
  congr 1
  funext c
  rw [Bool.decide_and]

/-- **C28** (partial): contraction of tensors with symmetry.  The names are those of the first tensor
which are not contracted followed by those of the second, every edge is the one of the tensor it
comes from, up to symmetries which no block has, and at each position allowed by the symmetry is the
sum over the contracted edges of the products of the elements at opposite symmetries and equal
indices, with the fermionic sign.

Missing: contracted edges of which two combinations of symmetries have the same total, for symmetries
other than Z2 (`hl`; the claim is false, see `C28_two_edges_wrong`; a single contracted edge is always
fine) and contracted edges of which one has a symmetry whose opposite the other
lacks (`hm`; without fermions the claim is false, see `C28_sectors_must_match`, for fermions see
`C28_fermi_sectors_partial`).  `hne` excludes results of rank 0 without a block. -/
theorem C28_contract_partial [CommRing α] (ce : ContractEnv σ α) (hg : GemmOk ce.gemm)
    {cn : ContractNames ν} (hcn : cn.c1 ≠ cn.c2) (hns : TatSym.isNoSym σ = false)
    {t1 t2 : Tensor ν σ α} (h1 : WF t1) (h2 : WF t2) {pairs cs : List (ν × ν)}
    (hcs : knownPairs t1 t2 pairs = cs)
    (hp1 : (cs.map Prod.fst).Nodup) (hp2 : (cs.map Prod.snd).Nodup)
    (hm : Matched t1 t2 cs)
    (hl : Separated t1 (cs.map Prod.fst) ∨ ∀ s : σ, -s = s)
    (hnd : (others t1.names (cs.map Prod.fst) ++ others t2.names (cs.map Prod.snd)).Nodup)
    (hne : others t1.names (cs.map Prod.fst) ++ others t2.names (cs.map Prod.snd) ≠ [] ∨
      t1.core.blocks ≠ []) :
    ∃ r, contract ce cn t1 t2 pairs = .ok r ∧
      r.names = others t1.names (cs.map Prod.fst) ++ others t2.names (cs.map Prod.snd) ∧ WF r ∧
      (∃ e : ν → Edge σ, r.core.edges = prunedEdges (r.names.map e) ∧
        ∀ n ∈ r.names, (e n).map = (outerEdge t1 t2 cs n).map ∧
          (TatSym.isFermi σ = true → arrowValid (outerEdge t1 t2 cs n) = true →
            (e n).arrow = (outerEdge t1 t2 cs n).arrow)) ∧
      ∀ p, FineOk (fun n => (outerEdge t1 t2 cs n).map) r.names p →
        elem r p = some (contracted t1 t2 cs p) := by
  rw [← knownPairs_eq] at hcs
  obtain ⟨r, e1, e2, e3, e4, e5⟩ := contractWithoutFuse_spec hg ce.env1 ce.env2 ce.env3 ce.junk hcn h1
    h2 hns (pairs := pairs) (by rw [hcs]; exact (duplicated_iff _).2 ⟨hp1, hp2⟩) hcs hm hl hnd hne
  rw [← e2] at e4 e5
  exact ⟨r, by unfold contract; rw [hns, if_neg (by simp)]; exact e1, e2, e3, e4, e5⟩

/-- **C28** is false without fermions if a block of one tensor has a symmetry on a contracted edge
whose opposite the partner edge lacks: the contraction never succeeds. -/
theorem C28_sectors_must_match [CommRing α] (ce : ContractEnv σ α) (cn : ContractNames ν)
    (hns : TatSym.isNoSym σ = false) (hf : TatSym.isFermi σ = false)
    {t1 t2 : Tensor ν σ α} (h1 : WF t1) (h2 : WF t2) {pairs : List (ν × ν)} {c : ν × ν}
    (hc : c ∈ pairs) (hc1 : c.1 ∈ t1.names) (hc2 : c.2 ∈ t2.names)
    (hmis : (∃ p : ν → σ × ℕ, keyOf t1.names p ∈ OMap.keys t1.core.blocks ∧
        -(p c.1).1 ∉ OMap.keys (mapOf t2 c.2)) ∨
      (∃ p : ν → σ × ℕ, keyOf t2.names p ∈ OMap.keys t2.core.blocks ∧
        -(p c.2).1 ∉ OMap.keys (mapOf t1 c.1))) (r : Tensor ν σ α) :
    contract ce cn t1 t2 pairs ≠ .ok r := by
  unfold contract
  rw [hns, if_neg (by simp)]
  refine contractWithoutFuse_missing _ _ _ _ _ _ h1 h2 hc hc1 hc2
    (hmis.imp (fun h => ⟨h, fun h' => ?_⟩) fun h => ⟨h, fun h' => ?_⟩) r <;>
  · rw [hf] at h'
    cases h'

/-- **C29**: pairs with a name that does not occur are ignored. -/
theorem C29_missing_ignored [CommRing α] (ce : ContractEnv σ α) (cn : ContractNames ν)
    (t1 t2 : Tensor ν σ α) (pairs : List (ν × ν)) :
    contract ce cn t1 t2 pairs = contract ce cn t1 t2 (knownPairs t1 t2 pairs) := by
  have h : keepPairs t1.names t2.names (knownPairs t1 t2 pairs) =
      keepPairs t1.names t2.names pairs := by
    rw [← knownPairs_eq]
    unfold keepPairs
    rw [List.filter_filter]
    simp
  unfold contract contractWithFuse contractWithoutFuse
  dsimp only
  rw [h]

/-- **C29**: an edge cannot be contracted twice. -/
theorem C29_repeated [CommRing α] (ce : ContractEnv σ α) (cn : ContractNames ν)
    (t1 t2 : Tensor ν σ α) (pairs : List (ν × ν))
    (h : ¬ (((knownPairs t1 t2 pairs).map Prod.fst).Nodup ∧
      ((knownPairs t1 t2 pairs).map Prod.snd).Nodup)) :
    (contract ce cn t1 t2 pairs).isError = true := by
  have hd : duplicated (keepPairs t1.names t2.names pairs) = true := by
    rw [knownPairs_eq]
    by_contra hc
    rw [Bool.not_eq_true] at hc
    exact h ((duplicated_iff _).1 hc)
  unfold contract contractWithFuse contractWithoutFuse
  dsimp only
  rw [hd]
  split <;> rfl

/-- **C29**: contracting symmetric edges with equal arrows, or with different dimensions for a
symmetry and its opposite, throws. -/
theorem C29_unfit [CommRing α] (ce : ContractEnv σ α) (cn : ContractNames ν)
    (hns : TatSym.isNoSym σ = false) {t1 t2 : Tensor ν σ α} (h1 : WF t1) (h2 : WF t2)
    {pairs : List (ν × ν)} {c : ν × ν} (hc : c ∈ pairs) (hc1 : c.1 ∈ t1.names)
    (hc2 : c.2 ∈ t2.names)
    (hu : (TatSym.isFermi σ = true ∧ (edgeOf t1 c.1).arrow = (edgeOf t2 c.2).arrow) ∨
      ∃ s d1 d2, OMap.find? (mapOf t1 c.1) s = some d1 ∧
        OMap.find? (mapOf t2 c.2) (-s) = some d2 ∧ d1 ≠ d2) :
    (contract ce cn t1 t2 pairs).isError = true := by
  unfold contract
  rw [hns, if_neg (by simp)]
  exact contractWithoutFuse_unfit _ _ _ _ _ _ h1 h2 hc hc1 hc2 hu

/-- **C29**: a contraction leaving equal names never succeeds. -/
theorem C29_equal_names [CommRing α] (ce : ContractEnv σ α) (cn : ContractNames ν)
    (hns : TatSym.isNoSym σ = false) (t1 t2 : Tensor ν σ α) (pairs : List (ν × ν))
    (hnd : ¬ (others t1.names ((knownPairs t1 t2 pairs).map Prod.fst) ++
      others t2.names ((knownPairs t1 t2 pairs).map Prod.snd)).Nodup) (r : Tensor ν σ α) :
    contract ce cn t1 t2 pairs ≠ .ok r := by
  unfold contract
  rw [hns, if_neg (by simp)]
  intro h
  apply hnd
  rw [← knownPairs_eq]
  exact contractWithoutFuse_nodup h

/-- **C29**: and it throws, if the contraction would be correct apart from the names. -/
theorem C29_equal_names_throw [CommRing α] (ce : ContractEnv σ α) (hg : GemmOk ce.gemm)
    {cn : ContractNames ν} (hcn : cn.c1 ≠ cn.c2) (hns : TatSym.isNoSym σ = false)
    {t1 t2 : Tensor ν σ α} (h1 : WF t1) (h2 : WF t2) {pairs cs : List (ν × ν)}
    (hcs : knownPairs t1 t2 pairs = cs)
    (hm : Matched t1 t2 cs) (hl : Separated t1 (cs.map Prod.fst) ∨ ∀ s : σ, -s = s)
    (hnd : ¬ (others t1.names (cs.map Prod.fst) ++ others t2.names (cs.map Prod.snd)).Nodup) :
    (contract ce cn t1 t2 pairs).isError = true := by
  by_cases hr : (cs.map Prod.fst).Nodup ∧ (cs.map Prod.snd).Nodup
  · rw [← knownPairs_eq] at hcs
    unfold contract
    rw [hns, if_neg (by simp)]
    exact contractWithoutFuse_equal hg _ _ _ _ hcn h1 h2
      (by rw [hcs]; exact (duplicated_iff _).2 hr) hcs hm hl hnd
  · exact C29_repeated ce cn t1 t2 pairs (by rw [hcs]; exact hr)

end

/-! ## cases -/

def names0 : ContractNames ℕ := ⟨100, 101, 102⟩

def ce0 {σ : Type} : ContractEnv σ ℤ := ⟨refGemm, env0, env0, env0, fun _ _ => 77, fun _ _ => 77⟩

/-- `c` in test/simple_test.cpp 319-322. -/
def sampleC : Tensor ℕ FermiSymmetry ℤ :=
  ⟨[0, 1, 2, 3],
    [⟨true, [(⟨-2⟩, 1), (⟨-1⟩, 1), (⟨0⟩, 1)]⟩, ⟨false, [(⟨0⟩, 1), (⟨1⟩, 2)]⟩,
      ⟨false, [(⟨0⟩, 2), (⟨1⟩, 2)]⟩, ⟨true, [(⟨-2⟩, 2), (⟨-1⟩, 1), (⟨0⟩, 2)]⟩],
    [([⟨-2⟩, ⟨1⟩, ⟨1⟩, ⟨0⟩], [0, 1, 2, 3, 4, 5, 6, 7]), ([⟨-1⟩, ⟨0⟩, ⟨1⟩, ⟨0⟩], [8, 9, 10, 11]),
      ([⟨-1⟩, ⟨1⟩, ⟨0⟩, ⟨0⟩], [12, 13, 14, 15, 16, 17, 18, 19]),
      ([⟨-1⟩, ⟨1⟩, ⟨1⟩, ⟨-1⟩], [20, 21, 22, 23]), ([⟨0⟩, ⟨0⟩, ⟨0⟩, ⟨0⟩], [24, 25, 26, 27]),
      ([⟨0⟩, ⟨0⟩, ⟨1⟩, ⟨-1⟩], [28, 29]), ([⟨0⟩, ⟨1⟩, ⟨0⟩, ⟨-1⟩], [30, 31, 32, 33]),
      ([⟨0⟩, ⟨1⟩, ⟨1⟩, ⟨-2⟩], [34, 35, 36, 37, 38, 39, 40, 41])]⟩

/-- `d` in test/simple_test.cpp 323-326. -/
def sampleD : Tensor ℕ FermiSymmetry ℤ :=
  ⟨[4, 5, 6, 7],
    [⟨false, [(⟨0⟩, 2), (⟨1⟩, 1)]⟩, ⟨true, [(⟨-2⟩, 1), (⟨-1⟩, 1), (⟨0⟩, 2)]⟩,
      ⟨true, [(⟨-1⟩, 2), (⟨0⟩, 1)]⟩, ⟨false, [(⟨0⟩, 2), (⟨1⟩, 1), (⟨2⟩, 2)]⟩],
    [([⟨0⟩, ⟨-2⟩, ⟨0⟩, ⟨2⟩], [0, 1, 2, 3]), ([⟨0⟩, ⟨-1⟩, ⟨-1⟩, ⟨2⟩], [4, 5, 6, 7, 8, 9, 10, 11]),
      ([⟨0⟩, ⟨-1⟩, ⟨0⟩, ⟨1⟩], [12, 13]), ([⟨0⟩, ⟨0⟩, ⟨-1⟩, ⟨1⟩], [14, 15, 16, 17, 18, 19, 20, 21]),
      ([⟨0⟩, ⟨0⟩, ⟨0⟩, ⟨0⟩], [22, 23, 24, 25, 26, 27, 28, 29]),
      ([⟨1⟩, ⟨-2⟩, ⟨-1⟩, ⟨2⟩], [30, 31, 32, 33]), ([⟨1⟩, ⟨-2⟩, ⟨0⟩, ⟨1⟩], [34]),
      ([⟨1⟩, ⟨-1⟩, ⟨-1⟩, ⟨1⟩], [35, 36]), ([⟨1⟩, ⟨-1⟩, ⟨0⟩, ⟨0⟩], [37, 38]),
      ([⟨1⟩, ⟨0⟩, ⟨-1⟩, ⟨0⟩], [39, 40, 41, 42, 43, 44, 45, 46])]⟩

theorem sampleC_wf : WF sampleC := by
  refine ⟨by decide, by decide, by decide, by decide +kernel, by decide +kernel⟩

theorem sampleD_wf : WF sampleD := by
  refine ⟨by decide, by decide, by decide, by decide +kernel, by decide +kernel⟩

/-- To check that two edges match it is enough to look at the symmetries they have. -/
theorem maps_of_keys [TatSym σ] {m1 m2 : List (σ × ℕ)}
    (h1 : ∀ s ∈ OMap.keys m1, OMap.find? m1 s = OMap.find? m2 (-s))
    (h2 : ∀ s ∈ OMap.keys m2, -s ∈ OMap.keys m1) (s : σ) :
    OMap.find? m1 s = OMap.find? m2 (-s) := by
  by_cases hs : s ∈ OMap.keys m1
  · exact h1 s hs
  · rw [OMap.find?_eq_none.2 hs, OMap.find?_eq_none.2]
    intro hc
    exact hs (by simpa using h2 _ hc)

theorem sampleCD_matched : Matched sampleC sampleD [(3, 7)] := by
  refine ⟨fun _ => by decide, fun c hc => ?_⟩
  rw [List.mem_singleton] at hc
  subst hc
  exact maps_of_keys (by decide +kernel) (by decide +kernel)

theorem sampleCD_matched2 : Matched sampleC sampleD [(1, 6), (3, 7)] := by
  refine ⟨fun _ => by decide, fun c hc => ?_⟩
  simp only [List.mem_cons, List.not_mem_nil, or_false] at hc
  rcases hc with rfl | rfl
  · exact maps_of_keys (by decide +kernel) (by decide +kernel)
  · exact maps_of_keys (by decide +kernel) (by decide +kernel)

example : knownPairs sampleC sampleD [(3, 7), (8, 4)] = [(3, 7)] ∧
    ([(3, 7)].map Prod.fst : List ℕ).Nodup ∧ Matched sampleC sampleD [(3, 7)] ∧
    (others sampleC.names [3] ++ others sampleD.names [7]).Nodup ∧
    others sampleC.names [3] ++ others sampleD.names [7] ≠ [] ∧ GemmOk (refGemm : Gemm ℤ) :=
  ⟨by decide, by decide, sampleCD_matched, by decide, by decide, refGemm_ok⟩

/-- A position by a table. -/
def at0 [Zero σ] (l : List (ℕ × σ × ℕ)) : ℕ → σ × ℕ := fun n =>
  match l.find? fun x => decide (x.1 = n) with
  | some x => x.2
  | none => (0, 0)

/-- One contracted edge: the element at symmetries `(0, 1, 0; 1, -1, -1)` has a sign. -/
example : ((contract ce0 names0 sampleC sampleD [(3, 7)]).toOption.map fun r =>
      elem r (at0 [(2, ⟨1⟩, 1), (4, ⟨1⟩, 0), (5, ⟨-1⟩, 0), (6, ⟨-1⟩, 1)])) =
        some (some (-(29 * 36))) ∧
    contracted sampleC sampleD [(3, 7)]
      (at0 [(2, ⟨1⟩, 1), (4, ⟨1⟩, 0), (5, ⟨-1⟩, 0), (6, ⟨-1⟩, 1)]) = -(29 * 36) := by
  decide +kernel

/-- **C28** is false for two contracted edges whose symmetries are not their own opposites.  This is
the contraction in test/simple_test.cpp 329, and the wrong element 2107 is the one recorded in
test/simple_test.out 110: the code pairs the sectors of the merged edges in opposite orders. -/
theorem C28_two_edges_wrong :
    WF sampleC ∧ WF sampleD ∧ Matched sampleC sampleD [(1, 6), (3, 7)] ∧
    FineOk (fun n => (outerEdge sampleC sampleD [(1, 6), (3, 7)] n).map) [0, 2, 4, 5]
      (at0 (σ := FermiSymmetry) []) ∧
    ∃ r, contract ce0 names0 sampleC sampleD [(1, 6), (3, 7)] = .ok r ∧ r.names = [0, 2, 4, 5] ∧
      elem r (at0 []) = some 2107 ∧
      contracted sampleC sampleD [(1, 6), (3, 7)] (at0 []) = 2003 := by
  refine ⟨sampleC_wf, sampleD_wf, sampleCD_matched2, ?_, ?_⟩
  · unfold FineOk
    decide +kernel
  · have h : ((contract ce0 names0 sampleC sampleD [(1, 6), (3, 7)]).toOption.map fun r =>
        (r.names, elem r (at0 []))) = some ([0, 2, 4, 5], some 2107) := by decide +kernel
    cases hc : contract ce0 names0 sampleC sampleD [(1, 6), (3, 7)] with
    | error m => rw [hc] at h; cases h
    | ub => rw [hc] at h; cases h
    | ok r =>
      rw [hc] at h
      simp only [Outcome.toOption, Option.map_some, Option.some.injEq, Prod.mk.injEq] at h
      exact ⟨r, rfl, h.1, h.2, by decide +kernel⟩

/-- A vector with the symmetries -1 and 0 on edge 8, balanced by edge 9. -/
def sampleShort : Tensor ℕ U1Symmetry ℤ :=
  ⟨[8, 9], [⟨false, [(⟨-1⟩, 3), (⟨0⟩, 2)]⟩, ⟨false, [(⟨0⟩, 1), (⟨1⟩, 1)]⟩],
    [([⟨-1⟩, ⟨1⟩], [1, 2, 3]), ([⟨0⟩, ⟨0⟩], [4, 5])]⟩

theorem sampleShort_wf : WF sampleShort := by
  refine ⟨by decide, by decide, by decide, by decide, by decide⟩

/-- The hypotheses of `C28_sectors_must_match`: edge 7 has the symmetry -1, edge 8 lacks 1. -/
example : WF sampleU1 ∧ WF sampleShort ∧
    (∃ p : ℕ → U1Symmetry × ℕ, keyOf sampleU1.names p ∈ OMap.keys sampleU1.core.blocks ∧
      -(p 7).1 ∉ OMap.keys (mapOf sampleShort 8)) ∧
    contract ce0 names0 sampleU1 sampleShort [(7, 8)] = .error "map::at" :=
  ⟨sampleU1_wf, sampleShort_wf, ⟨at0 [(7, ⟨-1⟩, 0), (3, ⟨1⟩, 0)], by decide +kernel⟩,
    by decide +kernel⟩

/-- Equal arrows. -/
example : (edgeOf sampleC 3).arrow = (edgeOf sampleD 6).arrow ∧
    contract ce0 names0 sampleC sampleD [(3, 6)] = .error "Different Fermi Arrow to Contract" := by
  decide +kernel

/-- Different dimensions: symmetry 1 of edge 2 has dimension 2, symmetry -1 of edge 5 dimension 1. -/
example : OMap.find? (mapOf sampleC 2) ⟨1⟩ = some 2 ∧ OMap.find? (mapOf sampleD 5) ⟨-1⟩ = some 1 ∧
    contract ce0 names0 sampleC sampleD [(2, 5)] = .error "Different Dimension to Contract" := by
  decide +kernel

/-- Edge 3 contracted twice. -/
example : contract ce0 names0 sampleC sampleD [(3, 4), (3, 7)] = .error "Duplicated Contract Name" := by
  decide +kernel

/-- A tensor contracted with itself over one edge: name 3 is left on both sides. -/
def sampleZ2 : Tensor ℕ Z2Symmetry ℤ :=
  ⟨[7, 3, 5], [⟨false, [(⟨false⟩, 1), (⟨true⟩, 2)]⟩, ⟨false, [(⟨false⟩, 1), (⟨true⟩, 1)]⟩,
      ⟨false, [(⟨false⟩, 2), (⟨true⟩, 1)]⟩],
    [([⟨false⟩, ⟨false⟩, ⟨false⟩], [1, 2]), ([⟨false⟩, ⟨true⟩, ⟨true⟩], [3]),
      ([⟨true⟩, ⟨false⟩, ⟨true⟩], [4, 5]), ([⟨true⟩, ⟨true⟩, ⟨false⟩], [6, 7, 8, 9])]⟩

theorem sampleZ2_wf : WF sampleZ2 := by
  refine ⟨by decide, by decide, by decide, by decide +kernel, by decide +kernel⟩

theorem sampleZ2_matched : Matched sampleZ2 sampleZ2 [(7, 7), (5, 5)] := by
  refine ⟨fun h => absurd h (by decide), fun c hc => ?_⟩
  simp only [List.mem_cons, List.not_mem_nil, or_false] at hc
  rcases hc with rfl | rfl
  · exact maps_of_keys (by decide +kernel) (by decide +kernel)
  · exact maps_of_keys (by decide +kernel) (by decide +kernel)

example : WF sampleZ2 ∧ Matched sampleZ2 sampleZ2 [(7, 7), (5, 5)] ∧ (∀ s : Z2Symmetry, -s = s) ∧
    ¬ (others sampleZ2.names [7, 5] ++ others sampleZ2.names [7, 5]).Nodup ∧
    contract ce0 names0 sampleZ2 sampleZ2 [(7, 7), (5, 5)] = .error "Duplicated names in name list" :=
  ⟨sampleZ2_wf, sampleZ2_matched, fun ⟨b⟩ => by cases b <;> decide, by decide, by decide +kernel⟩

/-- Two edges whose combinations of symmetries have different totals. -/
def sampleSep : Tensor ℕ U1Symmetry ℤ :=
  ⟨[1, 2, 3], [⟨false, [(⟨0⟩, 1), (⟨1⟩, 2)]⟩, ⟨false, [(⟨0⟩, 1), (⟨2⟩, 1)]⟩,
      ⟨false, [(⟨-3⟩, 1), (⟨-2⟩, 1), (⟨-1⟩, 1), (⟨0⟩, 1)]⟩],
    [([⟨0⟩, ⟨0⟩, ⟨0⟩], [1]), ([⟨0⟩, ⟨2⟩, ⟨-2⟩], [2]), ([⟨1⟩, ⟨0⟩, ⟨-1⟩], [3, 4]),
      ([⟨1⟩, ⟨2⟩, ⟨-3⟩], [5, 6])]⟩

def sampleSep' : Tensor ℕ U1Symmetry ℤ :=
  ⟨[2, 1, 4], [⟨false, [(⟨-2⟩, 1), (⟨0⟩, 1)]⟩, ⟨false, [(⟨-1⟩, 2), (⟨0⟩, 1)]⟩,
      ⟨false, [(⟨0⟩, 1), (⟨1⟩, 1), (⟨2⟩, 1), (⟨3⟩, 1)]⟩],
    [([⟨-2⟩, ⟨-1⟩, ⟨3⟩], [10, 20]), ([⟨-2⟩, ⟨0⟩, ⟨2⟩], [30]), ([⟨0⟩, ⟨-1⟩, ⟨1⟩], [40, 50]),
      ([⟨0⟩, ⟨0⟩, ⟨0⟩], [60])]⟩

theorem sampleSep_separated : Separated sampleSep [1, 2] := by
  intro p q hp hq hs
  have k1 : OMap.keys (mapOf sampleSep 1) = [⟨0⟩, ⟨1⟩] := by decide
  have k2 : OMap.keys (mapOf sampleSep 2) = [⟨0⟩, ⟨2⟩] := by decide
  have p1 := hp 1 (by simp)
  have p2 := hp 2 (by simp)
  have q1 := hq 1 (by simp)
  have q2 := hq 2 (by simp)
  rw [k1] at p1 q1
  rw [k2] at p2 q2
  simp only [List.mem_cons, List.not_mem_nil, or_false] at p1 p2 q1 q2
  simp only [List.map_cons, List.map_nil] at hs
  intro n hn
  simp only [List.mem_cons, List.not_mem_nil, or_false] at hn
  rcases p1 with p1 | p1 <;> rcases p2 with p2 | p2 <;> rcases q1 with q1 | q1 <;>
    rcases q2 with q2 | q2 <;> rw [p1, p2, q1, q2] at hs <;> rcases hn with rfl | rfl <;>
    first | (rw [p1, q1]; done) | (rw [p2, q2]; done) | exact absurd hs (by decide)

example : WF sampleSep ∧ WF sampleSep' ∧ Matched sampleSep sampleSep' [(1, 1), (2, 2)] ∧
    Separated sampleSep [1, 2] ∧
    contract ce0 names0 sampleSep sampleSep' [(1, 1), (2, 2)] =
      .ok ⟨[3, 4], [⟨false, [(⟨-3⟩, 1), (⟨-2⟩, 1), (⟨-1⟩, 1), (⟨0⟩, 1)]⟩,
          ⟨false, [(⟨0⟩, 1), (⟨1⟩, 1), (⟨2⟩, 1), (⟨3⟩, 1)]⟩],
        [([⟨-3⟩, ⟨3⟩], [5 * 10 + 6 * 20]), ([⟨-2⟩, ⟨2⟩], [2 * 30]), ([⟨-1⟩, ⟨1⟩], [3 * 40 + 4 * 50]),
          ([⟨0⟩, ⟨0⟩], [60])]⟩ := by
  refine ⟨⟨by decide, by decide, by decide, by decide +kernel, by decide +kernel⟩,
    ⟨by decide, by decide, by decide, by decide +kernel, by decide +kernel⟩,
    ⟨fun h => absurd h (by decide), fun c hc => ?_⟩, sampleSep_separated, by decide +kernel⟩
  simp only [List.mem_cons, List.not_mem_nil, or_false] at hc
  rcases hc with rfl | rfl
  · exact maps_of_keys (by decide +kernel) (by decide +kernel)
  · exact maps_of_keys (by decide +kernel) (by decide +kernel)

/-- Two contracted edges for Z2. -/
example : contract ce0 names0 sampleZ2 (edgeRename sampleZ2 [(3, 4)]) [(7, 7), (5, 5)] =
      .ok ⟨[3, 4], [⟨false, [(⟨false⟩, 1), (⟨true⟩, 1)]⟩, ⟨false, [(⟨false⟩, 1), (⟨true⟩, 1)]⟩],
        [([⟨false⟩, ⟨false⟩], [46]), ([⟨true⟩, ⟨true⟩], [239])]⟩ ∧
    contracted sampleZ2 (edgeRename sampleZ2 [(3, 4)]) [(7, 7), (5, 5)]
      (at0 [(3, ⟨true⟩, 0), (4, ⟨true⟩, 0)]) = 239 := by
  decide +kernel

end TAT
