import Verif.Trace.Errors
import Verif.Contract.Props

/-!
# Properties of the trace

C30: what `trace` computes.  The traced element is `traced` in `Verif/Trace/Spec.lean`.
-/

namespace TAT

variable {ν σ α : Type}

section
variable [LinearOrder ν] [TatSym σ]

/-- **C30** (partial): the trace over pairs of matching edges keeps the other edges, up to symmetries
which no block has any more, and at each position allowed by the symmetry is the sum of the elements
with opposite symmetries and equal indices on each pair, with the fermionic sign.

Missing: pairs of which two combinations of symmetries have the same total, for symmetries other than
Z2 (`hl`; the claim is false, see `C30_two_pairs_wrong`; a single pair is always fine).  `hz` is necessary, see `C30_no_zero_block`. -/
theorem C30_trace_partial [CommRing α] (env1 env2 : Env σ α) (junk : List σ → ℕ → α)
    {tn : TraceNames ν} (htn : [tn.t1, tn.t2, tn.t3].Nodup) {t : Tensor ν σ α} (h : WF t)
    {pairs : List (ν × ν)} (hn : (pairNames pairs).Nodup)
    (hs : ∀ n ∈ pairNames pairs, n ∈ t.names)
    (hm : Matched t t pairs)
    (hl : Separated t (pairs.map Prod.fst) ∨ ∀ s : σ, -s = s)
    (hz : ∃ p, keyOf t.names p ∈ OMap.keys t.core.blocks ∧
      (keyOf (others t.names (pairNames pairs)) p).sum = 0) :
    ∃ r, traceTensor env1 env2 junk tn t pairs = .ok r ∧
      r.names = others t.names (pairNames pairs) ∧ WF r ∧
      (∃ e : ν → Edge σ, r.core.edges = prunedEdges (r.names.map e) ∧ ∀ n ∈ r.names,
        (e n).map = mapOf t n ∧ (TatSym.isFermi σ = true → arrowValid (edgeOf t n) = true →
          (e n).arrow = (edgeOf t n).arrow)) ∧
      ∀ p, FineOk (mapOf t) r.names p → elem r p = some (traced t pairs p) := by
  obtain ⟨q, q1, q2⟩ := hz
  exact traceTensor_spec env1 env2 junk htn h hn hs hm.maps hm.arrows hl
    ((mem_keys_named h q).1 q1) q2

/-- **C30**: without a block whose other edges have total symmetry zero the behaviour is undefined:
the traced tensor has no block and trace.hpp 115 reads the first one. -/
theorem C30_no_zero_block [CommRing α] (env1 env2 : Env σ α) (junk : List σ → ℕ → α)
    {tn : TraceNames ν} (htn : [tn.t1, tn.t2, tn.t3].Nodup) {t : Tensor ν σ α} (h : WF t)
    {pairs : List (ν × ν)} (hn : (pairNames pairs).Nodup)
    (hs : ∀ n ∈ pairNames pairs, n ∈ t.names)
    (hm : Matched t t pairs)
    (hl : Separated t (pairs.map Prod.fst) ∨ ∀ s : σ, -s = s)
    (hz : ∀ p, keyOf t.names p ∈ OMap.keys t.core.blocks →
      (keyOf (others t.names (pairNames pairs)) p).sum ≠ 0) :
    traceTensor env1 env2 junk tn t pairs = .ub :=
  traceTensor_ub env1 env2 junk htn h hn hs hm.maps hm.arrows hl
    fun q hq => hz q ((mem_keys_named h q).2 hq)

/-- **C30**: a pair of which only one name occurs is an error. -/
theorem C30_half_missing [Add α] [Zero α] [Neg α] (env1 env2 : Env σ α) (junk : List σ → ℕ → α)
    (tn : TraceNames ν) {t : Tensor ν σ α} (h : WF t) {pairs : List (ν × ν)}
    (hn : (pairNames pairs).Nodup) {n m : ν} (hp : (n, m) ∈ pairs ∨ (m, n) ∈ pairs)
    (hi : n ∈ t.names) (ho : m ∉ t.names) :
    traceTensor env1 env2 junk tn t pairs = .error "map::at" :=
  traceTensor_missing env1 env2 junk tn h hn hp hi ho

/-- **C30**: more pairs than the rank allows are an error. -/
theorem C30_too_many [Add α] [Zero α] [Neg α] (env1 env2 : Env σ α) (junk : List σ → ℕ → α)
    (tn : TraceNames ν) {t : Tensor ν σ α} {pairs : List (ν × ν)}
    (hl : t.names.length < 2 * pairs.length) :
    (traceTensor env1 env2 junk tn t pairs).isError = true :=
  traceTensor_many env1 env2 junk tn hl

/-- **C30**: otherwise pairs of which neither name occurs are ignored. -/
theorem C30_unknown_ignored [Add α] [Zero α] [Neg α] (env1 env2 : Env σ α)
    (junk : List σ → ℕ → α) (tn : TraceNames ν) {t : Tensor ν σ α} {pairs : List (ν × ν)}
    (hl : 2 * pairs.length ≤ t.names.length) :
    traceTensor env1 env2 junk tn t pairs =
      traceTensor env1 env2 junk tn t
        (pairs.filter fun c => decide (c.1 ∈ t.names ∨ c.2 ∈ t.names)) :=
  traceTensor_unknown env1 env2 junk tn hl

end

/-! ## samples -/

def trNames0 : TraceNames ℕ := ⟨100, 101, 102⟩

/-- Edges 0 and 2 match, edge 1 has symmetry 0 only. -/
def sampleTr : Tensor ℕ FermiSymmetry ℤ :=
  ⟨[0, 1, 2], [⟨false, [(⟨0⟩, 1), (⟨1⟩, 2)]⟩, ⟨true, [(⟨0⟩, 2)]⟩, ⟨true, [(⟨-1⟩, 2), (⟨0⟩, 1)]⟩],
    [([⟨0⟩, ⟨0⟩, ⟨0⟩], [10, 20]), ([⟨1⟩, ⟨0⟩, ⟨-1⟩], [1, 2, 3, 4, 5, 6, 7, 8])]⟩

theorem sampleTr_wf : WF sampleTr := by
  refine ⟨by decide, by decide, by decide, by decide +kernel, by decide +kernel⟩

theorem sampleTr_matched : Matched sampleTr sampleTr [(0, 2)] := by
  refine ⟨fun _ => by decide, fun c hc => ?_⟩
  rw [List.mem_singleton] at hc
  subst hc
  exact maps_of_keys (by decide +kernel) (by decide +kernel)

/-- The hypotheses of `C30_trace_partial` with fermions. -/
example : WF sampleTr ∧ Matched sampleTr sampleTr [(0, 2)] ∧ (pairNames [(0, 2)]).Nodup ∧
    (∀ n ∈ pairNames [(0, 2)], n ∈ sampleTr.names) ∧
    (∃ p, keyOf sampleTr.names p ∈ OMap.keys sampleTr.core.blocks ∧
      (keyOf (others sampleTr.names (pairNames [(0, 2)])) p).sum = 0) :=
  ⟨sampleTr_wf, sampleTr_matched, by decide, by decide, at0 [], by decide +kernel⟩

/-- The odd part counts negative: the edge pointing in comes first. -/
example : traceTensor env0 env0 (fun _ _ => 77) trNames0 sampleTr [(0, 2)] =
      .ok ⟨[1], [⟨true, [(⟨0⟩, 2)]⟩], [([⟨0⟩], [10 - (1 + 6), 20 - (3 + 8)])]⟩ ∧
    traced sampleTr [(0, 2)] (at0 [(1, ⟨0⟩, 1)]) = 20 - (3 + 8) := by
  decide +kernel

/-- Two pairs for Z2. -/
def sampleTrZ2 : Tensor ℕ Z2Symmetry ℤ :=
  ⟨[0, 1, 2, 3], List.replicate 4 ⟨false, [(⟨false⟩, 1), (⟨true⟩, 1)]⟩,
    [([⟨false⟩, ⟨false⟩, ⟨false⟩, ⟨false⟩], [1]), ([⟨false⟩, ⟨false⟩, ⟨true⟩, ⟨true⟩], [2]),
      ([⟨false⟩, ⟨true⟩, ⟨false⟩, ⟨true⟩], [3]), ([⟨false⟩, ⟨true⟩, ⟨true⟩, ⟨false⟩], [4]),
      ([⟨true⟩, ⟨false⟩, ⟨false⟩, ⟨true⟩], [5]), ([⟨true⟩, ⟨false⟩, ⟨true⟩, ⟨false⟩], [6]),
      ([⟨true⟩, ⟨true⟩, ⟨false⟩, ⟨false⟩], [7]), ([⟨true⟩, ⟨true⟩, ⟨true⟩, ⟨true⟩], [8])]⟩

example : WF sampleTrZ2 ∧ Matched sampleTrZ2 sampleTrZ2 [(0, 2), (3, 1)] ∧
    (∀ s : Z2Symmetry, -s = s) := by
  refine ⟨⟨by decide, by decide, by decide, by decide +kernel, by decide +kernel⟩,
    ⟨fun h => absurd h (by decide), fun c hc => ?_⟩, fun ⟨b⟩ => by cases b <;> decide⟩
  simp only [List.mem_cons, List.not_mem_nil, or_false] at hc
  rcases hc with rfl | rfl
  · exact maps_of_keys (by decide +kernel) (by decide +kernel)
  · exact maps_of_keys (by decide +kernel) (by decide +kernel)

example : traceTensor env0 env0 (fun _ _ => 77) trNames0 sampleTrZ2 [(0, 2), (3, 1)] =
      .ok ⟨[], [], [([], [1 + 3 + 6 + 8])]⟩ ∧
    traced sampleTrZ2 [(0, 2), (3, 1)] (at0 []) = 1 + 3 + 6 + 8 := by
  decide +kernel

/-- Edges 0 and 2 match, edges 1 and 3 match, and exactly the diagonal elements are 1. -/
def sampleTrU1 : Tensor ℕ U1Symmetry ℤ :=
  ⟨[0, 1, 2, 3],
    [⟨false, [(⟨0⟩, 1), (⟨1⟩, 1)]⟩, ⟨false, [(⟨-1⟩, 1), (⟨0⟩, 1)]⟩, ⟨false, [(⟨-1⟩, 1), (⟨0⟩, 1)]⟩,
      ⟨false, [(⟨0⟩, 1), (⟨1⟩, 1)]⟩],
    [([⟨0⟩, ⟨-1⟩, ⟨0⟩, ⟨1⟩], [1]), ([⟨0⟩, ⟨0⟩, ⟨-1⟩, ⟨1⟩], [0]), ([⟨0⟩, ⟨0⟩, ⟨0⟩, ⟨0⟩], [1]),
      ([⟨1⟩, ⟨-1⟩, ⟨-1⟩, ⟨1⟩], [1]), ([⟨1⟩, ⟨-1⟩, ⟨0⟩, ⟨0⟩], [0]), ([⟨1⟩, ⟨0⟩, ⟨-1⟩, ⟨0⟩], [1])]⟩

/-- **C30** is false for two pairs whose symmetries are not their own opposites: the trace of an
identity with four dimensions is computed to be 2. -/
theorem C30_two_pairs_wrong :
    WF sampleTrU1 ∧ Matched sampleTrU1 sampleTrU1 [(0, 2), (1, 3)] ∧
    traced sampleTrU1 [(0, 2), (1, 3)] (at0 []) = 4 ∧
    traceTensor env0 env0 (fun _ _ => 77) trNames0 sampleTrU1 [(0, 2), (1, 3)] =
      .ok ⟨[], [], [([], [2])]⟩ := by
  refine ⟨⟨by decide, by decide, by decide, by decide +kernel, by decide +kernel⟩,
    ⟨fun h => absurd h (by decide), fun c hc => ?_⟩, by decide +kernel, by decide +kernel⟩
  simp only [List.mem_cons, List.not_mem_nil, or_false] at hc
  rcases hc with rfl | rfl
  · exact maps_of_keys (by decide +kernel) (by decide +kernel)
  · exact maps_of_keys (by decide +kernel) (by decide +kernel)

/-- Edge 1 has symmetry 1 only, so no block of the trace exists. -/
def sampleTrNone : Tensor ℕ U1Symmetry ℤ :=
  ⟨[0, 1, 2], [⟨false, [(⟨-1⟩, 1), (⟨0⟩, 1)]⟩, ⟨false, [(⟨1⟩, 1)]⟩,
      ⟨false, [(⟨-1⟩, 1), (⟨0⟩, 1)]⟩],
    [([⟨-1⟩, ⟨1⟩, ⟨0⟩], [1]), ([⟨0⟩, ⟨1⟩, ⟨-1⟩], [2])]⟩

/-- A tensor satisfying the hypothesis `hz` of `C30_no_zero_block` (here the edges have no common
symmetries with their opposites). -/
example : (∀ k ∈ OMap.keys sampleTrNone.core.blocks, k.getD 1 0 ≠ 0) ∧
    traceTensor env0 env0 (fun _ _ => 77) trNames0 sampleTrNone [(0, 2)] = .ub := by
  decide +kernel

/-- A single pair of matching edges whose blocks all have a free edge that is not balanced: edges 0
and 2 are opposite to each other. -/
def sampleTrNone2 : Tensor ℕ U1Symmetry ℤ :=
  ⟨[0, 1, 2], [⟨false, [(⟨0⟩, 1), (⟨1⟩, 2)]⟩, ⟨false, [(⟨-1⟩, 1), (⟨1⟩, 1)]⟩,
      ⟨false, [(⟨-1⟩, 2), (⟨0⟩, 1)]⟩],
    [([⟨0⟩, ⟨1⟩, ⟨-1⟩], [1, 2]), ([⟨1⟩, ⟨-1⟩, ⟨0⟩], [3, 4])]⟩

theorem sampleTrNone2_wf : WF sampleTrNone2 := by
  refine ⟨by decide, by decide, by decide, by decide +kernel, by decide +kernel⟩

/-- The hypotheses of `C30_no_zero_block`. -/
example : WF sampleTrNone2 ∧ Matched sampleTrNone2 sampleTrNone2 [(0, 2)] ∧
    (∀ p, keyOf sampleTrNone2.names p ∈ OMap.keys sampleTrNone2.core.blocks →
      (keyOf (others sampleTrNone2.names (pairNames [(0, 2)])) p).sum ≠ 0) := by
  refine ⟨sampleTrNone2_wf, ⟨fun h => absurd h (by decide), fun c hc => ?_⟩, fun p hp => ?_⟩
  · rw [List.mem_singleton] at hc
    subst hc
    exact maps_of_keys (by decide +kernel) (by decide +kernel)
  · have hk : OMap.keys sampleTrNone2.core.blocks =
        [[⟨0⟩, ⟨1⟩, ⟨-1⟩], [⟨1⟩, ⟨-1⟩, ⟨0⟩]] := by decide
    rw [hk] at hp
    have ho : others sampleTrNone2.names (pairNames [(0, 2)]) = [1] := by decide
    rw [ho]
    simp only [keyOf, sampleTrNone2, List.map_cons, List.map_nil, List.mem_cons, List.not_mem_nil,
      or_false, List.cons.injEq, and_true, List.sum_cons, List.sum_nil, add_zero] at hp ⊢
    rcases hp with ⟨_, h, _⟩ | ⟨_, h, _⟩ <;> rw [h] <;> decide

/-- Edge 5 of the pair does not occur. -/
example : traceTensor env0 env0 (fun _ _ => 77) trNames0 sampleTr [(0, 5)] = .error "map::at" := by
  decide +kernel

/-- Two pairs for three edges. -/
example : traceTensor env0 env0 (fun _ _ => 77) trNames0 sampleTr [(0, 2), (8, 9)] =
    .error "vector::reserve" := by
  decide +kernel

/-- A pair of unknown names beside a known pair, within the rank. -/
example : sampleTrZ2.names.length ≥ 2 * [(0, 2), (8, 9)].length ∧
    (traceTensor env0 env0 (fun _ _ => 77) trNames0 sampleTrZ2 [(0, 2), (8, 9)]).toOption.isSome ∧
    [(0, 2), (8, 9)].filter (fun c => decide (c.1 ∈ sampleTrZ2.names ∨ c.2 ∈ sampleTrZ2.names)) =
      [(0, 2)] := by
  decide +kernel

/-- **C30**: dimensions of a pair are not compared.  For a 2 × 3 matrix the elements `(0, 0)` and
`(1, 0)` are added; no error is reported. -/
theorem C30_dimension_unchecked :
    traceTensor env0 env0 (fun _ _ => 77) trNames0
      (⟨[0, 1], [⟨false, [(⟨⟩, 2)]⟩, ⟨false, [(⟨⟩, 3)]⟩],
        [([⟨⟩, ⟨⟩], [1, 2, 3, 4, 5, 6])]⟩ : Tensor ℕ NoSymmetry ℤ)
      [(0, 1)] = .ok ⟨[], [], [([], [1 + 4])]⟩ := by
  decide +kernel

/-- **C30**: arrows of a pair are not compared either: with both edges pointing in, the trace is
computed as if the first pointed out. -/
theorem C30_arrow_unchecked :
    (traceTensor env0 env0 (fun _ _ => 77) trNames0
      (⟨[0, 1], [⟨false, [(⟨0⟩, 1), (⟨1⟩, 1)]⟩, ⟨false, [(⟨-1⟩, 1), (⟨0⟩, 1)]⟩],
        [([⟨0⟩, ⟨0⟩], [1]), ([⟨1⟩, ⟨-1⟩], [2])]⟩ : Tensor ℕ FermiSymmetry ℤ)
      [(0, 1)]) = .ok ⟨[], [], [([], [3])]⟩ := by
  decide +kernel

end TAT
