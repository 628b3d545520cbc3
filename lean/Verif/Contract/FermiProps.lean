import Verif.Contract.Props
import Verif.Contract.Sectors

/-!
# Contraction of fermionic edges with different symmetries

C28 for fermionic tensors one of whose contracted edges has a symmetry whose opposite the partner lacks.
-/

namespace TAT

variable {ν σ α : Type}

section
variable [LinearOrder ν] [TatSym σ]

/-- `Separated` for the symmetries of the contracted edges whose opposites the partners have. -/
def SharedSeparated (t1 t2 : Tensor ν σ α) (cs : List (ν × ν)) : Prop :=
  ∀ p q : ν → σ,
    (∀ c ∈ cs, p c.1 ∈ OMap.keys (mapOf t1 c.1) ∧ -p c.1 ∈ OMap.keys (mapOf t2 c.2)) →
    (∀ c ∈ cs, q c.1 ∈ OMap.keys (mapOf t1 c.1) ∧ -q c.1 ∈ OMap.keys (mapOf t2 c.2)) →
    ((cs.map Prod.fst).map p).sum = ((cs.map Prod.fst).map q).sum → ∀ c ∈ cs, p c.1 = q c.1

/-- If both tensors keep at most one edge, every allowed combination of symmetries of the edges kept is
that of a block of the first tensor whose symmetries on the contracted edges the partners have. -/
def SharedReached (t1 t2 : Tensor ν σ α) (cs : List (ν × ν)) : Prop :=
  (others t1.names (cs.map Prod.fst)).length ≤ 1 ∧ (others t2.names (cs.map Prod.snd)).length ≤ 1 →
  ∀ p : ν → σ × ℕ,
    (∀ n ∈ others t1.names (cs.map Prod.fst), (p n).1 ∈ OMap.keys (mapOf t1 n)) →
    (∀ n ∈ others t2.names (cs.map Prod.snd), (p n).1 ∈ OMap.keys (mapOf t2 n)) →
    (keyOf (others t1.names (cs.map Prod.fst)) p).sum +
      (keyOf (others t2.names (cs.map Prod.snd)) p).sum = 0 →
    ∃ q : ν → σ × ℕ, keyOf t1.names q ∈ OMap.keys t1.core.blocks ∧
      (∀ c ∈ cs, -(q c.1).1 ∈ OMap.keys (mapOf t2 c.2)) ∧
      ∀ n ∈ others t1.names (cs.map Prod.fst), (q n).1 = (p n).1

section
variable {t1 t2 : Tensor ν σ α} {cs : List (ν × ν)}

theorem shared1_iff (hp : Pairs t1.names t2.names cs) (p : ν → σ) :
    (∀ n ∈ t1.names, shared1 t2 cs n (p n) = true) ↔
      ∀ c ∈ cs, -p c.1 ∈ OMap.keys (mapOf t2 c.2) := by
  constructor
  · intro h c hc
    have := h c.1 (hp.sub1 c hc)
    rwa [shared1_common hp.nodup1 hc, OMap.find?_isSome] at this
  · intro h n _
    by_cases hn : n ∈ cs.map Prod.fst
    · obtain ⟨c, hc, rfl⟩ := List.mem_map.1 hn
      rw [shared1_common hp.nodup1 hc, OMap.find?_isSome]
      exact h c hc
    · exact shared1_free hn _

theorem shared2_iff (hp : Pairs t1.names t2.names cs) (p : ν → σ) :
    (∀ n ∈ t2.names, shared2 t1 cs n (p n) = true) ↔
      ∀ c ∈ cs, -p c.2 ∈ OMap.keys (mapOf t1 c.1) := by
  constructor
  · intro h c hc
    have := h c.2 (hp.sub2 c hc)
    rwa [shared2_common hp.nodup2 hc, OMap.find?_isSome] at this
  · intro h n _
    by_cases hn : n ∈ cs.map Prod.snd
    · obtain ⟨c, hc, rfl⟩ := List.mem_map.1 hn
      rw [shared2_common hp.nodup2 hc, OMap.find?_isSome]
      exact h c hc
    · exact shared2_free hn _

theorem SharedSeparated.restrict (h1 : Shaped t1) (hp : Pairs t1.names t2.names cs)
    (h : SharedSeparated t1 t2 cs) :
    Separated (restrictBy (shared1 t2 cs) t1) (cs.map Prod.fst) := by
  have key : ∀ p : ν → σ, (∀ n ∈ cs.map Prod.fst,
      p n ∈ OMap.keys (mapOf (restrictBy (shared1 t2 cs) t1) n)) →
      ∀ c ∈ cs, p c.1 ∈ OMap.keys (mapOf t1 c.1) ∧ -p c.1 ∈ OMap.keys (mapOf t2 c.2) := by
    intro p hp' c hc
    have := hp' c.1 (List.mem_map_of_mem hc)
    rw [restrictBy_mapOf h1 (hp.sub1 c hc), OMap.mem_keys_filter_key _ (shared1 t2 cs c.1),
      shared1_common hp.nodup1 hc, OMap.find?_isSome] at this
    exact ⟨this.2, this.1⟩
  intro p q k1 k2 hs n hn
  obtain ⟨c, hc, rfl⟩ := List.mem_map.1 hn
  exact h p q (key p k1) (key q k2) hs c hc

theorem SharedReached.restrict (h1 : Shaped t1) (h2 : Shaped t2) (hp : Pairs t1.names t2.names cs)
    (h : SharedReached t1 t2 cs) :
    Reached (restrictBy (shared1 t2 cs) t1) (restrictBy (shared2 t1 cs) t2) cs := by
  intro hl p k1 k2 h0
  rw [restrictBy_names, restrictBy_names] at *
  have f1 : ∀ n ∈ others t1.names (cs.map Prod.fst), (p n).1 ∈ OMap.keys (mapOf t1 n) := by
    intro n hn
    have := k1 n hn
    rw [restrictBy_mapOf h1 (mem_others.1 hn).1, OMap.mem_keys_filter_key _ (shared1 t2 cs n)] at this
    exact this.2
  have f2 : ∀ n ∈ others t2.names (cs.map Prod.snd), (p n).1 ∈ OMap.keys (mapOf t2 n) := by
    intro n hn
    have := k2 n hn
    rw [restrictBy_mapOf h2 (mem_others.1 hn).1, OMap.mem_keys_filter_key _ (shared2 t1 cs n)] at this
    exact this.2
  obtain ⟨q, b1, b2, b3⟩ := h hl p f1 f2 h0
  rw [mem_keys_named' h1] at b1
  have e1 : keyOf (others t1.names (cs.map Prod.fst)) q =
      keyOf (others t1.names (cs.map Prod.fst)) p := List.map_congr_left b3
  have hs := b1.2
  rw [sum_split (hp.split1 h1.nodup), e1] at hs
  refine ⟨q, partner cs p q, ?_, ?_, by rw [e1], by
    rw [keyOf_congr fun n hn => partner_free p q (mem_others.1 hn).2]⟩
  · exact (restrictBy_key h1 q).2 ⟨b1, (shared1_iff hp fun n => (q n).1).2 b2⟩
  · refine (restrictBy_key h2 _).2 ⟨⟨fun n hn => ?_, ?_⟩,
      (shared2_iff hp fun n => (partner cs p q n).1).2 fun c hc => ?_⟩
    · by_cases hc : n ∈ cs.map Prod.snd
      · obtain ⟨c, hcc, rfl⟩ := List.mem_map.1 hc
        rw [partner_common hp.nodup2 p q hcc]
        exact b2 c hcc
      · rw [partner_free p q hc]
        exact f2 n (mem_others.2 ⟨hn, hc⟩)
    · rw [sum_split (hp.split2 h2.nodup), partner_sum hp.nodup2, partner_key hp]
      rw [← neg_eq_of_add_eq_zero_right hs, neg_neg, add_comm]
      exact h0
    · rw [partner_common hp.nodup2 p q hc, neg_neg]
      exact b1.1 c.1 (hp.sub1 c hc)

theorem outerEdge_restrict (h1 : Shaped t1) (h2 : Shaped t2) {n : ν}
    (hn : n ∈ others t1.names (cs.map Prod.fst) ++ others t2.names (cs.map Prod.snd)) :
    outerEdge (restrictBy (shared1 t2 cs) t1) (restrictBy (shared2 t1 cs) t2) cs n =
      outerEdge t1 t2 cs n := by
  unfold outerEdge
  rw [restrictBy_names]
  split
  · rename_i h
    obtain ⟨a, b⟩ := mem_others.1 h
    exact restrictBy_edgeOf_keep h1 a (shared1_free b)
  · rename_i h
    obtain ⟨a, b⟩ := mem_others.1 ((List.mem_append.1 hn).resolve_left h)
    exact restrictBy_edgeOf_keep h2 a (shared2_free b)

theorem restrict_same1 (h1 : Shaped t1) (hp : Pairs t1.names t2.names cs)
    (h : ∀ c ∈ cs, ∀ s ∈ OMap.keys (mapOf t1 c.1), -s ∈ OMap.keys (mapOf t2 c.2)) :
    restrictBy (shared1 t2 cs) t1 = t1 := by
  refine restrictBy_all h1 fun n _ s hs => ?_
  by_cases hc : n ∈ cs.map Prod.fst
  · obtain ⟨c, hcc, rfl⟩ := List.mem_map.1 hc
    rw [shared1_common hp.nodup1 hcc, OMap.find?_isSome]
    exact h c hcc s hs
  · exact shared1_free hc s

theorem restrict_same2 (h2 : Shaped t2) (hp : Pairs t1.names t2.names cs)
    (h : ∀ c ∈ cs, ∀ s ∈ OMap.keys (mapOf t2 c.2), -s ∈ OMap.keys (mapOf t1 c.1)) :
    restrictBy (shared2 t1 cs) t2 = t2 := by
  refine restrictBy_all h2 fun n _ s hs => ?_
  by_cases hc : n ∈ cs.map Prod.snd
  · obtain ⟨c, hcc, rfl⟩ := List.mem_map.1 hc
    rw [shared2_common hp.nodup2 hcc, OMap.find?_isSome]
    exact h c hcc s hs
  · exact shared2_free hc s

theorem reversed1_iff (h1 : Shaped t1) (hf : TatSym.isFermi σ = true) :
    reversedNames (others t1.names (cs.map Prod.fst)) false t1 ≠ [] ↔
      ∃ n ∈ t1.names, (edgeOf t1 n).arrow = decide (n ∉ cs.map Prod.fst) := by
  have hm := fun n => mem_reversedNames h1 (free := others t1.names (cs.map Prod.fst)) (out := false)
    (n := n)
  have he : ∀ n ∈ t1.names, ((if n ∈ others t1.names (cs.map Prod.fst) then (edgeOf t1 n).arrow
      else decide ((edgeOf t1 n).arrow = false)) = true) ↔
      (edgeOf t1 n).arrow = decide (n ∉ cs.map Prod.fst) := by
    intro n hn
    by_cases hc : n ∈ cs.map Prod.fst
    · rw [if_neg fun h => (mem_others.1 h).2 hc, decide_eq_false (p := n ∉ cs.map Prod.fst) fun h => h hc]
      exact decide_eq_true_iff
    · rw [if_pos (mem_others.2 ⟨hn, hc⟩), decide_eq_true hc]
  constructor
  · intro h
    obtain ⟨n, hn⟩ := List.exists_mem_of_ne_nil _ h
    obtain ⟨-, a, b⟩ := (hm n).1 hn
    exact ⟨n, a, (he n a).1 b⟩
  · rintro ⟨n, a, b⟩ h
    have := (hm n).2 ⟨hf, a, (he n a).2 b⟩
    rw [h] at this
    cases this

theorem reversed2_iff (h2 : Shaped t2) (hf : TatSym.isFermi σ = true) :
    reversedNames (others t2.names (cs.map Prod.snd)) true t2 ≠ [] ↔
      ∃ n ∈ t2.names, (edgeOf t2 n).arrow = true := by
  have hm := fun n => mem_reversedNames h2 (free := others t2.names (cs.map Prod.snd)) (out := true)
    (n := n)
  constructor
  · intro h
    obtain ⟨n, hn⟩ := List.exists_mem_of_ne_nil _ h
    obtain ⟨-, a, b⟩ := (hm n).1 hn
    refine ⟨n, a, ?_⟩
    split at b
    · exact b
    · exact of_decide_eq_true b
  · rintro ⟨n, a, b⟩ h
    have := (hm n).2 ⟨hf, a, by rw [b]; simp⟩
    rw [h] at this
    cases this

end

/-- **C28** (partial), fermions, contracted edges with different symmetries: the result is the same
sum as in `C28_contract_partial`, in which the symmetries the partner lacks do not occur, provided that
each tensor with such symmetries has an edge which `contract` reverses: a contracted edge of the first
tensor with arrow `false` or another one with arrow `true`, any edge of the second tensor with arrow
`true` (`r1`, `r2`).  Without such an edge the contraction fails, see `C28_fermi_must_match`.  `hl` is
that of `C28_contract_partial` for the symmetries both edges have.  `hne` asks more than there: without
it the claim is false, see `C28_fermi_must_reach`. -/
theorem C28_fermi_sectors_partial [CommRing α] (ce : ContractEnv σ α) (hg : GemmOk ce.gemm)
    {cn : ContractNames ν} (hcn : cn.c1 ≠ cn.c2) (hns : TatSym.isNoSym σ = false)
    (hf : TatSym.isFermi σ = true)
    {t1 t2 : Tensor ν σ α} (h1 : WF t1) (h2 : WF t2) {pairs cs : List (ν × ν)}
    (hcs : knownPairs t1 t2 pairs = cs)
    (hp1 : (cs.map Prod.fst).Nodup) (hp2 : (cs.map Prod.snd).Nodup)
    (ha : ∀ c ∈ cs, (edgeOf t1 c.1).arrow ≠ (edgeOf t2 c.2).arrow)
    (hd : ∀ c ∈ cs, ∀ s d1 d2, OMap.find? (mapOf t1 c.1) s = some d1 →
      OMap.find? (mapOf t2 c.2) (-s) = some d2 → d1 = d2)
    (r1 : (∀ c ∈ cs, ∀ s ∈ OMap.keys (mapOf t1 c.1), -s ∈ OMap.keys (mapOf t2 c.2)) ∨
      ∃ n ∈ t1.names, (edgeOf t1 n).arrow = decide (n ∉ cs.map Prod.fst))
    (r2 : (∀ c ∈ cs, ∀ s ∈ OMap.keys (mapOf t2 c.2), -s ∈ OMap.keys (mapOf t1 c.1)) ∨
      ∃ n ∈ t2.names, (edgeOf t2 n).arrow = true)
    (hl : SharedSeparated t1 t2 cs ∨ ∀ s : σ, -s = s)
    (hnd : (others t1.names (cs.map Prod.fst) ++ others t2.names (cs.map Prod.snd)).Nodup)
    (hne : SharedReached t1 t2 cs) :
    ∃ r, contract ce cn t1 t2 pairs = .ok r ∧
      r.names = others t1.names (cs.map Prod.fst) ++ others t2.names (cs.map Prod.snd) ∧ WF r ∧
      (∃ e : ν → Edge σ, r.core.edges = prunedEdges (r.names.map e) ∧
        ∀ n ∈ r.names, (e n).map = (outerEdge t1 t2 cs n).map ∧
          (arrowValid (outerEdge t1 t2 cs n) = true →
            (e n).arrow = (outerEdge t1 t2 cs n).arrow)) ∧
      ∀ p, FineOk (fun n => (outerEdge t1 t2 cs n).map) r.names p →
        elem r p = some (contracted t1 t2 cs p) := by
  rw [← knownPairs_eq] at hcs
  have hdup : duplicated (keepPairs t1.names t2.names pairs) = false := by
    rw [hcs]; exact (duplicated_iff _).2 ⟨hp1, hp2⟩
  have hp := pairs_keep hdup
  rw [hcs] at hp
  have s1 := h1.shaped
  have s2 := h2.shaped
  have hj : Joined t1 t2 cs := ⟨fun _ => ha, hd⟩
  have heq := contractWithoutFuse_restrict ce.gemm ce.env1 ce.env2 ce.env3 ce.junk hcn s1 s2 hf hdup hcs
    hj (r1.imp (restrict_same1 s1 hp) (reversed1_iff s1 hf).2)
    (r2.imp (restrict_same2 s2 hp) (reversed2_iff s2 hf).2)
  have key := contractWithoutFuse_shaped hg ce.env1 ce.env2 ce.env3 ce.junk hcn
    (restrictBy_shaped (keep := shared1 t2 cs) s1) (restrictBy_shaped (keep := shared2 t1 cs) s2) hns
    (pairs := pairs) hdup hcs (matched_restrict s1 s2 hp hj)
    (hl.imp (fun h => h.restrict s1 hp) id) hnd (hne.restrict s1 s2 hp)
  rw [restrictBy_names, restrictBy_names] at key
  obtain ⟨r, e1, e2, e3, ⟨e, e4, e5⟩, e6⟩ := key
  refine ⟨r, ?_, e2, e3, ⟨e, by rw [e2]; exact e4, fun n hn => ?_⟩, fun p hpp => ?_⟩
  · unfold contract
    rw [hns, if_neg (by simp), heq]
    exact e1
  · rw [e2] at hn
    have := e5 n hn
    rw [outerEdge_restrict s1 s2 hn] at this
    exact ⟨this.1, this.2 hf⟩
  · rw [e2] at hpp
    rw [e6 p, contracted_restrict s1 s2 hp]
    refine ⟨fun n hn => ?_, hpp.2⟩
    have := hpp.1 n hn
    show (p n).2 < dimM (outerEdge _ _ cs n).map (p n).1
    rw [outerEdge_restrict s1 s2 hn]
    exact this

/-- **C28** is false for fermions if a block of one tensor has a symmetry on a contracted edge whose
opposite the partner lacks and `contract` has no edge of this tensor to reverse: the contraction never
succeeds. -/
theorem C28_fermi_must_match [CommRing α] (ce : ContractEnv σ α) (cn : ContractNames ν)
    (hns : TatSym.isNoSym σ = false) (hf : TatSym.isFermi σ = true)
    {t1 t2 : Tensor ν σ α} (h1 : WF t1) (h2 : WF t2) {pairs cs : List (ν × ν)}
    (hcs : knownPairs t1 t2 pairs = cs) {c : ν × ν} (hc : c ∈ cs)
    (hmis : ((∃ p : ν → σ × ℕ, keyOf t1.names p ∈ OMap.keys t1.core.blocks ∧
        -(p c.1).1 ∉ OMap.keys (mapOf t2 c.2)) ∧
        ∀ n ∈ t1.names, (edgeOf t1 n).arrow = decide (n ∈ cs.map Prod.fst)) ∨
      ((∃ p : ν → σ × ℕ, keyOf t2.names p ∈ OMap.keys t2.core.blocks ∧
        -(p c.2).1 ∉ OMap.keys (mapOf t1 c.1)) ∧
        ∀ n ∈ t2.names, (edgeOf t2 n).arrow = false)) (r : Tensor ν σ α) :
    contract ce cn t1 t2 pairs ≠ .ok r := by
  unfold contract
  rw [hns, if_neg (by simp)]
  have hmem : c ∈ knownPairs t1 t2 pairs := by rw [hcs]; exact hc
  obtain ⟨hc0, hc'⟩ := List.mem_filter.1 hmem
  obtain ⟨hc1, hc2⟩ := of_decide_eq_true hc'
  refine contractWithoutFuse_missing _ _ _ _ _ _ h1 h2 hc0 hc1 hc2 (hmis.imp
    (fun h => ⟨h.1, fun _ => ?_⟩) (fun h => ⟨h.1, fun _ => ?_⟩)) r
  · rw [knownPairs_eq, hcs]
    by_contra hne
    obtain ⟨n, hn, hn'⟩ := (reversed1_iff h1.shaped hf).1 hne
    rw [h.2 n hn] at hn'
    by_cases hm : n ∈ cs.map Prod.fst
    · rw [decide_eq_true hm, decide_eq_false (by simpa using hm)] at hn'
      cases hn'
    · rw [decide_eq_false hm, decide_eq_true hm] at hn'
      cases hn'
  · rw [knownPairs_eq, hcs]
    by_contra hne
    obtain ⟨n, hn, hn'⟩ := (reversed2_iff h2.shaped hf).1 hne
    rw [h.2 n hn] at hn'
    cases hn'

/-- With one contracted edge `SharedReached` holds unless a tensor has no block. -/
theorem sharedReached_single {t1 t2 : Tensor ν σ α} (h1 : WF t1) (h2 : WF t2) {c : ν × ν}
    (hc1 : c.1 ∈ t1.names) (hc2 : c.2 ∈ t2.names) (b1 : t1.core.blocks ≠ []) (b2 : t2.core.blocks ≠ []) :
    SharedReached t1 t2 [c] := by
  have hp : Pairs t1.names t2.names [c] := ⟨by simp, by simp, by simpa using hc1, by simpa using hc2⟩
  rintro ⟨hl1, hl2⟩ p f1 f2 h0
  -- blocks with the symmetries of `p`
  have key : ∀ (t : Tensor ν σ α) (_ : WF t) (x : ν), (others t.names [x]).length ≤ 1 →
      t.core.blocks ≠ [] → (∀ n ∈ others t.names [x], (p n).1 ∈ OMap.keys (mapOf t n)) →
      ∃ q, KeyOk (mapOf t) t.names q ∧ ∀ n ∈ others t.names [x], (q n).1 = (p n).1 := by
    intro t h x hl hb hk
    match hG : others t.names [x], hl, hk with
    | [], _, _ =>
      obtain ⟨q, hq⟩ := exists_key_of_blocks h.shaped hb
      exact ⟨q, hq, by simp⟩
    | [n], _, hk =>
      have hn : n ∈ others t.names [x] := by rw [hG]; simp
      obtain ⟨q, hq, hq'⟩ := exists_key_at h (mem_others.1 hn).1 (hk n (by simp))
      exact ⟨q, hq, by simpa using hq'⟩
    | _ :: _ :: _, hl, _ => simp at hl
  obtain ⟨q1, k1, e1⟩ := key t1 h1 c.1 hl1 b1 f1
  obtain ⟨q2, k2, e2⟩ := key t2 h2 c.2 hl2 b2 f2
  refine ⟨q1, (mem_keys_named' h1.shaped q1).2 k1, fun d hd => ?_, e1⟩
  obtain rfl : d = c := by simpa using hd
  have s1 := k1.2
  have s2 := k2.2
  rw [sum_split (hp.split1 h1.nodup)] at s1
  rw [sum_split (hp.split2 h2.nodup)] at s2
  have g1 : keyOf (others t1.names ([d].map Prod.fst)) q1 =
      keyOf (others t1.names ([d].map Prod.fst)) p := List.map_congr_left e1
  have g2 : keyOf (others t2.names ([d].map Prod.snd)) q2 =
      keyOf (others t2.names ([d].map Prod.snd)) p := List.map_congr_left e2
  rw [g1] at s1
  rw [g2] at s2
  have t1' : (keyOf ([d].map Prod.fst) q1).sum = (q1 d.1).1 := by simp [keyOf]
  have t2' : (keyOf ([d].map Prod.snd) q2).sum = (q2 d.2).1 := by simp [keyOf]
  rw [t1'] at s1
  rw [t2'] at s2
  have : -(q1 d.1).1 = (q2 d.2).1 := by
    rw [neg_eq_of_add_eq_zero_left s1]
    have hh := neg_eq_of_add_eq_zero_right s2
    rw [← hh]
    exact eq_neg_of_add_eq_zero_left h0
  rw [this]
  exact k2.1 d.2 hc2

/-- **C28** for one contracted edge of fermionic tensors with blocks, without assuming that the
symmetries of the edges match: the contraction succeeds if and only if each of the tensors has only
symmetries the partner has the opposites of, or an edge which `contract` reverses, and then its
elements are the sums. -/
theorem C28_fermi_one_edge [CommRing α] (ce : ContractEnv σ α) (hg : GemmOk ce.gemm)
    {cn : ContractNames ν} (hcn : cn.c1 ≠ cn.c2) (hns : TatSym.isNoSym σ = false)
    (hf : TatSym.isFermi σ = true)
    {t1 t2 : Tensor ν σ α} (h1 : WF t1) (h2 : WF t2) {pairs : List (ν × ν)} {c : ν × ν}
    (hcs : knownPairs t1 t2 pairs = [c]) (ha : (edgeOf t1 c.1).arrow ≠ (edgeOf t2 c.2).arrow)
    (hd : ∀ s d1 d2, OMap.find? (mapOf t1 c.1) s = some d1 →
      OMap.find? (mapOf t2 c.2) (-s) = some d2 → d1 = d2)
    (hnd : (others t1.names [c.1] ++ others t2.names [c.2]).Nodup)
    (b1 : t1.core.blocks ≠ []) (b2 : t2.core.blocks ≠ []) :
    ((∃ r, contract ce cn t1 t2 pairs = .ok r) ↔
      ((∀ s ∈ OMap.keys (mapOf t1 c.1), -s ∈ OMap.keys (mapOf t2 c.2)) ∨
        ∃ n ∈ t1.names, (edgeOf t1 n).arrow = decide (n ≠ c.1)) ∧
      ((∀ s ∈ OMap.keys (mapOf t2 c.2), -s ∈ OMap.keys (mapOf t1 c.1)) ∨
        ∃ n ∈ t2.names, (edgeOf t2 n).arrow = true)) ∧
    ∀ r, contract ce cn t1 t2 pairs = .ok r →
      r.names = others t1.names [c.1] ++ others t2.names [c.2] ∧ WF r ∧
      (∃ e : ν → Edge σ, r.core.edges = prunedEdges (r.names.map e) ∧
        ∀ n ∈ r.names, (e n).map = (outerEdge t1 t2 [c] n).map ∧
          (arrowValid (outerEdge t1 t2 [c] n) = true →
            (e n).arrow = (outerEdge t1 t2 [c] n).arrow)) ∧
      ∀ p, FineOk (fun n => (outerEdge t1 t2 [c] n).map) r.names p →
        elem r p = some (contracted t1 t2 [c] p) := by
  have hmem : c ∈ knownPairs t1 t2 pairs := by rw [hcs]; simp
  obtain ⟨hc1, hc2⟩ := of_decide_eq_true (List.mem_filter.1 hmem).2
  have hyes := fun r1 r2 => C28_fermi_sectors_partial ce hg hcn hns hf h1 h2 hcs (by simp) (by simp)
    (by simpa using ha) (by simpa using hd) r1 r2
    (Or.inl (by
      intro p q _ _ hs d hdd
      obtain rfl : d = c := by simpa using hdd
      simpa using hs)) hnd (sharedReached_single h1 h2 hc1 hc2 b1 b2)
  have hno : ∀ r, contract ce cn t1 t2 pairs = .ok r →
      ((∀ s ∈ OMap.keys (mapOf t1 c.1), -s ∈ OMap.keys (mapOf t2 c.2)) ∨
        ∃ n ∈ t1.names, (edgeOf t1 n).arrow = decide (n ≠ c.1)) ∧
      ((∀ s ∈ OMap.keys (mapOf t2 c.2), -s ∈ OMap.keys (mapOf t1 c.1)) ∨
        ∃ n ∈ t2.names, (edgeOf t2 n).arrow = true) := by
    intro r hr
    constructor
    · by_contra hh
      rw [not_or] at hh
      obtain ⟨g1, g2⟩ := hh
      push Not at g1 g2
      obtain ⟨s, hs, hs'⟩ := g1
      obtain ⟨q, hq, hq'⟩ := exists_key_at h1 hc1 hs
      refine C28_fermi_must_match ce cn hns hf h1 h2 hcs (List.mem_singleton_self c) (Or.inl
        ⟨⟨q, (mem_keys_named' h1.shaped q).2 hq, by rw [hq']; exact hs'⟩, fun n hn => ?_⟩) r hr
      have := g2 n hn
      by_cases hnc : n = c.1
      · simpa [hnc] using this
      · simpa [hnc] using this
    · by_contra hh
      rw [not_or] at hh
      obtain ⟨g1, g2⟩ := hh
      push Not at g1 g2
      obtain ⟨s, hs, hs'⟩ := g1
      obtain ⟨q, hq, hq'⟩ := exists_key_at h2 hc2 hs
      refine C28_fermi_must_match ce cn hns hf h1 h2 hcs (List.mem_singleton_self c) (Or.inr
        ⟨⟨q, (mem_keys_named' h2.shaped q).2 hq, by rw [hq']; exact hs'⟩, fun n hn => ?_⟩) r hr
      simpa using g2 n hn
  have hmove : ((∀ s ∈ OMap.keys (mapOf t1 c.1), -s ∈ OMap.keys (mapOf t2 c.2)) ∨
        ∃ n ∈ t1.names, (edgeOf t1 n).arrow = decide (n ≠ c.1)) ∧
      ((∀ s ∈ OMap.keys (mapOf t2 c.2), -s ∈ OMap.keys (mapOf t1 c.1)) ∨
        ∃ n ∈ t2.names, (edgeOf t2 n).arrow = true) → _ := fun hh => hyes
    (by simpa using hh.1) (by simpa using hh.2)
  refine ⟨⟨fun ⟨r, hr⟩ => hno r hr, fun hh => ?_⟩, fun r hr => ?_⟩
  · obtain ⟨r, hr, _⟩ := hmove hh
    exact ⟨r, hr⟩
  · obtain ⟨r', hr', rest⟩ := hmove (hno r hr)
    rw [hr, Outcome.ok.injEq] at hr'
    subst hr'
    exact rest

end

/-! ## cases -/

/-- Edge 1 has the symmetry -1. -/
def sampleLack1 : Tensor ℕ FermiSymmetry ℤ :=
  ⟨[0, 1, 2], ⟨[⟨true, [(⟨0⟩, 1), (⟨1⟩, 2)]⟩, ⟨true, [(⟨-1⟩, 1), (⟨0⟩, 1)]⟩, ⟨true, [(⟨0⟩, 1)]⟩],
    [([⟨0⟩, ⟨0⟩, ⟨0⟩], [1]), ([⟨1⟩, ⟨-1⟩, ⟨0⟩], [2, 5])]⟩⟩

/-- Edge 3 lacks the symmetry 1. -/
def sampleLack2 : Tensor ℕ FermiSymmetry ℤ :=
  ⟨[3, 4, 5], ⟨[⟨false, [(⟨0⟩, 1)]⟩, ⟨false, [(⟨0⟩, 1), (⟨1⟩, 1)]⟩, ⟨true, [(⟨-1⟩, 1), (⟨0⟩, 1)]⟩],
    [([⟨0⟩, ⟨0⟩, ⟨0⟩], [3]), ([⟨0⟩, ⟨1⟩, ⟨-1⟩], [4])]⟩⟩

theorem sampleLack1_wf : WF sampleLack1 := by
  refine ⟨by decide, by decide, by decide, by decide +kernel, by decide +kernel⟩

theorem sampleLack2_wf : WF sampleLack2 := by
  refine ⟨by decide, by decide, by decide, by decide +kernel, by decide +kernel⟩

/-- The hypotheses of `C28_fermi_one_edge`, for the pair (1, 3) with different symmetries. -/
example : knownPairs sampleLack1 sampleLack2 [(1, 3)] = [(1, 3)] ∧
    (edgeOf sampleLack1 1).arrow ≠ (edgeOf sampleLack2 3).arrow ∧
    (∀ s ∈ OMap.keys (mapOf sampleLack1 1), ∀ d ∈ OMap.find? (mapOf sampleLack2 3) (-s),
      OMap.find? (mapOf sampleLack1 1) s = some d) ∧
    (others sampleLack1.names [1] ++ others sampleLack2.names [3]).Nodup ∧
    -(⟨-1⟩ : FermiSymmetry) ∉ OMap.keys (mapOf sampleLack2 3) ∧
    (edgeOf sampleLack1 0).arrow = decide (0 ≠ 1) ∧
    (contract ce0 names0 sampleLack1 sampleLack2 [(1, 3)]).toOption.isSome = true := by
  decide +kernel

/-- Elements with and without the missing symmetry. -/
example : ((contract ce0 names0 sampleLack1 sampleLack2 [(1, 3)]).toOption.map fun r =>
      (elem r (at0 [(4, ⟨1⟩, 0), (5, ⟨-1⟩, 0)]), elem r (at0 [(0, ⟨1⟩, 1), (5, ⟨-1⟩, 0)]))) =
        some (some 4, some 0) ∧
    contracted sampleLack1 sampleLack2 [(1, 3)] (at0 [(4, ⟨1⟩, 0), (5, ⟨-1⟩, 0)]) = 4 ∧
    contracted sampleLack1 sampleLack2 [(1, 3)] (at0 [(0, ⟨1⟩, 1), (5, ⟨-1⟩, 0)]) = 0 := by
  decide +kernel

/-- With the arrows of the edges 0 and 2 exchanged there is no edge to reverse. -/
def sampleLack3 : Tensor ℕ FermiSymmetry ℤ :=
  ⟨[0, 1, 2], ⟨[⟨false, [(⟨0⟩, 1), (⟨1⟩, 2)]⟩, ⟨true, [(⟨-1⟩, 1), (⟨0⟩, 1)]⟩, ⟨false, [(⟨0⟩, 1)]⟩],
    [([⟨0⟩, ⟨0⟩, ⟨0⟩], [1]), ([⟨1⟩, ⟨-1⟩, ⟨0⟩], [2, 5])]⟩⟩

/-- The hypotheses of `C28_fermi_must_match`. -/
example : WF sampleLack3 ∧ keyOf sampleLack3.names (at0 [(0, ⟨1⟩, 0), (1, (⟨-1⟩ : FermiSymmetry), 0)]) ∈
      OMap.keys sampleLack3.core.blocks ∧
    (∀ n ∈ sampleLack3.names, (edgeOf sampleLack3 n).arrow = decide (n ∈ [1])) ∧
    contract ce0 names0 sampleLack3 sampleLack2 [(1, 3)] = .error "map::at" := by
  refine ⟨⟨by decide, by decide, by decide, by decide +kernel, by decide +kernel⟩, ?_⟩
  decide +kernel

/-- **C28** is false without `SharedReached`: all the other hypotheses of `C28_fermi_sectors_partial`
hold, the element at the symmetries 1 and -1 should be an empty sum, and the contraction fails since
no block of the product has them. -/
theorem C28_fermi_must_reach :
    WF sampleLack1 ∧ WF sampleLack2 ∧ SharedSeparated sampleLack1 sampleLack2 [(1, 3), (2, 4)] ∧
    (edgeOf sampleLack1 0).arrow = decide (0 ∉ [(1, 3), (2, 4)].map Prod.fst) ∧
    (edgeOf sampleLack2 5).arrow = true ∧
    FineOk (fun n => (outerEdge sampleLack1 sampleLack2 [(1, 3), (2, 4)] n).map) [0, 5]
      (at0 [(0, (⟨1⟩ : FermiSymmetry), 0), (5, ⟨-1⟩, 0)]) ∧
    contracted sampleLack1 sampleLack2 [(1, 3), (2, 4)] (at0 [(0, ⟨1⟩, 0), (5, ⟨-1⟩, 0)]) = 0 ∧
    contract ce0 names0 sampleLack1 sampleLack2 [(1, 3), (2, 4)] = .error "map::at" := by
  refine ⟨sampleLack1_wf, sampleLack2_wf, ?_, by decide +kernel, by decide +kernel, ?_, by decide +kernel,
    by decide +kernel⟩
  · intro p q hp hq _ c hc
    have key : ∀ p : ℕ → FermiSymmetry, (∀ c ∈ [(1, 3), (2, 4)],
        p c.1 ∈ OMap.keys (mapOf sampleLack1 c.1) ∧ -p c.1 ∈ OMap.keys (mapOf sampleLack2 c.2)) →
        ∀ c ∈ [((1 : ℕ), (3 : ℕ)), (2, 4)], p c.1 = 0 := by
      intro p hp c hc
      have a1 := (hp (1, 3) (by simp)).2
      have a2 := (hp (2, 4) (by simp)).1
      rw [show OMap.keys (mapOf sampleLack2 ((1, 3) : ℕ × ℕ).2) = [0] by decide] at a1
      rw [show OMap.keys (mapOf sampleLack1 ((2, 4) : ℕ × ℕ).1) = [0] by decide] at a2
      simp only [List.mem_cons, List.not_mem_nil, or_false] at hc a1 a2
      rcases hc with rfl | rfl
      · exact neg_eq_zero.1 a1
      · exact a2
    rw [key p hp c hc, key q hq c hc]
  · unfold FineOk
    decide +kernel

end TAT
