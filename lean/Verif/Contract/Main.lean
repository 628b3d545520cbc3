import Verif.Contract.Body
import Verif.EdgeMisc.MergeProps

/-!
# Contraction of symmetric tensors as a whole
-/

set_option linter.unusedSectionVars false

namespace TAT

variable {ν σ α : Type} [LinearOrder ν] [TatSym σ]

/-! ## symmetries present in the product -/

/-- Every symmetry of an edge takes part in a block. -/
theorem exists_key_at {t : Tensor ν σ α} (h : WF t) {n : ν} (hn : n ∈ t.names) {s : σ}
    (hs : s ∈ OMap.keys (mapOf t n)) : ∃ q, KeyOk (mapOf t) t.names q ∧ (q n).1 = s := by
  have hp := h.pruned
  rw [edges_named h, prunedEdges_eq_iff h.nodup] at hp
  exact hp n hn s hs

theorem exists_key_of_blocks {t : Tensor ν σ α} (h : Shaped t) (hb : t.core.blocks ≠ []) :
    ∃ q, KeyOk (mapOf t) t.names q := by
  obtain ⟨b, hb⟩ := List.exists_mem_of_ne_nil _ hb
  have hk : b.1 ∈ OMap.keys t.core.blocks := List.mem_map_of_mem hb
  have hl := (h.mem_keys.1 hk).1.length_eq
  obtain ⟨q, hq⟩ := exists_pos h.nodup (k := b.1) (by rw [← hl, h.rank])
  rw [← hq, mem_keys_named' h] at hk
  exact ⟨q, hk⟩

theorem keys_raw {t1 t2 : Tensor ν σ α} (h1 : WF t1) (h2 : WF t2) {cs : List (ν × ν)}
    (hp : Pairs t1.names t2.names cs)
    (hm : ∀ c ∈ cs, ∀ s, OMap.find? (mapOf t1 c.1) s = OMap.find? (mapOf t2 c.2) (-s))
    (hl : (others t1.names (cs.map Prod.fst)).length ≤ 1)
    (hne : others t1.names (cs.map Prod.fst) = [] → others t2.names (cs.map Prod.snd) ≠ [] ∨
      ∃ q, KeyOk (mapOf t1) t1.names q) {p : ν → σ × ℕ}
    (hp1 : ∀ n ∈ others t1.names (cs.map Prod.fst), (p n).1 ∈ OMap.keys (mapOf t1 n))
    (hp2 : ∀ n ∈ others t2.names (cs.map Prod.snd), (p n).1 ∈ OMap.keys (mapOf t2 n))
    (h0 : (keyOf (others t1.names (cs.map Prod.fst)) p).sum +
      (keyOf (others t2.names (cs.map Prod.snd)) p).sum = 0) :
    ∃ q1 q2, KeyOk (mapOf t1) t1.names q1 ∧ KeyOk (mapOf t2) t2.names q2 ∧
      (∀ n ∈ others t1.names (cs.map Prod.fst), q1 n = p n) ∧
      ∀ n ∈ others t2.names (cs.map Prod.snd), q2 n = p n := by
  have s1 := hp.split1 h1.nodup
  have s2 := hp.split2 h2.nodup
  have hq : ∃ q, KeyOk (mapOf t1) t1.names q ∧
      (keyOf (others t1.names (cs.map Prod.fst)) q).sum =
        (keyOf (others t1.names (cs.map Prod.fst)) p).sum := by
    match hG : others t1.names (cs.map Prod.fst), hl with
    | [n], _ =>
      have hn : n ∈ others t1.names (cs.map Prod.fst) := by rw [hG]; simp
      obtain ⟨q, hq, hqn⟩ := exists_key_at h1 (mem_others.1 hn).1 (hp1 n hn)
      refine ⟨q, hq, ?_⟩
      simp [keyOf, hqn]
    | [], _ =>
      have : ∃ q, KeyOk (mapOf t1) t1.names q := by
        rcases hne hG with h | h
        · by_contra hno
          have hcs : cs ≠ [] := by
            rintro rfl
            apply hno
            have : t1.names = [] := by
              have := s1
              rw [hG] at this
              simpa using this
            refine ⟨fun _ => (0, 0), ?_⟩
            rw [this]
            exact ⟨by simp, rfl⟩
          obtain ⟨c, hc⟩ := List.exists_mem_of_ne_nil _ hcs
          obtain ⟨m, hmem⟩ := List.exists_mem_of_ne_nil _ h
          obtain ⟨q2, hq2, _⟩ := exists_key_at h2 (mem_others.1 hmem).1 (hp2 m hmem)
          have := hq2.1 c.2 (hp.sub2 c hc)
          rw [← OMap.find?_isSome] at this
          have hh := hm c hc (-(q2 c.2).1)
          rw [neg_neg] at hh
          rw [← hh, OMap.find?_isSome] at this
          obtain ⟨q, hq, _⟩ := exists_key_at h1 (hp.sub1 c hc) this
          exact hno ⟨q, hq⟩
        · exact h
      obtain ⟨q, hq⟩ := this
      exact ⟨q, hq, rfl⟩
  obtain ⟨q, hq, hqs⟩ := hq
  set G1 := others t1.names (cs.map Prod.fst) with hG1
  let q1 : ν → σ × ℕ := fun n => if n ∈ G1 then p n else q n
  have e1 : ∀ n ∈ G1, q1 n = p n := fun n hn => if_pos hn
  have e2 : ∀ n ∈ cs.map Prod.fst, q1 n = q n := fun n hn =>
    if_neg fun hh => (mem_others.1 hh).2 hn
  have hsum : (keyOf t1.names q1).sum = 0 := by
    rw [sum_split s1, keyOf_congr e1, keyOf_congr e2, ← hqs, ← sum_split s1]
    exact hq.2
  have k1 : KeyOk (mapOf t1) t1.names q1 := by
    refine ⟨fun n hn => ?_, hsum⟩
    by_cases hh : n ∈ G1
    · rw [e1 n hh]; exact hp1 n hh
    · change (if n ∈ G1 then p n else q n).1 ∈ _
      rw [if_neg hh]; exact hq.1 n hn
  refine ⟨q1, partner cs p q1, k1, ⟨fun n hn => ?_, ?_⟩, e1,
    fun n hn => partner_free p q1 (mem_others.1 hn).2⟩
  · by_cases hc : n ∈ cs.map Prod.snd
    · obtain ⟨c, hcc, rfl⟩ := List.mem_map.1 hc
      rw [partner_common hp.nodup2 p q1 hcc]
      have := k1.1 c.1 (hp.sub1 c hcc)
      rw [← OMap.find?_isSome] at this ⊢
      rwa [hm c hcc] at this
    · rw [partner_free p q1 hc]
      exact hp2 n (mem_others.2 ⟨hn, hc⟩)
  · rw [sum_split s2, partner_sum hp.nodup2, partner_key hp]
    rw [sum_split s1, keyOf_congr e1] at hsum
    rw [← neg_eq_of_add_eq_zero_right hsum, neg_neg, add_comm]
    exact h0

theorem Pairs.swap {names1 names2 : List ν} {cs : List (ν × ν)} (h : Pairs names1 names2 cs) :
    Pairs names2 names1 (cs.map Prod.swap) where
  nodup1 := by rw [List.map_map]; exact h.nodup2
  nodup2 := by rw [List.map_map]; exact h.nodup1
  sub1 := by
    intro c hc
    obtain ⟨d, hd, rfl⟩ := List.mem_map.1 hc
    exact h.sub2 d hd
  sub2 := by
    intro c hc
    obtain ⟨d, hd, rfl⟩ := List.mem_map.1 hc
    exact h.sub1 d hd

theorem keys_small {t1 t2 : Tensor ν σ α} (h1 : WF t1) (h2 : WF t2) {cs : List (ν × ν)}
    (hp : Pairs t1.names t2.names cs)
    (hm : ∀ c ∈ cs, ∀ s, OMap.find? (mapOf t1 c.1) s = OMap.find? (mapOf t2 c.2) (-s))
    (hl : (others t1.names (cs.map Prod.fst)).length ≤ 1 ∨
      (others t2.names (cs.map Prod.snd)).length ≤ 1)
    (hne : others t1.names (cs.map Prod.fst) ++ others t2.names (cs.map Prod.snd) ≠ [] ∨
      t1.core.blocks ≠ []) {p : ν → σ × ℕ}
    (hp1 : ∀ n ∈ others t1.names (cs.map Prod.fst), (p n).1 ∈ OMap.keys (mapOf t1 n))
    (hp2 : ∀ n ∈ others t2.names (cs.map Prod.snd), (p n).1 ∈ OMap.keys (mapOf t2 n))
    (h0 : (keyOf (others t1.names (cs.map Prod.fst)) p).sum +
      (keyOf (others t2.names (cs.map Prod.snd)) p).sum = 0) :
    ∃ q1 q2, KeyOk (mapOf t1) t1.names q1 ∧ KeyOk (mapOf t2) t2.names q2 ∧
      (∀ n ∈ others t1.names (cs.map Prod.fst), q1 n = p n) ∧
      ∀ n ∈ others t2.names (cs.map Prod.snd), q2 n = p n := by
  by_cases hl1 : (others t1.names (cs.map Prod.fst)).length ≤ 1
  · refine keys_raw h1 h2 hp hm hl1 (fun he => ?_) hp1 hp2 h0
    rcases hne with h | h
    · left; rw [he] at h; exact h
    · right; exact exists_key_of_blocks h1.shaped h
  · have hl2 := hl.resolve_left hl1
    have e1 : (cs.map Prod.swap).map Prod.fst = cs.map Prod.snd := by rw [List.map_map]; rfl
    have e2 : (cs.map Prod.swap).map Prod.snd = cs.map Prod.fst := by rw [List.map_map]; rfl
    have := keys_raw h2 h1 hp.swap (by
      intro c hc s
      obtain ⟨d, hd, rfl⟩ := List.mem_map.1 hc
      have := hm d hd (-s)
      rw [neg_neg] at this
      exact this.symm) (p := p) (by rw [e1]; exact hl2) (by
      intro _
      left
      rw [e2]
      intro he
      rw [he] at hl1
      exact hl1 (by simp)) (by rw [e1]; exact hp2) (by rw [e2]; exact hp1) (by
      rw [e1, e2, add_comm]; exact h0)
    rw [e1, e2] at this
    obtain ⟨q2, q1, a, b, c, d⟩ := this
    exact ⟨q1, q2, b, a, d, c⟩

/-- If both tensors keep at most one edge, the totals of the symmetries of the edges kept are those of
blocks. -/
def Reached (t1 t2 : Tensor ν σ α) (cs : List (ν × ν)) : Prop :=
  (others t1.names (cs.map Prod.fst)).length ≤ 1 ∧ (others t2.names (cs.map Prod.snd)).length ≤ 1 →
  ∀ p : ν → σ × ℕ,
    (∀ n ∈ others t1.names (cs.map Prod.fst), (p n).1 ∈ OMap.keys (mapOf t1 n)) →
    (∀ n ∈ others t2.names (cs.map Prod.snd), (p n).1 ∈ OMap.keys (mapOf t2 n)) →
    (keyOf (others t1.names (cs.map Prod.fst)) p).sum +
      (keyOf (others t2.names (cs.map Prod.snd)) p).sum = 0 →
    ∃ q1 q2, KeyOk (mapOf t1) t1.names q1 ∧ KeyOk (mapOf t2) t2.names q2 ∧
      (keyOf (others t1.names (cs.map Prod.fst)) q1).sum =
        (keyOf (others t1.names (cs.map Prod.fst)) p).sum ∧
      (keyOf (others t2.names (cs.map Prod.snd)) q2).sum =
        (keyOf (others t2.names (cs.map Prod.snd)) p).sum

theorem reached_of_matched {t1 t2 : Tensor ν σ α} (h1 : WF t1) (h2 : WF t2) {cs : List (ν × ν)}
    (hp : Pairs t1.names t2.names cs)
    (hm : ∀ c ∈ cs, ∀ s, OMap.find? (mapOf t1 c.1) s = OMap.find? (mapOf t2 c.2) (-s))
    (hne : others t1.names (cs.map Prod.fst) ++ others t2.names (cs.map Prod.snd) ≠ [] ∨
      t1.core.blocks ≠ []) : Reached t1 t2 cs := by
  intro hl p hp1 hp2 h0
  obtain ⟨q1, q2, b1, b2, b3, b4⟩ := keys_small h1 h2 hp hm (Or.inl hl.1) hne hp1 hp2 h0
  exact ⟨q1, q2, b1, b2, by rw [keyOf_congr b3], by rw [keyOf_congr b4]⟩

/-! ## arrows -/

theorem reversed_false {t : Tensor ν σ α} (h : Shaped t) (hf : TatSym.isFermi σ = true) {free : List ν}
    {out : Bool} {n : ν} (hn : n ∈ free) (hn' : n ∈ t.names) :
    (reversedEdge (reversedNames free out t) (edgeOf t) n).arrow = false := by
  unfold reversedEdge
  rw [if_pos hf]
  unfold reverseOne
  have := mem_reversedNames h (free := free) (out := out) (n := n)
  rw [if_pos hn] at this
  split
  · rename_i hr
    rw [this] at hr
    dsimp only
    rw [hr.2.2]; rfl
  · rename_i hr
    rw [this] at hr
    by_contra ha
    exact hr ⟨hf, hn', by simpa using ha⟩

theorem arrowValid_reversed (e : ν → Edge σ) (reversed : List ν) (n : ν) :
    arrowValid (reversedEdge reversed e n) = arrowValid (e n) := by
  unfold reversedEdge reverseOne arrowValid
  split
  · split <;> rfl
  · rfl

/-- The merged free edge points in if any of its parts has an arrow that matters. -/
theorem merged_arrow {t : Tensor ν σ α} (h : Shaped t) (hf : TatSym.isFermi σ = true) {free : List ν}
    {out : Bool} (hsub : ∀ n ∈ free, n ∈ t.names) (b : Bool) {n : ν} (hn : n ∈ free)
    (hv : arrowValid (edgeOf t n) = true) :
    (groupEdge b (free.map (reversedEdge (reversedNames free out t) (edgeOf t)))).arrow = false := by
  have := (groupEdge_arrow (e := reversedEdge (reversedNames free out t) (edgeOf t)) hf (g := free)
    (fun m hm m' hm' _ _ => by
      rw [reversed_false h hf hm (hsub m hm), reversed_false h hf hm' (hsub m' hm')]) b hn
    (by rw [arrowValid_reversed]; exact hv)).2
  rw [this, reversed_false h hf hn (hsub n hn)]

/-! ## the whole contraction -/

/-- The edge of the result with a given name. -/
def outerEdge (t1 t2 : Tensor ν σ α) (cs : List (ν × ν)) (n : ν) : Edge σ :=
  if n ∈ others t1.names (cs.map Prod.fst) then edgeOf t1 n else edgeOf t2 n

theorem restore_spec [CommRing α] (env : Env σ α) {t1 t2 : Tensor ν σ α} {cn : ContractNames ν}
    (hcn : cn.c1 ≠ cn.c2) {cs : List (ν × ν)} {right1 right2 : Bool}
    {S1 S2 : (ν → σ × ℕ) → ℤ} {F1 C1 F2 C2 : Edge σ} {m1 m2 r : Tensor ν σ α}
    (h : Merges t1 t2 cs right1 right2 S1 S2 F1 C1 F2 C2 m1 m2)
    (hns : TatSym.isNoSym σ = false)
    (hnd : (others t1.names (cs.map Prod.fst) ++ others t2.names (cs.map Prod.snd)).Nodup)
    (hne : Reached t1 t2 cs)
    (hF : Fresh [cn.c1, cn.c2] (productEdge cn F1 F2) r)
    (hel : ∀ s0 ∈ OMap.keys F1.map, ∀ s1 ∈ OMap.keys F2.map, s0 + s1 = 0 →
        ∀ j < dimOf F1 s0, ∀ i < dimOf F2 s1, elemAt r.core [s0, s1] [j, i] =
          some (alphaOf right1 right2 s0 * ((List.range (dimOf C1 s1)).map fun l =>
            (elemAt m1.core (pairOf right1 s0 s1) (pairOf right1 j l)).getD 0 *
            (elemAt m2.core (pairOf right2 s1 s0) (pairOf right2 i l)).getD 0).sum))
    (ha1 : TatSym.isFermi σ = true → ∀ n ∈ others t1.names (cs.map Prod.fst),
      arrowValid (edgeOf t1 n) = true → F1.arrow = false)
    (ha2 : TatSym.isFermi σ = true → ∀ n ∈ others t2.names (cs.map Prod.snd),
      arrowValid (edgeOf t2 n) = true → F2.arrow = false) :
    ∃ r3, edgeOperator env r (restoreArgs cn t1 t2 (others t1.names (cs.map Prod.fst))
        (others t2.names (cs.map Prod.snd))) = .ok r3 ∧
      r3.names = others t1.names (cs.map Prod.fst) ++ others t2.names (cs.map Prod.snd) ∧ WF r3 ∧
      (∃ e : ν → Edge σ, r3.core.edges = prunedEdges
          ((others t1.names (cs.map Prod.fst) ++ others t2.names (cs.map Prod.snd)).map e) ∧
        ∀ n ∈ others t1.names (cs.map Prod.fst) ++ others t2.names (cs.map Prod.snd),
          (e n).map = (outerEdge t1 t2 cs n).map ∧
          (TatSym.isFermi σ = true → arrowValid (outerEdge t1 t2 cs n) = true →
            (e n).arrow = (outerEdge t1 t2 cs n).arrow)) ∧
      ∀ p, FineOk (fun n => (outerEdge t1 t2 cs n).map)
        (others t1.names (cs.map Prod.fst) ++ others t2.names (cs.map Prod.snd)) p →
        elem r3 p = some (contracted t1 t2 cs p) := by
  set G1 := others t1.names (cs.map Prod.fst) with hG1
  set G2 := others t2.names (cs.map Prod.snd) with hG2
  set a := restoreArgs cn t1 t2 G1 G2 with ha
  have hmapE : [cn.c1, cn.c2].map (productEdge cn F1 F2) = [F1, F2] := by
    simp [productEdge, Ne.symm hcn]
  have hre : r.core.edges = prunedEdges [F1, F2] := by rw [← hmapE]; exact hF.edges
  have hsF1 : OMap.Sorted F1.map := h.view1.wf.sorted _ (by
    rw [h.view1.edges]; cases right1 <;> simp [pairOf])
  have hsF2 : OMap.Sorted F2.map := h.view2.wf.sorted _ (by
    rw [h.view2.edges]; cases right2 <;> simp [pairOf])
  have hsE : ∀ e ∈ [F1, F2], OMap.Sorted e.map := by
    intro e he
    simp only [List.mem_cons, List.not_mem_nil, or_false] at he
    rcases he with rfl | rfl
    · exact hsF1
    · exact hsF2
  obtain ⟨E1, E2, hE, hE1, hE2⟩ : ∃ E1 E2, prunedEdges [F1, F2] = [E1, E2] ∧
      E1.arrow = F1.arrow ∧ E2.arrow = F2.arrow := ⟨_, _, rfl, rfl, rfl⟩
  have hdim : (∀ s ∈ OMap.keys E1.map, dimOf E1 s = dimOf F1 s) ∧
      (∀ s ∈ OMap.keys E2.map, dimOf E2 s = dimOf F2 s) := by
    have := fun i hi s hs => dims_pruned hsE (i := i) hi (s := s) hs
    simp only [hE] at this
    exact ⟨this 0 (by simp), this 1 (by simp)⟩
  have hsub : (∀ s ∈ OMap.keys E1.map, s ∈ OMap.keys F1.map) ∧
      ∀ s ∈ OMap.keys E2.map, s ∈ OMap.keys F2.map := by
    unfold prunedEdges at hE
    simp only [List.mapIdx_cons, List.mapIdx_nil, List.cons.injEq, and_true] at hE
    obtain ⟨rfl, rfl⟩ := hE
    constructor <;>
    · intro s hs
      obtain ⟨x, hx, rfl⟩ := List.mem_map.1 hs
      exact List.mem_map_of_mem (List.mem_of_mem_filter hx)
  have hin : ∀ s0 ∈ OMap.keys F1.map, ∀ s1 ∈ OMap.keys F2.map, s0 + s1 = 0 →
      s0 ∈ OMap.keys E1.map ∧ s1 ∈ OMap.keys E2.map := by
    intro s0 hs0 s1 hs1 h0
    have := (pruned_keys hsE (k := [s0, s1]) (.cons hs0 (.cons hs1 .nil)) (by simpa using h0)).1
    rw [hE] at this
    simpa using this
  have hpair : (∀ s0 ∈ OMap.keys E1.map, ∃ s1 ∈ OMap.keys F2.map, s0 + s1 = 0) ∧
      ∀ s1 ∈ OMap.keys E2.map, ∃ s0 ∈ OMap.keys F1.map, s0 + s1 = 0 := by
    unfold prunedEdges at hE
    simp only [List.mapIdx_cons, List.mapIdx_nil, List.cons.injEq, and_true] at hE
    obtain ⟨rfl, rfl⟩ := hE
    have hu : ∀ i s, usedAt ([F1, F2].map Edge.map) i s = true → ∃ s0 ∈ OMap.keys F1.map,
        ∃ s1 ∈ OMap.keys F2.map, s0 + s1 = 0 ∧ [s0, s1][i]? = some s := by
      intro i s h
      obtain ⟨b, hb, hb'⟩ := List.any_eq_true.1 h
      obtain ⟨c, c1, c2, rfl⟩ := mem_blockShapes.1 hb
      match c, c1, c2, hb' with
      | [x, y], .cons x1 (.cons y1 .nil), c2, hb' =>
        exact ⟨x.1, List.mem_map_of_mem x1, y.1, List.mem_map_of_mem y1, by simpa using c2,
          of_decide_eq_true hb'⟩
    constructor <;>
    · intro s hs
      obtain ⟨x, hx, rfl⟩ := List.mem_map.1 hs
      obtain ⟨s0, k0, s1, k1, h0, he⟩ := hu _ _ (List.mem_filter.1 hx).2
      simp only [List.getElem?_cons_zero, List.getElem?_cons_succ, Nat.zero_add, Option.some.injEq] at he
      first
        | exact ⟨s1, k1, by rw [← he]; exact h0⟩
        | exact ⟨s0, k0, by rw [← he]; exact h0⟩
  rw [hE] at hre
  have hS := split_groups h.wf1 h.wf2 hcn (K1 := cs.map Prod.fst) (K2 := cs.map Prod.snd) hF.namesEq
  obtain ⟨hf1, hf2⟩ := split_fine h.wf1 h.wf2 hcn hF.namesEq hre hnd
  have hM := split_opM (t1 := t1) (t2 := t2) (cn := cn) (K1 := cs.map Prod.fst)
    (K2 := cs.map Prod.snd)
  rw [← hG1, ← hG2, ← ha] at hS hM hf1 hf2
  have hSf : (opS r a).flatten = G1 ++ G2 := by rw [hS]; simp
  have hMf : (opM a).flatten = G1 ++ G2 := by rw [hM, flatten_singletons]
  have hcut : opCut r a = [E1, E2] := by rw [← hre]; rfl
  have hdis : ∀ n ∈ G2, n ∉ G1 := fun n hn hn' => (List.nodup_append.1 hnd).2.2 n hn' n hn rfl
  have hmap1 : ∀ n ∈ G1, opMap r a n = mapOf t1 n := by
    intro n hn; unfold opMap; rw [hf1 n hn]
  have hmap2 : ∀ n ∈ G2, opMap r a n = mapOf t2 n := by
    intro n hn; unfold opMap; rw [hf2 n hn]
  have ho1 : ∀ n ∈ G1, outerEdge t1 t2 cs n = edgeOf t1 n := fun n hn => if_pos hn
  have ho2 : ∀ n ∈ G2, outerEdge t1 t2 cs n = edgeOf t2 n := fun n hn => if_neg (hdis n hn)
  have hmapO : ∀ n ∈ G1 ++ G2, opMap r a n = (outerEdge t1 t2 cs n).map := by
    intro n hn
    rcases List.mem_append.1 hn with hn | hn
    · rw [hmap1 n hn, ho1 n hn]; rfl
    · rw [hmap2 n hn, ho2 n hn]; rfl
  have hk1 : OMap.find? a.split cn.c1 = some (G1.map fun n => (n, mapOf t1 n)) := by
    rw [ha]; unfold restoreArgs
    rw [(find_two hcn _ _).1, hG1, splitParts_eq h.wf1]
  have hk2 : OMap.find? a.split cn.c2 = some (G2.map fun n => (n, mapOf t2 n)) := by
    rw [ha]; unfold restoreArgs
    rw [(find_two hcn _ _).2, hG2, splitParts_eq h.wf2]
  have hsum2 : ∀ p : ν → σ × ℕ, (keyOf (G1 ++ G2) p).sum =
      (keyOf G1 p).sum + (keyOf G2 p).sum := fun p => sum_split (List.Perm.refl _) p
  have hfit : ∀ p, KeyOk (opMap r a) (opS r a).flatten p → (G1.length ≤ 1 ∧ G2.length ≤ 1) →
      (keyOf G1 p).sum ∈ OMap.keys E1.map ∧ (keyOf G2 p).sum ∈ OMap.keys E2.map := by
    intro p hp hl
    rw [hSf] at hp
    obtain ⟨q1, q2, b1, b2, b3, b4⟩ := hne hl p
      (fun n hn => by
        have := hp.1 n (List.mem_append_left _ hn)
        rwa [hmap1 n hn] at this)
      (fun n hn => by
        have := hp.1 n (List.mem_append_right _ hn)
        rwa [hmap2 n hn] at this) (by rw [← hG1, ← hG2, ← hsum2]; exact hp.2)
    have c1 := (h.view1.keys q1 (b1.perm (h.pairs.split1 h.wf1.nodup))).1
    have c2 := (h.view2.keys q2 (b2.perm (h.pairs.split2 h.wf2.nodup))).1
    rw [b3, ← hG1] at c1
    rw [b4, ← hG2] at c2
    exact hin _ c1 _ c2 (by rw [← hsum2]; exact hp.2)
  have hother1 : ∀ p, (keyOf (G1 ++ G2) p).sum = 0 → (keyOf G2 p).sum ∈ OMap.keys E2.map →
      (keyOf G1 p).sum ∈ OMap.keys E1.map := by
    intro p hp hm
    obtain ⟨s0, k0, h0⟩ := hpair.2 _ hm
    rw [hsum2] at hp
    have : s0 = (keyOf G1 p).sum := add_right_cancel (h0.trans hp.symm)
    rw [← this]
    exact (hin _ k0 _ (hsub.2 _ hm) h0).1
  have hother2 : ∀ p, (keyOf (G1 ++ G2) p).sum = 0 → (keyOf G1 p).sum ∈ OMap.keys E1.map →
      (keyOf G2 p).sum ∈ OMap.keys E2.map := by
    intro p hp hm
    obtain ⟨s1, k1, h0⟩ := hpair.1 _ hm
    rw [hsum2] at hp
    have : s1 = (keyOf G2 p).sum := add_left_cancel (h0.trans hp.symm)
    rw [← this]
    exact (hin _ (hsub.1 _ hm) _ k1 h0).2
  have hok : OpOk r a := {
    wf := hF.wf.shaped
    pruned := fun _ => hF.wf.pruned
    nodup := by rw [hSf]; exact hnd
    perm := by rw [hSf, hMf]
    newNodup := hnd
    parts := by
      intro x hx y hy
      have hx1 := OMap.find?_of_mem (OMap.sorted_foldl_set [] _ List.Pairwise.nil).nodup hx
      have : x.1 = cn.c1 ∨ x.1 = cn.c2 := by
        have := List.mem_map_of_mem (f := Prod.fst) hx
        change x.1 ∈ OMap.keys (OMap.set (OMap.set [] cn.c1 _) cn.c2 _) at this
        rw [OMap.mem_keys_set, OMap.mem_keys_set] at this
        simp only [OMap.keys, List.map_nil, List.not_mem_nil, or_false] at this
        exact this.symm
      rcases this with hc | hc
      · rw [hc] at hx1
        have := hk1.symm.trans hx1
        rw [Option.some.injEq] at this
        rw [← this] at hy
        obtain ⟨n, hn, rfl⟩ := List.mem_map.1 hy
        exact mapOf_sorted' h.wf1 n (mem_others.1 hn).1
      · rw [hc] at hx1
        have := hk2.symm.trans hx1
        rw [Option.some.injEq] at this
        rw [← this] at hy
        obtain ⟨n, hn, rfl⟩ := List.mem_map.1 hy
        exact mapOf_sorted' h.wf2 n (mem_others.1 hn).1
    fits := by
      intro x hx parts hparts
      rw [hcut, split_names hF.namesEq] at hx
      simp only [List.zip_cons_cons, List.zip_nil_left, List.mem_cons, List.not_mem_nil,
        or_false] at hx
      rcases hx with rfl | rfl
      · have := hk1.symm.trans hparts
        rw [Option.some.injEq] at this
        subst this
        rw [map_fst_parts, map_snd_parts, List.length_map]
        refine ⟨fun s hs => ?_, fun hl p hp hmany => ?_⟩
        · dsimp only at hs ⊢
          rw [hdim.1 s hs, h.view1.dimF s (hsub.1 s hs)]
        · by_cases hl2 : G2.length ≤ 1
          · exact (hfit p hp ⟨hl, hl2⟩).1
          · have hm2 := hmany (cn.c2, E2) (by rw [hcut, split_names hF.namesEq]; simp) _ hk2
              (by rw [List.length_map]; omega)
            rw [map_fst_parts] at hm2
            rw [hSf] at hp
            exact hother1 p hp.2 hm2
      · have := hk2.symm.trans hparts
        rw [Option.some.injEq] at this
        subst this
        rw [map_fst_parts, map_snd_parts, List.length_map]
        refine ⟨fun s hs => ?_, fun hl p hp hmany => ?_⟩
        · dsimp only at hs ⊢
          rw [hdim.2 s hs, h.view2.dimF s (hsub.2 s hs)]
        · by_cases hl1 : G1.length ≤ 1
          · exact (hfit p hp ⟨hl1, hl⟩).2
          · have hm1 := hmany (cn.c1, E1) (by rw [hcut, split_names hF.namesEq]; simp) _ hk1
              (by rw [List.length_map]; omega)
            rw [map_fst_parts] at hm1
            rw [hSf] at hp
            exact hother2 p hp.2 hm1
    cutKeys := by
      intro _ _
      exact List.forall₂_same.2 fun _ _ => rfl }
  obtain ⟨r3, d1, d2, d3, d4, d5, d6⟩ := edgeOperator_spec env hok
  refine ⟨r3, d1, d2, d3, ⟨opReversed r a, ?_, fun n hn => ⟨?_, fun hf hv => ?_⟩⟩, fun p hp => ?_⟩
  · rw [d4]
    congr 1
    unfold opEdges
    rw [hM]
    apply List.ext_getElem
    · simp
    · intro i i1 i2
      simp only [List.getElem_map, List.getElem_zipIdx, List.map_singleton, groupEdge]
  · rw [← hmapO n hn]
    unfold opReversed reversedEdge reverseOne opMap
    split
    · split <;> rfl
    · rfl
  · unfold opReversed reversedEdge
    rw [if_pos hf]
    unfold reverseOne
    rcases List.mem_append.1 hn with hn | hn
    · rw [ho1 n hn] at hv ⊢
      have hF1 := ha1 hf n hn hv
      have hnt := (mem_others.1 hn).1
      have : n ∈ a.reversed ↔ (edgeOf t1 n).arrow = true := by
        rw [ha]; unfold restoreArgs
        rw [List.mem_append, mem_reversedFree h.wf1, mem_reversedFree h.wf2]
        constructor
        · rintro (hh | hh)
          · exact hh.2.2.2
          · exact absurd hn (hdis n hh.2.2.1)
        · intro hh
          exact Or.inl ⟨hf, hnt, hn, hh⟩
      rw [hf1 n hn, hE1, hF1]
      cases hb : (edgeOf t1 n).arrow
      · rw [if_neg (by rw [this, hb]; simp)]
      · rw [if_pos (by rw [this, hb])]; rfl
    · rw [ho2 n hn] at hv ⊢
      have hF2 := ha2 hf n hn hv
      have hnt := (mem_others.1 hn).1
      have : n ∈ a.reversed ↔ (edgeOf t2 n).arrow = true := by
        rw [ha]; unfold restoreArgs
        rw [List.mem_append, mem_reversedFree h.wf1, mem_reversedFree h.wf2]
        constructor
        · rintro (hh | hh)
          · exact absurd hh.2.2.1 (hdis n hn)
          · exact hh.2.2.2
        · intro hh
          exact Or.inr ⟨hf, hnt, hn, hh⟩
      rw [hf2 n hn, hE2, hF2]
      cases hb : (edgeOf t2 n).arrow
      · rw [if_neg (by rw [this, hb]; simp)]
      · rw [if_pos (by rw [this, hb])]; rfl
  · have hp' : FineOk (opMap r a) (opS r a).flatten p := by
      rw [hSf]
      exact (fineOk_congr hmapO).2 hp
    have hp1 : ∀ n ∈ G1, (p n).2 < dimM (mapOf t1 n) (p n).1 := fun n hn => by
      have := hp'.1 n (by rw [hSf]; exact List.mem_append_left _ hn)
      rwa [hmap1 n hn] at this
    have hp2 : ∀ n ∈ G2, (p n).2 < dimM (mapOf t2 n) (p n).1 := fun n hn => by
      have := hp'.1 n (by rw [hSf]; exact List.mem_append_right _ hn)
      rwa [hmap2 n hn] at this
    have h0 : (keyOf G1 p).sum + (keyOf G2 p).sum = 0 := by rw [← hsum2]; exact hp.2
    have hsM : ∀ n ∈ G1 ++ G2, OMap.Sorted (opMap r a n) := by
      have := hok.sorted
      rwa [hSf] at this
    have hs1 : ∀ n ∈ G1, OMap.Sorted (mapOf t1 n) := fun n hn =>
      mapOf_sorted' h.wf1 n (mem_others.1 hn).1
    have hs2 : ∀ n ∈ G2, OMap.Sorted (mapOf t2 n) := fun n hn =>
      mapOf_sorted' h.wf2 n (mem_others.1 hn).1
    have hgi1 : groupIdx (opMap r a) G1 p = groupIdx (mapOf t1) G1 p := by
      unfold groupIdx
      rw [List.map_congr_left hmap1, List.map_congr_left (g := fun n => dimM (mapOf t1 n) (p n).1)
        fun n hn => by rw [hmap1 n hn]]
    have hgi2 : groupIdx (opMap r a) G2 p = groupIdx (mapOf t2) G2 p := by
      unfold groupIdx
      rw [List.map_congr_left hmap2, List.map_congr_left (g := fun n => dimM (mapOf t2 n) (p n).1)
        fun n hn => by rw [hmap2 n hn]]
    have hlhs : elem r3 p = elemAt r3.core (coarseKey (opM a) p) (coarseIdx (opMap r a) (opM a) p) := by
      unfold elem
      rw [d2, hM, coarseKey_singles, coarseIdx_singles hsM]
      rfl
    have hcoarse : coarseKey (opS r a) p = [(keyOf G1 p).sum, (keyOf G2 p).sum] := by rw [hS]; rfl
    have hcoarseI : coarseIdx (opMap r a) (opS r a) p =
        [groupIdx (mapOf t1) G1 p, groupIdx (mapOf t2) G2 p] := by
      rw [hS, ← hgi1, ← hgi2]; rfl
    rw [hlhs]
    by_cases hkk : (keyOf G1 p).sum ∈ OMap.keys F1.map ∧ (keyOf G2 p).sum ∈ OMap.keys F2.map
    · have hio : opIn r a p := by
        unfold opIn
        rw [hcut, hcoarse]
        obtain ⟨x, y⟩ := hin _ hkk.1 _ hkk.2 h0
        exact .cons x (.cons y .nil)
      rw [d5 p hp' hio, ha, split_sign h.wf1 h.wf2 hcn hF.namesEq, ← ha, applySign_one,
        Option.map_id, id, hcoarse, hcoarseI,
        hel _ hkk.1 _ hkk.2 h0 _ (by rw [h.view1.dimF _ hkk.1]; exact groupIdx_lt hs1 hp1) _
          (by rw [h.view2.dimF _ hkk.2]; exact groupIdx_lt hs2 hp2), Option.some.injEq]
      exact h.element hp1 hp2 h0 hkk.1
    · have hio : ¬ opIn r a p := by
        intro hio
        unfold opIn at hio
        rw [hcut, hcoarse] at hio
        simp only [List.forall₂_cons, List.forall₂_nil_right_iff, and_true] at hio
        exact hkk ⟨hsub.1 _ hio.1, hsub.2 _ hio.2⟩
      rw [d6 p hp' hio hns, h.outside hkk]

/-- The steps of a contraction up to the last call of `edge_operator`. -/
theorem contractWithoutFuse_steps [CommRing α] {g : Gemm α} (hg : GemmOk g) (env1 env2 env3 : Env σ α)
    (junk : List σ → ℕ → α) {cn : ContractNames ν} (hcn : cn.c1 ≠ cn.c2) {t1 t2 : Tensor ν σ α}
    (h1 : Shaped t1) (h2 : Shaped t2) {pairs : List (ν × ν)}
    (hdup : duplicated (keepPairs t1.names t2.names pairs) = false)
    {cs : List (ν × ν)} (hcs : keepPairs t1.names t2.names pairs = cs)
    (hm : Matched t1 t2 cs)
    (hl : Separated t1 (cs.map Prod.fst) ∨ ∀ s : σ, -s = s) :
    Pairs t1.names t2.names cs ∧
    ∃ co, co.Perm cs ∧ ∃ right1 right2 S1 S2 F1 C1 F2 C2 m1 m2 r,
      Merges t1 t2 co right1 right2 S1 S2 F1 C1 F2 C2 m1 m2 ∧
      Fresh [cn.c1, cn.c2] (productEdge cn F1 F2) r ∧
      (∀ s0 ∈ OMap.keys F1.map, ∀ s1 ∈ OMap.keys F2.map, s0 + s1 = 0 →
        ∀ j < dimOf F1 s0, ∀ i < dimOf F2 s1, elemAt r.core [s0, s1] [j, i] =
          some (alphaOf right1 right2 s0 * ((List.range (dimOf C1 s1)).map fun l =>
            (elemAt m1.core (pairOf right1 s0 s1) (pairOf right1 j l)).getD 0 *
            (elemAt m2.core (pairOf right2 s1 s0) (pairOf right2 i l)).getD 0).sum)) ∧
      (TatSym.isFermi σ = true → ∀ n ∈ others t1.names (co.map Prod.fst),
        arrowValid (edgeOf t1 n) = true → F1.arrow = false) ∧
      (TatSym.isFermi σ = true → ∀ n ∈ others t2.names (co.map Prod.snd),
        arrowValid (edgeOf t2 n) = true → F2.arrow = false) ∧
      contractWithoutFuse g env1 env2 env3 junk cn t1 t2 pairs =
        edgeOperator env3 r (restoreArgs cn t1 t2 (others t1.names (co.map Prod.fst))
          (others t2.names (co.map Prod.snd))) := by
  have hp0 := pairs_keep hdup
  rw [hcs] at hp0
  refine ⟨hp0, ?_⟩
  unfold contractWithoutFuse
  dsimp only
  rw [hcs] at hdup ⊢
  rw [if_neg (by rw [hdup]; simp), free1_eq, free2_eq]
  generalize hsch : scheme cs t1.names t2.names (others t1.names (cs.map Prod.fst))
    (others t2.names (cs.map Prod.snd)) = sch
  have hperm : sch.common.Perm cs := by rw [← hsch]; exact scheme_perm h1.nodup h2.nodup hp0 _ _
  generalize hco : sch.common = co at hperm
  have hp := hp0.perm hperm
  have hm' := hm.perm hperm
  have o1 := others_congr (names := t1.names) (hperm.map Prod.fst)
  have o2 := others_congr (names := t2.names) (hperm.map Prod.snd)
  rw [← o1, ← o2]
  rw [deletePairs_nil h1 h2 hp hm']
  dsimp only [Outcome.bind]
  have g1 := gather1 h1 hcn (reversedNames (others t1.names (co.map Prod.fst)) false t1) sch.right1
    (hp.split1 h1.nodup)
  have g2 := gather2 h2 hcn (reversedNames (others t2.names (co.map Prod.snd)) true t2) sch.right2
    (hp.split2 h2.nodup)
  obtain ⟨m1, F1, C1, b1, e1, v1, a1⟩ := two_spec env1 g1 (opM_args1 hcn _ _ _ _ _)
  obtain ⟨m2, F2, C2, b2, e2, v2, a2⟩ := two_spec env2 g2 (opM_args2 hcn _ _ _ _ _)
  rw [e1]
  dsimp only [Outcome.bind]
  rw [e2]
  dsimp only [Outcome.bind]
  have hal : Aligned t1 t2 co := aligned_of h1 h2 hp hm' (by
    rcases hl with hl | hl
    · left; exact hl.perm (hperm.map _)
    · right; exact hl)
  have hM : Merges t1 t2 co sch.right1 sch.right2 _ _ F1 C1 F2 C2 m1 m2 := {
    wf1 := h1
    wf2 := h2
    pairs := hp
    maps := hm'.maps
    aligned := hal
    view1 := v1
    view2 := v2
    isSign1 := fun p => isSign_opSign g1.ok p
    isSign2 := fun p => isSign_opSign g2.ok p
    signs := fun w1 w2 k1 k2 ho => signs_eq h1 h2 hcn hp _ _ _ k1 k2 ho }
  obtain ⟨r, hr, hF, hel⟩ := contractProduct_spec hg junk hcn v1.wf v2.wf v1.edges v2.edges
    (by
      intro s hs hs'
      rw [v2.dimC _ hs', v1.dimC _ hs, hal.1 s])
  rw [hr]
  dsimp only [Outcome.bind]
  refine ⟨co, hperm, sch.right1, sch.right2, _, _, F1, C1, F2, C2, m1, m2, r, hM, hF, hel, ?_, ?_,
    rfl⟩
  · intro hf n hn hv
    rw [a1]
    unfold opReversed
    rw [g1.opFine]
    exact merged_arrow h1 hf (fun m hm => (mem_others.1 hm).1) b1 hn hv
  · intro hf n hn hv
    rw [a2]
    unfold opReversed
    rw [g2.opFine]
    exact merged_arrow h2 hf (fun m hm => (mem_others.1 hm).1) b2 hn hv

/-- Contraction of symmetric tensors. -/
theorem contractWithoutFuse_shaped [CommRing α] {g : Gemm α} (hg : GemmOk g) (env1 env2 env3 : Env σ α)
    (junk : List σ → ℕ → α) {cn : ContractNames ν} (hcn : cn.c1 ≠ cn.c2) {t1 t2 : Tensor ν σ α}
    (h1 : Shaped t1) (h2 : Shaped t2) (hns : TatSym.isNoSym σ = false) {pairs : List (ν × ν)}
    (hdup : duplicated (keepPairs t1.names t2.names pairs) = false)
    {cs : List (ν × ν)} (hcs : keepPairs t1.names t2.names pairs = cs)
    (hm : Matched t1 t2 cs)
    (hl : Separated t1 (cs.map Prod.fst) ∨ ∀ s : σ, -s = s)
    (hnd : (others t1.names (cs.map Prod.fst) ++ others t2.names (cs.map Prod.snd)).Nodup)
    (hne : Reached t1 t2 cs) :
    ∃ r, contractWithoutFuse g env1 env2 env3 junk cn t1 t2 pairs = .ok r ∧
      r.names = others t1.names (cs.map Prod.fst) ++ others t2.names (cs.map Prod.snd) ∧ WF r ∧
      (∃ e : ν → Edge σ, r.core.edges = prunedEdges
          ((others t1.names (cs.map Prod.fst) ++ others t2.names (cs.map Prod.snd)).map e) ∧
        ∀ n ∈ others t1.names (cs.map Prod.fst) ++ others t2.names (cs.map Prod.snd),
          (e n).map = (outerEdge t1 t2 cs n).map ∧
          (TatSym.isFermi σ = true → arrowValid (outerEdge t1 t2 cs n) = true →
            (e n).arrow = (outerEdge t1 t2 cs n).arrow)) ∧
      ∀ p, FineOk (fun n => (outerEdge t1 t2 cs n).map)
        (others t1.names (cs.map Prod.fst) ++ others t2.names (cs.map Prod.snd)) p →
        elem r p = some (contracted t1 t2 cs p) := by
  obtain ⟨hp0, co, hperm, right1, right2, S1, S2, F1, C1, F2, C2, m1, m2, r, hM, hF, hel, ha1, ha2,
    hr⟩ := contractWithoutFuse_steps hg env1 env2 env3 junk hcn h1 h2 hdup hcs hm hl
  have hp := hp0.perm hperm
  have o1 := others_congr (names := t1.names) (hperm.map Prod.fst)
  have o2 := others_congr (names := t2.names) (hperm.map Prod.snd)
  have houter : outerEdge t1 t2 cs = outerEdge t1 t2 co := by
    funext n; unfold outerEdge; rw [o1]
  have hcont : contracted t1 t2 cs = contracted t1 t2 co := by
    funext p; exact (contracted_perm h1 h2 hp hperm p).symm
  rw [houter, hcont, hr]
  unfold Reached at hne
  rw [← o1, ← o2] at hnd hne ⊢
  exact restore_spec env3 hcn hM hns hnd hne hF hel ha1 ha2

/-- Contraction of symmetric tensors. -/
theorem contractWithoutFuse_spec [CommRing α] {g : Gemm α} (hg : GemmOk g) (env1 env2 env3 : Env σ α)
    (junk : List σ → ℕ → α) {cn : ContractNames ν} (hcn : cn.c1 ≠ cn.c2) {t1 t2 : Tensor ν σ α}
    (h1 : WF t1) (h2 : WF t2) (hns : TatSym.isNoSym σ = false) {pairs : List (ν × ν)}
    (hdup : duplicated (keepPairs t1.names t2.names pairs) = false)
    {cs : List (ν × ν)} (hcs : keepPairs t1.names t2.names pairs = cs)
    (hm : Matched t1 t2 cs)
    (hl : Separated t1 (cs.map Prod.fst) ∨ ∀ s : σ, -s = s)
    (hnd : (others t1.names (cs.map Prod.fst) ++ others t2.names (cs.map Prod.snd)).Nodup)
    (hne : others t1.names (cs.map Prod.fst) ++ others t2.names (cs.map Prod.snd) ≠ [] ∨
      t1.core.blocks ≠ []) :
    ∃ r, contractWithoutFuse g env1 env2 env3 junk cn t1 t2 pairs = .ok r ∧
      r.names = others t1.names (cs.map Prod.fst) ++ others t2.names (cs.map Prod.snd) ∧ WF r ∧
      (∃ e : ν → Edge σ, r.core.edges = prunedEdges
          ((others t1.names (cs.map Prod.fst) ++ others t2.names (cs.map Prod.snd)).map e) ∧
        ∀ n ∈ others t1.names (cs.map Prod.fst) ++ others t2.names (cs.map Prod.snd),
          (e n).map = (outerEdge t1 t2 cs n).map ∧
          (TatSym.isFermi σ = true → arrowValid (outerEdge t1 t2 cs n) = true →
            (e n).arrow = (outerEdge t1 t2 cs n).arrow)) ∧
      ∀ p, FineOk (fun n => (outerEdge t1 t2 cs n).map)
        (others t1.names (cs.map Prod.fst) ++ others t2.names (cs.map Prod.snd)) p →
        elem r p = some (contracted t1 t2 cs p) := by
  refine contractWithoutFuse_shaped hg env1 env2 env3 junk hcn h1.shaped h2.shaped hns hdup hcs hm hl
    hnd (reached_of_matched h1 h2 ?_ hm.maps hne)
  have := pairs_keep hdup
  rwa [hcs] at this

end TAT
