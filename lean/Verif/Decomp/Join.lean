import Verif.Decomp.Unfold
import Verif.Shrink.Unit

/-!
# Contracting the two factors
-/

set_option linter.unusedSectionVars false

namespace TAT

variable {ν σ α : Type} [LinearOrder ν] [TatSym σ]

/-! ## dropping unused symmetries, edge by edge -/

theorem find?_filter {κ β : Type} [LinearOrder κ] {m : List (κ × β)} (h : OMap.Sorted m)
    (f : κ → Bool) (k : κ) :
    OMap.find? (m.filter fun x => f x.1) k = if f k then OMap.find? m k else none := by
  by_cases hk : f k = true
  · rw [if_pos hk]
    cases hm : OMap.find? m k with
    | none =>
      rw [OMap.find?_eq_none] at hm ⊢
      exact fun hc => hm (by
        obtain ⟨x, hx, rfl⟩ := List.mem_map.1 hc
        exact List.mem_map_of_mem (List.mem_of_mem_filter hx))
    | some v =>
      have hmem : (k, v) ∈ m.filter fun x => f x.1 :=
        List.mem_filter.2 ⟨OMap.mem_of_find? hm, hk⟩
      exact OMap.find?_of_mem (h.filter _).nodup hmem
  · rw [if_neg hk, OMap.find?_eq_none]
    intro hc
    obtain ⟨x, hx, rfl⟩ := List.mem_map.1 hc
    exact hk (List.mem_filter.1 hx).2

theorem usedAt_iff {names : List ν} (hn : names.Nodup) (e : ν → Edge σ) (i : ℕ)
    (hi : i < names.length) (s : σ) : usedAt ((names.map e).map Edge.map) i s = true ↔
      ∃ p, KeyOk (fun n => (e n).map) names p ∧ (p names[i]).1 = s := by
  unfold usedAt
  rw [List.any_eq_true]
  have hm : (names.map e).map Edge.map = names.map fun n => (e n).map := by
    rw [List.map_map]; rfl
  rw [hm]
  constructor
  · rintro ⟨b, hb, hs⟩
    have hb' := List.mem_map_of_mem (f := Prod.fst) hb
    have hl := mem_blocks_length hb'
    obtain ⟨p, hp⟩ := exists_pos hn (k := b.1) (by simpa using hl)
    rw [← hp] at hb'
    refine ⟨p, mem_blocks_iff.1 hb', ?_⟩
    rw [decide_eq_true_eq] at hs
    rw [← hp] at hs
    simp only [keyOf, List.getElem?_map, List.getElem?_eq_getElem hi, Option.map_some,
      Option.some.injEq] at hs
    exact hs
  · rintro ⟨p, hp, hs⟩
    obtain ⟨b, hb, hbk⟩ := List.mem_map.1 (mem_blocks_iff.2 hp)
    refine ⟨b, hb, ?_⟩
    rw [decide_eq_true_eq, hbk]
    simp only [keyOf, List.getElem?_map, List.getElem?_eq_getElem hi, Option.map_some, hs]

open Classical in
/-- The edges of a tensor whose unused symmetries were dropped. -/
theorem pruned_view {r : Tensor ν σ α} (hr : WF r) {e : ν → Edge σ}
    (he : r.core.edges = prunedEdges (r.names.map e)) (hs : ∀ n ∈ r.names, OMap.Sorted (e n).map)
    {n : ν} (hn : n ∈ r.names) :
    (edgeOf r n).arrow = (e n).arrow ∧ ∀ s, OMap.find? (mapOf r n) s =
      if ∃ p, KeyOk (fun n => (e n).map) r.names p ∧ (p n).1 = s then OMap.find? (e n).map s
      else none := by
  obtain ⟨i, hi, rfl⟩ := List.mem_iff_getElem.1 hn
  have h1 : edgeOf r r.names[i] = ⟨(e r.names[i]).arrow, (e r.names[i]).map.filter fun p =>
      usedAt ((r.names.map e).map Edge.map) i p.1⟩ := by
    have h2 := edges_named hr
    rw [he] at h2
    have h3 := congrArg (fun l => l[i]?) h2
    simp only [prunedEdges] at h3
    rw [List.getElem?_eq_getElem (by simpa using hi), List.getElem?_eq_getElem (by simpa using hi),
      Option.some.injEq, List.getElem_mapIdx, List.getElem_map, List.getElem_map] at h3
    exact h3.symm
  refine ⟨by rw [h1], fun s => ?_⟩
  unfold mapOf
  rw [h1]
  refine (find?_filter (hs _ hn) (fun s => usedAt ((r.names.map e).map Edge.map) i s) s).trans ?_
  by_cases hu : usedAt ((r.names.map e).map Edge.map) i s = true
  · rw [if_pos hu, if_pos ((usedAt_iff hr.nodup e i hi s).1 hu)]
  · rw [if_neg hu, if_neg fun hc => hu ((usedAt_iff hr.nodup e i hi s).2 hc)]

/-- The valid positions of a tensor whose unused symmetries were dropped. -/
theorem pruned_valid {r : Tensor ν σ α} (hr : WF r) {e : ν → Edge σ}
    (he : r.core.edges = prunedEdges (r.names.map e)) (hs : ∀ n ∈ r.names, OMap.Sorted (e n).map)
    (p : ν → σ × ℕ) : ValidPos r p ↔ FineOk (fun n => (e n).map) r.names p := by
  classical
  rw [validPos_iff hr]
  constructor
  · intro hp
    refine ⟨fun n hn => ?_, hp.2⟩
    have h1 := hp.1 n hn
    have h2 := (pruned_view hr he hs hn).2 (p n).1
    unfold dimM at h1 ⊢
    rw [h2] at h1
    split at h1
    · exact h1
    · simp at h1
  · intro hp
    refine ⟨fun n hn => ?_, hp.2⟩
    have h2 := (pruned_view hr he hs hn).2 (p n).1
    rw [if_pos ⟨p, hp.keyOk, rfl⟩] at h2
    have h1 := hp.1 n hn
    unfold dimM at h1 ⊢
    rw [h2]; exact h1

/-! ## one factor -/

/-- The symmetries of a factor: those of the tensor and those of the common edge. -/
def halfMap (t : Tensor ν σ α) (c : ν) (D : List (σ × ℕ)) (n : ν) : List (σ × ℕ) :=
  if n = c then D else mapOf t n

/-- A factor of `t` with the edges `G` and the common edge `c`, whose elements are `a`. -/
structure HalfOf (t : Tensor ν σ α) (G : List ν) (c : ν) (left : Bool) (D : List (σ × ℕ))
    (arrow : Bool) (A : Tensor ν σ α) (a : (ν → σ × ℕ) → α) : Prop where
  wf : WF A
  names : A.names = (pairOf left G [c]).flatten
  fresh : c ∉ G
  sub : ∀ n ∈ G, n ∈ t.names
  sorted : OMap.Sorted D
  keys : ∀ s ∈ OMap.keys D, ∃ q : ν → σ × ℕ, (∀ n ∈ G, (q n).1 ∈ OMap.keys (mapOf t n)) ∧
    (keyOf G q).sum = -s
  edges : ∃ e : ν → Edge σ, A.core.edges = prunedEdges (A.names.map e) ∧
    (∀ n ∈ G, (e n).map = mapOf t n ∧
      (TatSym.isFermi σ = true → arrowValid (edgeOf t n) = true →
        (e n).arrow = (edgeOf t n).arrow)) ∧
    (e c).map = D ∧ (TatSym.isFermi σ = true → (e c).arrow = arrow)
  elem : ∀ q, FineOk (halfMap t c D) (G ++ [c]) q → elem A q = some (a q)

section half
variable {t A : Tensor ν σ α} {G : List ν} {c : ν} {left arrow : Bool} {D : List (σ × ℕ)}
  {a : (ν → σ × ℕ) → α}

theorem HalfOf.perm (h : HalfOf t G c left D arrow A a) : A.names.Perm (G ++ [c]) := by
  rw [h.names]; exact (pairOf_flatten_perm _ _ _).symm

theorem HalfOf.nodup (h : HalfOf t G c left D arrow A a) : G.Nodup :=
  (List.nodup_append.1 (h.perm.nodup_iff.1 h.wf.nodup)).1

theorem halfMap_free {c : ν} {D : List (σ × ℕ)} {n : ν} (h : n ≠ c) :
    halfMap t c D n = mapOf t n := if_neg h

theorem halfMap_common {c : ν} {D : List (σ × ℕ)} : halfMap t c D c = D := if_pos rfl

theorem HalfOf.ne (h : HalfOf t G c left D arrow A a) {n : ν} (hn : n ∈ G) : n ≠ c :=
  fun hc => h.fresh (hc ▸ hn)

theorem HalfOf.sum (h : HalfOf t G c left D arrow A a) (q : ν → σ × ℕ) :
    (keyOf A.names q).sum = (keyOf G q).sum + (q c).1 := by
  rw [sum_split h.perm q]
  simp [keyOf]

/-- Everything about the edges at once. -/
theorem HalfOf.view (h : HalfOf t G c left D arrow A a) (ht : WF t) :
    (∀ q, ValidPos A q ↔ FineOk (halfMap t c D) (G ++ [c]) q) ∧
    mapOf A c = D ∧ (TatSym.isFermi σ = true → (edgeOf A c).arrow = arrow) ∧
    ∀ n ∈ G, (∀ s, s ∈ OMap.keys (mapOf A n) ↔ ∃ q : ν → σ × ℕ,
        (∀ m ∈ G, (q m).1 ∈ OMap.keys (mapOf t m)) ∧ -(keyOf G q).sum ∈ OMap.keys D ∧ (q n).1 = s) ∧
      (∀ s ∈ OMap.keys (mapOf A n), OMap.find? (mapOf A n) s = OMap.find? (mapOf t n) s) ∧
      (TatSym.isFermi σ = true → arrowValid (edgeOf A n) = true →
        (edgeOf A n).arrow = (edgeOf t n).arrow) := by
  classical
  obtain ⟨e, he, heG, hec, hea⟩ := h.edges
  have hmem : ∀ n ∈ A.names, n ∈ G ∨ n = c := fun n hn => by
    have := h.perm.mem_iff.1 hn
    simpa using this
  have hcA : c ∈ A.names := h.perm.mem_iff.2 (by simp)
  have hGA : ∀ n ∈ G, n ∈ A.names := fun n hn => h.perm.mem_iff.2 (List.mem_append_left _ hn)
  have hmap : ∀ n ∈ A.names, (e n).map = halfMap t c D n := by
    intro n hn
    rcases hmem n hn with hn | rfl
    · rw [halfMap_free (h.ne hn), (heG n hn).1]
    · rw [halfMap_common, hec]
  have hs : ∀ n ∈ A.names, OMap.Sorted (e n).map := by
    intro n hn
    rw [hmap n hn]
    rcases hmem n hn with hn | rfl
    · rw [halfMap_free (h.ne hn)]
      exact mapOf_sorted ht n (h.sub n hn)
    · rw [halfMap_common]
      exact h.sorted
  have hKey : ∀ p : ν → σ × ℕ, KeyOk (fun n => (e n).map) A.names p ↔
      (∀ m ∈ G, (p m).1 ∈ OMap.keys (mapOf t m)) ∧ (p c).1 ∈ OMap.keys D ∧
        (p c).1 = -(keyOf G p).sum := by
    intro p
    unfold KeyOk
    rw [h.sum]
    constructor
    · rintro ⟨h1, h2⟩
      refine ⟨fun m hm => ?_, ?_, (neg_eq_of_add_eq_zero_right h2).symm⟩
      · have := h1 m (hGA m hm)
        beta_reduce at this
        rwa [(heG m hm).1] at this
      · have := h1 c hcA
        beta_reduce at this
        rwa [hec] at this
    · rintro ⟨h1, h2, h3⟩
      refine ⟨fun m hm => ?_, by rw [h3, add_neg_cancel]⟩
      beta_reduce
      rcases hmem m hm with hm | rfl
      · rw [(heG m hm).1]; exact h1 m hm
      · rw [hec]; exact h2
  have hvalid : ∀ q, ValidPos A q ↔ FineOk (halfMap t c D) (G ++ [c]) q := by
    intro q
    rw [pruned_valid h.wf he hs, fineOk_congr hmap]
    exact ⟨fun hq => hq.perm h.perm, fun hq => hq.perm h.perm.symm⟩
  refine ⟨hvalid, ?_, ?_, fun n hn => ⟨fun s => ?_, fun s hk => ?_, fun hf hv => ?_⟩⟩
  · apply OMap.ext (mapOf_sorted h.wf c hcA) h.sorted
    intro s
    rw [(pruned_view h.wf he hs hcA).2 s, hec]
    by_cases hsD : s ∈ OMap.keys D
    · rw [if_pos]
      obtain ⟨q, q1, q2⟩ := h.keys s hsD
      have hk : keyOf G (Function.update q c (s, 0)) = keyOf G q :=
        keyOf_congr fun n hn => Function.update_of_ne (h.ne hn) _ _
      refine ⟨Function.update q c (s, 0), (hKey _).2 ⟨fun m hm => ?_, ?_, ?_⟩, by simp⟩
      · rw [Function.update_of_ne (h.ne hm)]; exact q1 m hm
      · simpa using hsD
      · rw [hk, q2]; simp
    · rw [← OMap.find?_eq_none] at hsD
      rw [hsD]; split <;> rfl
  · intro hf
    rw [(pruned_view h.wf he hs hcA).1, hea hf]
  · rw [← OMap.find?_isSome, (pruned_view h.wf he hs (hGA n hn)).2 s, (heG n hn).1]
    constructor
    · intro hsome
      split at hsome
      · rename_i hex
        obtain ⟨p, p1, p2⟩ := hex
        obtain ⟨a1, a2, a3⟩ := (hKey p).1 p1
        exact ⟨p, a1, a3 ▸ a2, p2⟩
      · simp at hsome
    · rintro ⟨q, q1, q2, q3⟩
      rw [if_pos, OMap.find?_isSome, ← q3]
      · exact q1 n hn
      · have hk : keyOf G (Function.update q c (-(keyOf G q).sum, 0)) = keyOf G q :=
          keyOf_congr fun n hn => Function.update_of_ne (h.ne hn) _ _
        refine ⟨Function.update q c (-(keyOf G q).sum, 0), (hKey _).2 ⟨fun m hm => ?_, ?_, ?_⟩, ?_⟩
        · rw [Function.update_of_ne (h.ne hm)]; exact q1 m hm
        · simpa using q2
        · rw [hk]; simp
        · rw [Function.update_of_ne (h.ne hn)]; exact q3
  · rw [(pruned_view h.wf he hs (hGA n hn)).2 s, (heG n hn).1]
    rw [← OMap.find?_isSome, (pruned_view h.wf he hs (hGA n hn)).2 s] at hk
    split at hk
    · rename_i hex
      rw [if_pos hex]
    · simp at hk
  · rw [(pruned_view h.wf he hs (hGA n hn)).1]
    refine (heG n hn).2 hf ?_
    rw [C49_arrow_valid] at hv ⊢
    obtain ⟨s, s1, s2⟩ := hv
    refine ⟨s, ?_, s2⟩
    change s ∈ OMap.keys (mapOf t n)
    change s ∈ OMap.keys (mapOf A n) at s1
    rw [← OMap.find?_isSome, (pruned_view h.wf he hs (hGA n hn)).2 s, (heG n hn).1] at s1
    split at s1
    · rwa [OMap.find?_isSome] at s1
    · simp at s1

end half

/-! ## the sum over the common edge -/

theorem sum_positions [AddCommMonoid α] {m : List (σ × ℕ)} (hm : OMap.Sorted m) (f : σ × ℕ → α)
    (s : σ) (hf : ∀ x, x.1 ≠ s → f x = 0) :
    ((edgePositions m).map f).sum = ((List.range (dimM m s)).map fun l => f (s, l)).sum := by
  induction m with
  | nil => simp [edgePositions, dimM, OMap.find?]
  | cons x m ih =>
    have hm' : OMap.Sorted m := hm.tail
    have e1 : edgePositions (x :: m) = (List.range x.2).map (fun i => (x.1, i)) ++ edgePositions m := by
      simp [edgePositions]
    rw [e1, List.map_append, List.sum_append, ih hm', List.map_map]
    by_cases hx : x.1 = s
    · have hnot : s ∉ OMap.keys m := by
        have := OMap.Sorted.nodup hm
        rw [OMap.keys_cons, List.nodup_cons] at this
        rw [← hx]; exact this.1
      have d0 : dimM m s = 0 := by
        unfold dimM
        rw [OMap.find?_eq_none.2 hnot]; rfl
      have d1 : dimM (x :: m) s = x.2 := by
        unfold dimM OMap.find?
        rw [if_pos hx.symm]; rfl
      rw [d0, d1, hx]
      simp [Function.comp_def]
    · have d1 : dimM (x :: m) s = dimM m s := by
        unfold dimM
        conv_lhs => unfold OMap.find?
        rw [if_neg (Ne.symm hx)]
      rw [d1]
      have : ((List.range x.2).map (f ∘ fun i => (x.1, i))).sum = 0 := by
        apply List.sum_eq_zero
        intro y hy
        obtain ⟨i, _, rfl⟩ := List.mem_map.1 hy
        exact hf _ hx
      rw [this, zero_add]

theorem others_single {left : Bool} {G : List ν} {c : ν} (h : c ∉ G) :
    others (pairOf left G [c]).flatten [c] = G := by
  have hG : G.filter (fun n => decide (n ∉ [c])) = G := by
    rw [List.filter_eq_self]
    intro n hn
    simp only [List.mem_singleton, decide_eq_true_eq]
    exact fun hc => h (hc ▸ hn)
  unfold others pairOf
  cases left <;> simp only [Bool.false_eq_true, if_false, if_true, List.flatten_cons,
    List.flatten_nil, List.append_nil, List.filter_append, hG] <;> simp

section join
variable {t A B : Tensor ν σ α} {G1 G2 : List ν} {c1 c2 : ν} {left : Bool}
  {D1 D2 : List (σ × ℕ)} {a b : (ν → σ × ℕ) → α}

theorem HalfOf.blocks {arrow : Bool} (h : HalfOf t G1 c1 left D1 arrow A a) (ht : WF t) {s : σ}
    (hs : s ∈ OMap.keys D1) : A.core.blocks ≠ [] := by
  obtain ⟨v1, v2, v3, v4⟩ := h.view ht
  obtain ⟨q, q1, q2⟩ := h.keys s hs
  have hk : keyOf G1 (Function.update q c1 (s, 0)) = keyOf G1 q :=
    keyOf_congr fun n hn => Function.update_of_ne (h.ne hn) _ _
  have : keyOf A.names (Function.update q c1 (s, 0)) ∈ OMap.keys A.core.blocks := by
    rw [mem_keys_named h.wf]
    refine ⟨fun n hn => ?_, by rw [h.sum, hk, q2]; simp⟩
    rw [h.perm.mem_iff, List.mem_append, List.mem_singleton] at hn
    rcases hn with hn | rfl
    · rw [Function.update_of_ne (h.ne hn), (v4 n hn).1]
      exact ⟨q, q1, by rw [q2, neg_neg]; exact hs, rfl⟩
    · rw [v2]; simpa using hs
  intro hc
  rw [hc] at this
  simp [OMap.keys] at this

/-- The sign of contracting two factors is one. -/
theorem join_sign (hA : HalfOf t G1 c1 left D1 true A a) (hB : HalfOf t G2 c2 (!left) D2 false B b)
    (ht : WF t) {w w' : ν → σ × ℕ} (h1 : (keyOf (G1 ++ [c1]) w).sum = 0)
    (h2 : (keyOf (G2 ++ [c2]) w').sum = 0) (hc : (w' c2).1 = -(w c1).1) :
    contractSign A B [(c1, c2)] w w' = 1 := by
  unfold contractSign
  split
  · rename_i hf
    have ha := (hA.view ht).2.2.1 hf
    have o1 : others A.names [c1] = G1 := by rw [hA.names]; exact others_single hA.fresh
    have o2 : others B.names [c2] = G2 := by rw [hB.names]; exact others_single hB.fresh
    simp only [List.map_cons, List.map_nil, List.reverse_singleton, List.prod_cons, List.prod_nil,
      mul_one, o1, o2, ha, Bool.true_eq_false, false_and, if_false]
    rw [hA.names, hB.names]
    have e1 : (pairOf true G1 [c1]).flatten = G1 ++ [c1] := by simp [pairOf]
    have e2 : (pairOf false G1 [c1]).flatten = [c1] ++ G1 := by simp [pairOf]
    have e3 : (pairOf true G2 [c2]).flatten = G2 ++ [c2] := by simp [pairOf]
    have e4 : (pairOf false G2 [c2]).flatten = [c2] ++ G2 := by simp [pairOf]
    cases left
    · rw [Bool.not_false, e2, e3, (exchange_common hA.nodup hA.fresh h1).2,
        (exchange_common hB.nodup hB.fresh h2).1]
      have : oddAt w' c2 = oddAt w c1 := by
        unfold oddAt
        rw [hc]
        exact odd_neg _
      rw [this]
      split <;> simp
    · rw [Bool.not_true, e1, e4, exchangeOf_refl, exchangeOf_refl, mul_one]
  · rfl

/-- Contracting two factors along their common edge. -/
theorem join_spec [CommRing α] (ce : ContractEnv σ α) (hg : GemmOk ce.gemm)
    {cn : ContractNames ν} (hcn : [cn.c0, cn.c1, cn.c2].Nodup) (ht : WF t)
    (hA : HalfOf t G1 c1 left D1 true A a) (hB : HalfOf t G2 c2 (!left) D2 false B b)
    (hp : t.names.Perm (G1 ++ G2)) (hm : ∀ s, OMap.find? D1 s = OMap.find? D2 (-s))
    (hD : D1 ≠ []) :
    ∃ r, contract ce cn A B [(c1, c2)] = .ok r ∧ r.names = G1 ++ G2 ∧ WF r ∧
      (∀ n ∈ r.names, TatSym.isFermi σ = true → arrowValid (edgeOf r n) = true →
        (edgeOf r n).arrow = (edgeOf t n).arrow) ∧
      (∀ n ∈ r.names, ∀ s ∈ OMap.keys (mapOf r n),
        OMap.find? (mapOf r n) s = OMap.find? (mapOf t n) s) ∧
      (∀ p, KeyOk (mapOf t) t.names p → -(keyOf G1 p).sum ∈ OMap.keys D1 →
        ∀ n ∈ r.names, (p n).1 ∈ OMap.keys (mapOf r n)) ∧
      (∀ p, ValidPos r p → ValidPos t p) ∧
      ∀ p, ValidPos t p → amp r p =
        ((List.range (dimM D1 (-(keyOf G1 p).sum))).map fun l =>
          a (Function.update p c1 (-(keyOf G1 p).sum, l)) *
          b (Function.update p c2 ((keyOf G1 p).sum, l))).sum := by
  classical
  obtain ⟨a1, a2, a3, a4⟩ := hA.view ht
  obtain ⟨b1, b2, b3, b4⟩ := hB.view ht
  have hm' : ∀ s, s ∈ OMap.keys D1 ↔ -s ∈ OMap.keys D2 := fun s => by
    rw [← OMap.find?_isSome, ← OMap.find?_isSome, hm]
  have hc1 : c1 ∈ A.names := hA.perm.mem_iff.2 (by simp)
  have hc2 : c2 ∈ B.names := hB.perm.mem_iff.2 (by simp)
  have o1 : others A.names [c1] = G1 := by rw [hA.names]; exact others_single hA.fresh
  have o2 : others B.names [c2] = G2 := by rw [hB.names]; exact others_single hB.fresh
  have hnd : (G1 ++ G2).Nodup := hp.nodup_iff.1 ht.nodup
  obtain ⟨x, hx⟩ := List.exists_mem_of_ne_nil _ hD
  have hxk : x.1 ∈ OMap.keys D1 := List.mem_map_of_mem hx
  obtain ⟨r, r1, r2, r3, ⟨e, r4, r5⟩, r6⟩ := contract_unified ce hg hcn hA.wf hB.wf
    (hA.blocks ht hxk) (hB.blocks ht ((hm' _).1 hxk)) (pairs := [(c1, c2)]) (cs := [(c1, c2)])
    (by simp [knownPairs, hc1, hc2]) (by simp) (by simp)
    ⟨fun hf c hc => by
        rw [List.mem_singleton] at hc; subst hc
        rw [a3 hf, b3 hf]; simp,
      fun c hc s => by
        rw [List.mem_singleton] at hc; subst hc
        rw [a2, b2]; exact hm s⟩
    (Or.inl (Separated.le_one (by simp)))
    (by
      simp only [List.map_cons, List.map_nil]
      rw [o1, o2]; exact hnd)
  simp only [List.map_cons, List.map_nil, o1, o2] at r2
  -- the edges of the result before dropping symmetries
  have ho1 : ∀ n ∈ G1, outerEdge A B [(c1, c2)] n = edgeOf A n := fun n hn => by
    unfold outerEdge
    simp only [List.map_cons, List.map_nil, o1]
    rw [if_pos hn]
  have ho2 : ∀ n ∈ G2, outerEdge A B [(c1, c2)] n = edgeOf B n := fun n hn => by
    unfold outerEdge
    simp only [List.map_cons, List.map_nil, o1]
    rw [if_neg fun hc => List.disjoint_of_nodup_append hnd hc hn]
  have hmem : ∀ n ∈ r.names, n ∈ G1 ∨ n ∈ G2 := fun n hn => by
    rw [r2] at hn; exact List.mem_append.1 hn
  have hes : ∀ n ∈ r.names, OMap.Sorted (e n).map := fun n hn => by
    rw [(r5 n hn).1]
    rcases hmem n hn with hn | hn
    · rw [ho1 n hn]; exact mapOf_sorted hA.wf n (hA.perm.mem_iff.2 (List.mem_append_left _ hn))
    · rw [ho2 n hn]; exact mapOf_sorted hB.wf n (hB.perm.mem_iff.2 (List.mem_append_left _ hn))
  have hek : ∀ n ∈ r.names, ∀ s ∈ OMap.keys (e n).map,
      OMap.find? (e n).map s = OMap.find? (mapOf t n) s := fun n hn s hs => by
    rw [(r5 n hn).1] at hs ⊢
    rcases hmem n hn with hn | hn
    · rw [ho1 n hn] at hs ⊢; exact (a4 n hn).2.1 s hs
    · rw [ho2 n hn] at hs ⊢; exact (b4 n hn).2.1 s hs
  have hsub : ∀ n ∈ r.names, ∀ s ∈ OMap.keys (mapOf r n), s ∈ OMap.keys (e n).map ∧
      OMap.find? (mapOf r n) s = OMap.find? (e n).map s := fun n hn s hs => by
    have := (pruned_view r3 r4 hes hn).2 s
    rw [← OMap.find?_isSome] at hs ⊢
    rw [this] at hs ⊢
    split at hs
    · rename_i hex
      rw [if_pos hex]
      exact ⟨hs, rfl⟩
    · simp at hs
  have hfind : ∀ n ∈ r.names, ∀ s ∈ OMap.keys (mapOf r n),
      OMap.find? (mapOf r n) s = OMap.find? (mapOf t n) s := fun n hn s hs => by
    rw [(hsub n hn s hs).2, hek n hn s (hsub n hn s hs).1]
  have hpr : r.names.Perm t.names := by rw [r2]; exact hp.symm
  have hsumt : ∀ p : ν → σ × ℕ, (keyOf t.names p).sum = (keyOf G1 p).sum + (keyOf G2 p).sum :=
    fun p => sum_split hp p
  have hin : ∀ p, KeyOk (mapOf t) t.names p → -(keyOf G1 p).sum ∈ OMap.keys D1 →
      ∀ n ∈ r.names, (p n).1 ∈ OMap.keys (e n).map := by
    intro p hk hs n hn
    rw [(r5 n hn).1]
    rcases hmem n hn with hn | hn
    · rw [ho1 n hn]
      exact ((a4 n hn).1 _).2 ⟨p, fun m hm => hk.1 m (hA.sub m hm), hs, rfl⟩
    · rw [ho2 n hn]
      refine ((b4 n hn).1 _).2 ⟨p, fun m hm => hk.1 m (hB.sub m hm), ?_, rfl⟩
      have : (keyOf G2 p).sum = -(keyOf G1 p).sum := by
        have := hk.2
        rw [hsumt] at this
        exact (neg_eq_of_add_eq_zero_right this).symm
      rw [this]
      exact (hm' _).1 hs
  have hdim : ∀ n ∈ r.names, ∀ s ∈ OMap.keys (e n).map, dimM (e n).map s = dimM (mapOf t n) s := by
    intro n hn s hs
    unfold dimM
    rw [hek n hn s hs]
  have hlt : ∀ {m : List (σ × ℕ)} {s : σ} {i : ℕ}, i < dimM m s → s ∈ OMap.keys m := by
    intro m s i hi
    by_contra hc
    unfold dimM at hi
    rw [OMap.find?_eq_none.2 hc] at hi
    simp at hi
  have hval : ∀ p, ValidPos r p → ValidPos t p := by
    intro p hv
    rw [pruned_valid r3 r4 hes] at hv
    rw [validPos_iff ht]
    refine FineOk.perm hpr ⟨fun n hn => ?_, hv.2⟩
    have := hv.1 n hn
    rwa [hdim n hn _ (hlt this)] at this
  refine ⟨r, r1, r2, r3, fun n hn hf hv => ?_, hfind, fun p hk hs n hn => ?_, hval, fun p hv => ?_⟩
  · have hv' : arrowValid (outerEdge A B [(c1, c2)] n) = true := by
      rw [C49_arrow_valid] at hv ⊢
      obtain ⟨s, s1, s2⟩ := hv
      refine ⟨s, ?_, s2⟩
      have := (hsub n hn s s1).1
      rwa [(r5 n hn).1] at this
    rw [(pruned_view r3 r4 hes hn).1, (r5 n hn).2 hf hv']
    rcases hmem n hn with hn | hn
    · rw [ho1 n hn] at hv' ⊢
      exact (a4 n hn).2.2 hf hv'
    · rw [ho2 n hn] at hv' ⊢
      exact (b4 n hn).2.2 hf hv'
  · have h1 := hin p hk hs
    rw [← OMap.find?_isSome, (pruned_view r3 r4 hes hn).2, if_pos, OMap.find?_isSome]
    · exact h1 n hn
    · exact ⟨p, ⟨h1, (KeyOk.perm hpr.symm hk).2⟩, rfl⟩
  · have hvt := (validPos_iff ht).1 hv
    by_cases hvr : ValidPos r p
    · -- the position exists: one sum over the common edge
      have hvo : FineOk (fun n => (outerEdge A B [(c1, c2)] n).map) r.names p := by
        rw [pruned_valid r3 r4 hes] at hvr
        exact (fineOk_congr fun n hn => (r5 n hn).1).1 hvr
      have := r6 p hvo
      rw [amp_valid r3 hvr, Option.some.injEq] at this
      rw [this]
      unfold contracted
      simp only [List.map_cons, List.map_nil, sumOver]
      rw [a2]
      have hsumA : ∀ y : σ × ℕ, (keyOf (G1 ++ [c1]) (Function.update p c1 y)).sum =
          (keyOf G1 p).sum + y.1 := by
        intro y
        rw [keyOf_append, List.sum_append,
          keyOf_congr (fun n hn => Function.update_of_ne (hA.ne hn) _ _ : ∀ n ∈ G1, _)]
        simp [keyOf]
      have hsumB : ∀ y : σ × ℕ, (keyOf (G2 ++ [c2]) (Function.update p c2 y)).sum =
          (keyOf G2 p).sum + y.1 := by
        intro y
        rw [keyOf_append, List.sum_append,
          keyOf_congr (fun n hn => Function.update_of_ne (hB.ne hn) _ _ : ∀ n ∈ G2, _)]
        simp [keyOf]
      rw [sum_positions hA.sorted _ (-(keyOf G1 p).sum)]
      · congr 1
        apply List.map_congr_left
        intro l hl
        rw [List.mem_range] at hl
        have hpart : partner [(c1, c2)] p (Function.update p c1 (-(keyOf G1 p).sum, l)) =
            Function.update p c2 ((keyOf G1 p).sum, l) := by
          funext n
          by_cases hn : n = c2
          · subst hn
            have := partner_common (cs := [(c1, n)]) (by simp) p
              (Function.update p c1 (-(keyOf G1 p).sum, l)) (c := (c1, n)) (by simp)
            rw [this]
            simp
          · rw [Function.update_of_ne hn, partner_free _ _ (by simpa using hn)]
        rw [hpart]
        have hs2 : (keyOf G2 p).sum + (keyOf G1 p).sum = 0 := by
          have := hvt.2
          rw [hsumt, add_comm] at this
          exact this
        have w1 : FineOk (halfMap t c1 D1) (G1 ++ [c1])
            (Function.update p c1 (-(keyOf G1 p).sum, l)) := by
          refine ⟨fun n hn => ?_, by rw [hsumA]; simp⟩
          rw [List.mem_append, List.mem_singleton] at hn
          rcases hn with hn | rfl
          · rw [Function.update_of_ne (hA.ne hn), halfMap_free (hA.ne hn)]
            exact hvt.1 n (hA.sub n hn)
          · rw [halfMap_common]; simpa using hl
        have w2 : FineOk (halfMap t c2 D2) (G2 ++ [c2])
            (Function.update p c2 ((keyOf G1 p).sum, l)) := by
          refine ⟨fun n hn => ?_, by rw [hsumB]; exact hs2⟩
          rw [List.mem_append, List.mem_singleton] at hn
          rcases hn with hn | rfl
          · rw [Function.update_of_ne (hB.ne hn), halfMap_free (hB.ne hn)]
            exact hvt.1 n (hB.sub n hn)
          · rw [halfMap_common]
            simp only [Function.update_self]
            unfold dimM at hl ⊢
            rw [hm, neg_neg] at hl
            exact hl
        rw [join_sign hA hB ht w1.2 w2.2 (by simp), one_smul]
        have x1 := amp_valid hA.wf ((a1 _).2 w1)
        have x2 := amp_valid hB.wf ((b1 _).2 w2)
        rw [hA.elem _ w1, Option.some.injEq] at x1
        rw [hB.elem _ w2, Option.some.injEq] at x2
        rw [x1, x2]
      · intro y hy
        rw [amp_zero hA.wf, zero_mul, smul_zero]
        intro hc
        have := ((a1 _).1 hc).2
        rw [hsumA] at this
        exact hy (neg_eq_of_add_eq_zero_right this).symm
    · rw [amp_zero r3 hvr]
      have hno : -(keyOf G1 p).sum ∉ OMap.keys D1 := by
        intro hs
        refine hvr ((pruned_valid r3 r4 hes p).2 (FineOk.perm hpr.symm ⟨fun n hn => ?_, hvt.2⟩))
        have hn' := hpr.mem_iff.2 hn
        rw [hdim n hn' _ (hin p hvt.keyOk hs n hn')]
        exact hvt.1 n hn
      have : dimM D1 (-(keyOf G1 p).sum) = 0 := by
        unfold dimM
        rw [OMap.find?_eq_none.2 hno]; rfl
      rw [this]
      rfl

end join

end TAT
