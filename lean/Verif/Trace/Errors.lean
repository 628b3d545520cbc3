import Verif.Trace.Main

/-!
# Traces that fail
-/

set_option linter.unusedSectionVars false

namespace TAT

variable {ν σ α : Type} [LinearOrder ν] [TatSym σ]

theorem traceLoop_ok_or_error (index : List (ν × ℕ)) (pairs : List (ν × ν))
    (l : List ((ν × Edge σ) × ℕ)) (inv : List ℕ) :
    (∃ cs, traceLoop index pairs l inv = .ok cs) ∨
      traceLoop index pairs l inv = .error "map::at" := by
  induction l generalizing inv with
  | nil => exact Or.inl ⟨[], rfl⟩
  | cons x l ih =>
    unfold traceLoop
    split
    · exact ih inv
    · split
      · exact ih inv
      · split
        · exact Or.inr rfl
        · rename_i j _
          rcases ih (j :: inv) with ⟨cs, h⟩ | h
          · rw [h]; exact Or.inl ⟨_, rfl⟩
          · rw [h]; exact Or.inr rfl

theorem traceLoop_missing {index : List (ν × ℕ)} {pairs : List (ν × ν)} {n m : ν}
    (hf : traceFind pairs n = some m) (hm : OMap.find? index m = none)
    (l : List ((ν × Edge σ) × ℕ)) (inv : List ℕ) {x : (ν × Edge σ) × ℕ} (hx : x ∈ l)
    (hxn : x.1.1 = n) (hi : x.2 ∉ inv)
    (hb : ∀ y ∈ l, ∀ m', traceFind pairs y.1.1 = some m' → OMap.find? index m' ≠ some x.2) :
    traceLoop index pairs l inv = .error "map::at" := by
  induction l generalizing inv with
  | nil => simp at hx
  | cons y l ih =>
    unfold traceLoop
    rcases List.mem_cons.1 hx with rfl | hx'
    · rw [if_neg hi, hxn, hf]
      dsimp only
      rw [hm]
    · have hb' := fun y hy => hb y (List.mem_cons_of_mem _ hy)
      split
      · exact ih inv hx' hi hb'
      · split
        · exact ih inv hx' hi hb'
        · rename_i m' hm'
          split
          · rfl
          · rename_i j hj
            rw [ih (j :: inv) hx' (by
              rw [List.mem_cons, not_or]
              refine ⟨fun e => ?_, hi⟩
              rw [← e] at hj
              exact hb y (by simp) m' hm' hj) hb']
            rfl

theorem find_nameToIndex {t : Tensor ν σ α} (h : WF t) {n : ν} :
    OMap.find? (nameToIndex t.names) n = none ↔ n ∉ t.names := by
  constructor
  · intro hn hc
    have := (C09_name_to_index t.names h.nodup n (t.names.idxOf n)).2 (by
      rw [List.getElem?_eq_getElem (List.idxOf_lt_length_iff.2 hc), List.getElem_idxOf])
    rw [hn] at this
    simp at this
  · intro hn
    cases hf : OMap.find? (nameToIndex t.names) n with
    | none => rfl
    | some i =>
      exact absurd (List.mem_of_getElem? ((C09_name_to_index t.names h.nodup n i).1 hf)) hn

theorem traceTensor_missing [Add α] [Zero α] [Neg α] (env1 env2 : Env σ α) (junk : List σ → ℕ → α)
    (tn : TraceNames ν) {t : Tensor ν σ α} (h : WF t) {pairs : List (ν × ν)}
    (hn : (pairNames pairs).Nodup) {n m : ν} (hp : (n, m) ∈ pairs ∨ (m, n) ∈ pairs)
    (hi : n ∈ t.names) (ho : m ∉ t.names) :
    traceTensor env1 env2 junk tn t pairs = .error "map::at" := by
  have hf : traceFind pairs n = some m := (traceFind_iff hn).2 hp
  have : traceLoop (nameToIndex t.names) pairs (t.names.zip t.core.edges).zipIdx.reverse [] =
      .error "map::at" := by
    have hlt := List.idxOf_lt_length_iff.2 hi
    refine traceLoop_missing (x := ((n, edgeOf t n), t.names.idxOf n)) hf
      ((find_nameToIndex h).2 ho) _ _ ?_ rfl (by simp) ?_
    · rw [List.mem_reverse, List.mem_zipIdx_iff_getElem?, zip_named h, List.getElem?_map,
        List.getElem?_eq_getElem hlt, List.getElem_idxOf]
      rfl
    · intro y hy m' hm' hc
      rw [C09_name_to_index t.names h.nodup, List.getElem?_eq_getElem hlt, List.getElem_idxOf,
        Option.some.injEq] at hc
      subst hc
      have h1 := traceFind_symm hn hm'
      rw [hf, Option.some.injEq] at h1
      rw [List.mem_reverse] at hy
      have h2 := List.mem_zipIdx_iff_getElem?.1 hy
      rw [zip_named h, List.getElem?_map] at h2
      cases h3 : t.names[y.2]? with
      | none => rw [h3] at h2; simp at h2
      | some k =>
        rw [h3, Option.map_some, Option.some.injEq] at h2
        apply ho
        rw [h1, ← h2]
        exact List.mem_of_getElem? h3
  unfold traceTensor
  rw [this]
  rfl

theorem traceTensor_many [Add α] [Zero α] [Neg α] (env1 env2 : Env σ α) (junk : List σ → ℕ → α)
    (tn : TraceNames ν) {t : Tensor ν σ α} {pairs : List (ν × ν)}
    (hl : t.names.length < 2 * pairs.length) :
    (traceTensor env1 env2 junk tn t pairs).isError = true := by
  unfold traceTensor
  rcases traceLoop_ok_or_error (nameToIndex t.names) pairs
    (t.names.zip t.core.edges).zipIdx.reverse [] with ⟨cs, h⟩ | h
  · rw [h]
    simp only [Outcome.bind]
    rw [if_pos hl]
    rfl
  · rw [h]; rfl

theorem traceLoop_congr (index : List (ν × ℕ)) {pairs pairs' : List (ν × ν)}
    (l : List ((ν × Edge σ) × ℕ)) (inv : List ℕ)
    (h : ∀ x ∈ l, traceFind pairs x.1.1 = traceFind pairs' x.1.1) :
    traceLoop index pairs l inv = traceLoop index pairs' l inv := by
  induction l generalizing inv with
  | nil => rfl
  | cons x l ih =>
    have ih' := fun inv => ih inv fun y hy => h y (List.mem_cons_of_mem _ hy)
    unfold traceLoop
    rw [h x (by simp), ih' inv]
    split
    · rfl
    · split
      · rfl
      · split
        · rfl
        · rw [ih']

theorem traceTensor_unknown [Add α] [Zero α] [Neg α] (env1 env2 : Env σ α) (junk : List σ → ℕ → α)
    (tn : TraceNames ν) {t : Tensor ν σ α} {pairs : List (ν × ν)}
    (hl : 2 * pairs.length ≤ t.names.length) :
    traceTensor env1 env2 junk tn t pairs =
      traceTensor env1 env2 junk tn t
        (pairs.filter fun c => decide (c.1 ∈ t.names ∨ c.2 ∈ t.names)) := by
  have hf : ∀ n ∈ t.names, traceFind pairs n =
      traceFind (pairs.filter fun c => decide (c.1 ∈ t.names ∨ c.2 ∈ t.names)) n := by
    intro n hn
    clear hl
    unfold traceFind
    induction pairs with
    | nil => rfl
    | cons c l ih =>
      by_cases hc : c.1 ∈ t.names ∨ c.2 ∈ t.names
      · rw [List.filter_cons_of_pos (by simpa using hc), List.findSome?_cons, List.findSome?_cons, ih]
      · rw [List.filter_cons_of_neg (by simpa using hc), List.findSome?_cons, ← ih]
        have h1 : ¬ c.1 = n := fun e => hc (Or.inl (e ▸ hn))
        have h2 : ¬ c.2 = n := fun e => hc (Or.inr (e ▸ hn))
        simp only [if_neg h1, if_neg h2]
  unfold traceTensor
  rw [traceLoop_congr _ _ _ fun x hx => hf x.1.1 ?_]
  · have := List.length_filter_le (fun c : ν × ν => decide (c.1 ∈ t.names ∨ c.2 ∈ t.names)) pairs
    congr 1
    funext cs
    rw [if_neg (c := _ < 2 * pairs.length) (by omega), if_neg (by omega)]
  · rw [List.mem_reverse] at hx
    have := List.mem_zipIdx_iff_getElem?.1 hx
    exact (List.of_mem_zip (List.mem_of_getElem? this)).1

/-- Without a block whose free edges have total symmetry zero the traced tensor has no block, and the
first block of an empty map is read. -/
theorem traceTensor_ub [CommRing α] (env1 env2 : Env σ α) (junk : List σ → ℕ → α)
    {tn : TraceNames ν} (htn : [tn.t1, tn.t2, tn.t3].Nodup) {t : Tensor ν σ α} (h : WF t)
    {pairs : List (ν × ν)} (hn : (pairNames pairs).Nodup)
    (hs : ∀ n ∈ pairNames pairs, n ∈ t.names)
    (hm : ∀ c ∈ pairs, ∀ s, OMap.find? (mapOf t c.1) s = OMap.find? (mapOf t c.2) (-s))
    (ha : TatSym.isFermi σ = true → ∀ c ∈ pairs, (edgeOf t c.1).arrow ≠ (edgeOf t c.2).arrow)
    (hl : Separated t (pairs.map Prod.fst) ∨ ∀ s : σ, -s = s)
    (hz : ∀ q, KeyOk (mapOf t) t.names q → (keyOf (others t.names (pairNames pairs)) q).sum ≠ 0) :
    traceTensor env1 env2 junk tn t pairs = .ub := by
  obtain ⟨cs, l1, l2⟩ := traceLoop_perm h hn hs
  obtain ⟨hT, hG⟩ := traced_of h hn hs hm ha hl l2
  rw [← hG] at hz
  obtain ⟨m, E0, E1, E2, m1, hv⟩ := hT.view (tn := tn) env1 htn
  have hs2 : OMap.Sorted E2.map := hv.wf.sorted E2 (by rw [hv.edges]; simp)
  have h0 : (0 : σ) ∉ OMap.keys E2.map := by
    intro hc
    have hp := hv.wf.pruned
    have hE := edges_named hv.wf
    rw [hE, prunedEdges_eq_iff hv.wf.nodup] at hp
    have he := hv.edges
    rw [hE] at he
    match hnm : m.names, he with
    | [n0, n1, n2], he =>
      simp only [List.map_cons, List.map_nil, List.cons.injEq, and_true] at he
      obtain ⟨he0, he1, he2⟩ := he
      obtain ⟨k, k1, k2⟩ := hp n2 (by rw [hnm]; simp) 0 (by rw [he2]; exact hc)
      rw [hnm] at k1
      obtain ⟨k3, k4⟩ := k1
      have c0 := k3 n0 (by simp)
      have c1 := k3 n1 (by simp)
      dsimp only at c0 c1
      rw [he0] at c0
      rw [he1] at c1
      simp only [keyOf, List.map_cons, List.map_nil, List.sum_cons, List.sum_nil, add_zero, k2] at k4
      obtain ⟨qA, a1, a2⟩ := hv.source _ c0
      obtain ⟨qB, b1, b2⟩ := hv.source1 _ c1
      obtain ⟨qG, g1, g2⟩ := hv.source2 _ hc
      let q : ν → σ × ℕ := fun n => if n ∈ cs.map Prod.fst then qA n else
        if n ∈ cs.map Prod.snd then qB n else qG n
      have eA : ∀ n ∈ cs.map Prod.fst, q n = qA n := fun n hn' => if_pos hn'
      have eB : ∀ n ∈ cs.map Prod.snd, q n = qB n := fun n hn' => by
        change (if _ then _ else _) = _
        rw [if_neg fun hc' => hT.apart n hc' hn', if_pos hn']
      have eG : ∀ n ∈ freeOf t cs, q n = qG n := fun n hn' => by
        obtain ⟨_, n1, n2⟩ := mem_freeOf.1 hn'
        change (if _ then _ else _) = _
        rw [if_neg n1, if_neg n2]
      refine hz q ⟨fun n hn' => ?_, ?_⟩ (by rw [keyOf_congr eG, g2])
      · rcases List.mem_append.1 (hT.perm.mem_iff.1 hn') with hA | hBG
        · rw [eA n hA]; exact a1 n hA
        · rcases List.mem_append.1 hBG with hB | hG'
          · rw [eB n hB]; exact b1 n hB
          · rw [eG n hG']; exact g1 n hG'
      · rw [sum_split hT.perm, sum_split (List.Perm.refl _), keyOf_congr eA, keyOf_congr eB,
          keyOf_congr eG, a2, b2, g2, add_zero, k4]
  obtain ⟨r, r1, hF⟩ := mkTensor_fresh junk (names := [tn.t3]) (by simp) (fun _ => E2)
    (by intro _ _; exact hs2)
  have hb : r.core.blocks = [] := by
    by_contra hne
    obtain ⟨q, q1, q2⟩ := exists_key_of_blocks hF.wf.shaped hne
    rw [hF.namesEq] at q1 q2
    have hk := (mem_keys_named hF.wf q).2 (by rw [hF.namesEq]; exact ⟨q1, q2⟩)
    rw [hF.namesEq, hF.keys] at hk
    have := hk.1 tn.t3 (by simp)
    simp only [keyOf, List.map_cons, List.map_nil, List.sum_cons, List.sum_nil, add_zero] at q2
    rw [q2] at this
    exact h0 this
  unfold traceTensor
  rw [l1]
  simp only [Outcome.bind]
  rw [if_neg]
  · have hg : (t.names.filter fun n => !decide (n ∈ cs.map Prod.fst) &&
        !decide (n ∈ cs.map Prod.snd)) = freeOf t cs := by
      unfold freeOf others
      refine List.filter_congr fun n _ => ?_
      simp only [List.mem_append]
      by_cases u : n ∈ cs.map Prod.fst <;> by_cases v : n ∈ cs.map Prod.snd <;> simp [u, v]
    rw [hg]
    have m1' : edgeOperator env1 t (traceArgs tn (reversedFree (freeOf t cs) t) (cs.map Prod.fst)
      (cs.map Prod.snd) (freeOf t cs)) = .ok m := m1
    rw [m1']
    dsimp only
    have : traceSum junk tn m = .ub := by
      unfold traceSum
      have r1' : mkTensor junk [tn.t3] [E2] = .ok r := r1
      have hgd : m.core.edges.getD 2 {} = E2 := by rw [hv.edges]; rfl
      rw [hgd, r1']
      simp only [Outcome.bind]
      rw [zero_blocks, hb]
      rfl
    rw [this]
  · have h1 : (pairNames pairs).length ≤ t.names.length :=
      (List.subperm_of_subset hn hs).length_le
    have h2 : (pairNames pairs).length = 2 * pairs.length := by
      unfold pairNames
      rw [List.length_flatMap]
      simp [mul_comm]
    omega

end TAT
