import Verif.Decomp.Whole

/-!
# The two factors, split
-/

set_option linter.unusedSectionVars false

namespace TAT

variable {ν σ α γ : Type} [LinearOrder ν] [TatSym σ]

theorem opM_mergeArgsOf (t : Tensor ν σ α) {x y : ν} (h : x ≠ y) (A B : List ν) (r : Bool) :
    opM (mergeArgsOf t [(x, A), (y, B)] (if r then [x, y] else [y, x])) =
      if r then [A, B] else [B, A] := by
  have f1 : OMap.find? (OMap.ofList [(x, A), (y, B)]) x = some A := by
    unfold OMap.ofList
    simp only [List.foldl_cons, List.foldl_nil, OMap.find?_set, if_neg h, if_true]
  have f2 : OMap.find? (OMap.ofList [(x, A), (y, B)]) y = some B := by
    unfold OMap.ofList
    simp only [List.foldl_cons, List.foldl_nil, OMap.find?_set, if_true]
  unfold opM mergeGroups mergeArgsOf
  cases r <;> simp [f1, f2]

theorem filter_perm (f : ν → Bool) (l : List ν) :
    l.Perm ((l.filter fun n => !f n) ++ l.filter f) := by
  have := List.filter_append_perm f l
  exact (this.symm.trans List.perm_append_comm)

section sides
variable [CommRing α] {t M T1 T2 : Tensor ν σ α} {G1 G2 : List ν} {F C E1 E2 : Edge σ}
  {x1 x2 c1 c2 : ν} {Q : ℕ → ℕ → List α → List α → γ → List α → Prop} {none : γ}
  {g : List σ → γ}

theorem keys_left (hh : Halves t G1 G2 F C M) {s : σ} (hs : s ∈ OMap.keys C.map) :
    ∃ q : ν → σ × ℕ, (∀ n ∈ G1, (q n).1 ∈ OMap.keys (mapOf t n)) ∧ (keyOf G1 q).sum = -s := by
  obtain ⟨q, hq, rfl⟩ := (hh.keysC s).1 hs
  refine ⟨q, fun n hn => hq.1 n (List.mem_append_left _ hn), ?_⟩
  have := hq.2
  rw [keyOf_append, List.sum_append] at this
  exact eq_neg_of_add_eq_zero_left this

theorem keys_right (hh : Halves t G1 G2 F C M) {s : σ} (hs : s ∈ OMap.keys F.map) :
    ∃ q : ν → σ × ℕ, (∀ n ∈ G2, (q n).1 ∈ OMap.keys (mapOf t n)) ∧ (keyOf G2 q).sum = -s := by
  obtain ⟨q, hq, rfl⟩ := (hh.keysF s).1 hs
  refine ⟨q, fun n hn => hq.1 n (List.mem_append_right _ hn), ?_⟩
  have := hq.2
  rw [keyOf_append, List.sum_append] at this
  exact eq_neg_of_add_eq_zero_right this

/-- The first factor, split. -/
theorem side1 (env : Env σ α) (ht : WF t) (hh : Halves t G1 G2 F C M)
    (hp : t.names.Perm (G1 ++ G2)) (hf : Factors Q none x1 x2 c1 c2 F C E1 E2 M T1 T2 g)
    (hx : x1 ≠ c1) (hc : c1 ∉ G1) {r' special : Bool} {Ec : Edge σ}
    {parts : List (ν × List (σ × ℕ))} (hparts : parts = G1.map fun n => (n, mapOf t n))
    {R X newNames : List ν} (hnew : newNames = (pairOf r' G1 [c1]).flatten)
    (hR : R = reversedFree G1 t ++ if TatSym.isFermi σ && special then [c1] else [])
    (hX : ∀ n ∈ G1, n ∉ X) {cut : List (ν × List (σ × ℕ))}
    (hcut : opCut T1 (unfoldArgs x1 parts R newNames X cut) = [F, Ec])
    (harrow : Ec.arrow = false) (hEs : OMap.Sorted Ec.map)
    (hEk : ∀ s ∈ OMap.keys Ec.map, s ∈ OMap.keys E1.map) :
    ∃ u, edgeOperator env T1 (unfoldArgs x1 parts R newNames X cut) = .ok u ∧
      HalfOf t G1 c1 r' Ec.map special u fun q =>
        unfoldSign (!r') (special && decide (c1 ∈ X)) c1 q • cellAt T1 t true G1 c1 q := by
  have hnd := List.nodup_append.1 (hp.nodup_iff.1 ht.nodup)
  obtain ⟨u, u1, u2⟩ := half_of_unfold env ht hf.wf1 hx hnd.1 hc
    (fun n hn => hp.mem_iff.2 (List.mem_append_left _ hn)) (r := true) (r' := r')
    (special := special) (F := F) (E := E1) (Ec := Ec) hf.names1 hf.edges1 hparts hnew hR hX hcut
    harrow hEs hEk hh.dimF hh.arrowF (fun s hs => keys_left hh (by
      have := hEk s hs
      rw [← OMap.find?_isSome, hf.find1 s] at this
      split at this
      · assumption
      · simp at this))
  refine ⟨u, u1, ?_⟩
  have : decide (true ≠ r') = !r' := by cases r' <;> rfl
  rw [this] at u2
  exact u2

/-- The second factor, split. -/
theorem side2 (env : Env σ α) (ht : WF t) (hh : Halves t G1 G2 F C M)
    (hp : t.names.Perm (G1 ++ G2)) (hf : Factors Q none x1 x2 c1 c2 F C E1 E2 M T1 T2 g)
    (hx : x2 ≠ c2) (hc : c2 ∉ G2) {r' special : Bool} {Ec : Edge σ}
    {parts : List (ν × List (σ × ℕ))} (hparts : parts = G2.map fun n => (n, mapOf t n))
    {R X newNames : List ν} (hnew : newNames = (pairOf r' G2 [c2]).flatten)
    (hR : R = reversedFree G2 t ++ if TatSym.isFermi σ && special then [c2] else [])
    (hX : ∀ n ∈ G2, n ∉ X) {cut : List (ν × List (σ × ℕ))}
    (hcut : opCut T2 (unfoldArgs x2 parts R newNames X cut) = [Ec, C])
    (harrow : Ec.arrow = false) (hEs : OMap.Sorted Ec.map)
    (hEk : ∀ s ∈ OMap.keys Ec.map, s ∈ OMap.keys E2.map) :
    ∃ u, edgeOperator env T2 (unfoldArgs x2 parts R newNames X cut) = .ok u ∧
      HalfOf t G2 c2 r' Ec.map special u fun q =>
        unfoldSign r' (special && decide (c2 ∈ X)) c2 q • cellAt T2 t false G2 c2 q := by
  have hnd := List.nodup_append.1 (hp.nodup_iff.1 ht.nodup)
  obtain ⟨u, u1, u2⟩ := half_of_unfold env ht hf.wf2 hx hnd.2.1 hc
    (fun n hn => hp.mem_iff.2 (List.mem_append_right _ hn)) (r := false) (r' := r')
    (special := special) (F := C) (E := E2) (Ec := Ec) hf.names2 hf.edges2 hparts hnew hR hX hcut
    harrow hEs hEk hh.dimC hh.arrowC (fun s hs => keys_right hh (by
      have := hEk s hs
      rw [← OMap.find?_isSome, hf.find2 s] at this
      split at this
      · assumption
      · simp at this))
  refine ⟨u, u1, ?_⟩
  have : decide (false ≠ r') = r' := by cases r' <;> rfl
  rw [this] at u2
  exact u2

/-- The common edges of both factors belong together. -/
theorem common_match (hh : Halves t G1 G2 F C M)
    (hf : Factors Q none x1 x2 c1 c2 F C E1 E2 M T1 T2 g) (s : σ) :
    OMap.find? E1.map s = OMap.find? E2.map (-s) := by
  rw [hf.find1, hf.find2]
  have := hf.keys_iff hh.wf hh.edges (-s)
  rw [neg_neg] at this
  by_cases h : s ∈ OMap.keys C.map
  · rw [if_pos h, if_pos (this.2 h)]
  · rw [if_neg h, if_neg fun hc => h (this.1 hc)]

/-- The dimension of the common edge, by the edges of the tensor. -/
theorem common_dim (hh : Halves t G1 G2 F C M)
    (hf : Factors Q none x1 x2 c1 c2 F C E1 E2 M T1 T2 g) (s : σ) :
    OMap.find? E2.map s = if s ∈ OMap.keys F.map then
      some (min (mergedDim (G1.map (mapOf t)) s) (mergedDim (G2.map (mapOf t)) (-s)))
      else Option.none := by
  rw [hf.find2]
  split
  · rename_i h
    unfold rankAt
    rw [hh.dimF s h, hh.dimC _ ((hf.keys_iff hh.wf hh.edges s).1 h)]
  · rfl

end sides

end TAT
