import Verif.Decomp.Join

/-!
# From the factors of the merged tensor to the factors of the tensor
-/

set_option linter.unusedSectionVars false

namespace TAT

variable {ν σ α γ : Type} [LinearOrder ν] [TatSym σ]

theorem splitParts_filter {t : Tensor ν σ α} (h : WF t) (f : ν → Bool) :
    splitParts (t.names.filter f) t = (t.names.filter f).map fun n => (n, mapOf t n) := by
  have e : t.names.filter f = others t.names (t.names.filter fun n => !f n) := by
    unfold others
    apply List.filter_congr
    intro n hn
    cases hf : f n <;> simp [hn, hf]
  rw [e]
  exact splitParts_eq h.shaped _

theorem isSign_unfoldSign (moved signed : Bool) (c : ν) (q : ν → σ × ℕ) :
    IsSign (unfoldSign moved signed c q) := by
  unfold unfoldSign IsSign
  split <;> simp

/-- The element of a factor before splitting. -/
def cellAt [Zero α] (T t : Tensor ν σ α) (r : Bool) (G : List ν) (c : ν) (q : ν → σ × ℕ) : α :=
  (elemAt T.core (pairOf r (keyOf G q).sum (q c).1)
    (pairOf r (groupIdx (mapOf t) G q) (q c).2)).getD 0

theorem cellAt_update [Zero α] (T t : Tensor ν σ α) (r : Bool) {G : List ν} {c : ν} (h : c ∉ G)
    (p : ν → σ × ℕ) (x : σ × ℕ) : cellAt T t r G c (Function.update p c x) =
      (elemAt T.core (pairOf r (keyOf G p).sum x.1)
        (pairOf r (groupIdx (mapOf t) G p) x.2)).getD 0 := by
  unfold cellAt
  have hk : ∀ n ∈ G, Function.update p c x n = p n := fun n hn => by
    have hne : n ≠ c := fun hc => h (hc ▸ hn)
    exact Function.update_of_ne hne _ _
  rw [keyOf_congr hk, groupIdx_congr hk]
  simp

/-- Splitting a factor. -/
theorem half_of_unfold [CommRing α] (env : Env σ α) {t T : Tensor ν σ α} (ht : WF t) (hT : WF T)
    {x c : ν} (hxc : x ≠ c) {G : List ν} (hG : G.Nodup) (hcG : c ∉ G) (hsub : ∀ n ∈ G, n ∈ t.names)
    {r r' special : Bool} {F E Ec : Edge σ} (hn : T.names = pairOf r x c)
    (he : T.core.edges = pairOf r F E) {parts : List (ν × List (σ × ℕ))}
    (hparts : parts = G.map fun n => (n, mapOf t n))
    {R X newNames : List ν} (hnew : newNames = (pairOf r' G [c]).flatten)
    (hR : R = reversedFree G t ++ if TatSym.isFermi σ && special then [c] else [])
    (hX : ∀ n ∈ G, n ∉ X) {cut : List (ν × List (σ × ℕ))}
    (hcut : opCut T (unfoldArgs x parts R newNames X cut) = pairOf r F Ec)
    (harrow : Ec.arrow = false) (hEs : OMap.Sorted Ec.map)
    (hEk : ∀ s ∈ OMap.keys Ec.map, s ∈ OMap.keys E.map)
    (hdim : ∀ s ∈ OMap.keys F.map, dimOf F s = mergedDim (G.map (mapOf t)) s)
    (haF : TatSym.isFermi σ = true → ∀ n ∈ G, arrowValid (edgeOf t n) = true → F.arrow = false)
    (hkeys : ∀ s ∈ OMap.keys Ec.map, ∃ q : ν → σ × ℕ,
      (∀ n ∈ G, (q n).1 ∈ OMap.keys (mapOf t n)) ∧ (keyOf G q).sum = -s) :
    ∃ u, edgeOperator env T (unfoldArgs x parts R newNames X cut) = .ok u ∧
      HalfOf t G c r' Ec.map special u fun q =>
        unfoldSign (decide (r ≠ r')) (special && decide (c ∈ X)) c q • cellAt T t r G c q := by
  obtain ⟨u, u1, u2, u3, u4, u5⟩ := unfold_spec (t := t) env hT hxc hG hcG
    (fun n hn => mapOf_sorted ht n (hsub n hn)) hn he hparts hnew hX hcut hEs hEk hdim
  have hcR : c ∈ R ↔ TatSym.isFermi σ = true ∧ special = true := by
    rw [hR, List.mem_append, mem_reversedFree ht.shaped]
    constructor
    · rintro (⟨_, _, h3, _⟩ | h)
      · exact absurd h3 hcG
      · split at h
        · rename_i hh
          simpa using hh
        · simp at h
    · rintro ⟨h1, h2⟩
      right
      simp [h1, h2]
  have hnR : ∀ n ∈ G, (n ∈ R ↔ TatSym.isFermi σ = true ∧ (edgeOf t n).arrow = true) := by
    intro n hn
    have hne : n ≠ c := fun hc => hcG (hc ▸ hn)
    rw [hR, List.mem_append, mem_reversedFree ht.shaped]
    constructor
    · rintro (⟨h1, _, _, h4⟩ | h)
      · exact ⟨h1, h4⟩
      · split at h
        · exact absurd (List.mem_singleton.1 h) hne
        · simp at h
    · rintro ⟨h1, h2⟩
      exact Or.inl ⟨h1, hsub n hn, hn, h2⟩
  have hmapE : ∀ n, (unfoldEdge t F Ec c R n).map = halfMap t c Ec.map n := by
    intro n
    unfold unfoldEdge halfMap reversedEdge reverseOne
    beta_reduce
    split_ifs <;> rfl
  refine ⟨u, u1, ⟨u3, by rw [u2, hnew], hcG, hsub, hEs, hkeys,
    ⟨unfoldEdge t F Ec c R, by rw [u2]; exact u4, fun n hn => ⟨?_, fun hf hv => ?_⟩, ?_, fun hf => ?_⟩,
    fun q hq => ?_⟩⟩
  · have hne : n ≠ c := fun hc => hcG (hc ▸ hn)
    rw [hmapE, halfMap_free hne]
  · have hne : n ≠ c := fun hc => hcG (hc ▸ hn)
    unfold unfoldEdge reversedEdge reverseOne
    beta_reduce
    rw [if_pos hf, if_neg hne]
    have ha := haF hf n hn hv
    by_cases hr : (edgeOf t n).arrow = true
    · rw [if_pos ((hnR n hn).2 ⟨hf, hr⟩), hr]
      simp [ha]
    · rw [if_neg fun hc => hr ((hnR n hn).1 hc).2]
      rw [Bool.not_eq_true] at hr
      rw [hr]
      exact ha
  · rw [hmapE, halfMap_common]
  · unfold unfoldEdge reversedEdge reverseOne
    beta_reduce
    rw [if_pos hf, if_pos rfl]
    cases special with
    | true =>
      rw [if_pos (hcR.2 ⟨hf, rfl⟩)]
      simp [harrow]
    | false =>
      rw [if_neg fun hc => by simpa using (hcR.1 hc).2]
      exact harrow
  · have hq' : FineOk (fun n => (unfoldEdge t F Ec c R n).map) newNames q := by
      rw [fineOk_congr fun n _ => hmapE n]
      refine hq.perm ?_
      rw [hnew]
      exact pairOf_flatten_perm _ _ _
    have e5 := u5 q hq'
    have hsome : (elem u q).isSome := by
      refine u3.elem_isSome ((pruned_valid u3 (by rw [u2]; exact u4) (fun n hn => ?_) q).2
        (by rw [u2]; exact hq'))
      rw [hmapE]
      by_cases hnc : n = c
      · rw [hnc, halfMap_common]; exact hEs
      · rw [halfMap_free hnc]
        refine mapOf_sorted ht n (hsub n ?_)
        rw [u2, hnew] at hn
        have := (pairOf_flatten_perm r' G [c]).symm.mem_iff.1 hn
        simpa [hnc] using this
    rw [e5] at hsome ⊢
    rw [Option.isSome_map] at hsome
    obtain ⟨y, hy⟩ := Option.isSome_iff_exists.1 hsome
    unfold cellAt
    rw [hy, Option.map_some, Option.getD_some, applySign_smul (isSign_unfoldSign _ _ _ _)]
    congr 2
    unfold unfoldSign
    by_cases hf : TatSym.isFermi σ = true
    · have : decide (c ∈ R) = special := by
        rw [Bool.eq_iff_iff, decide_eq_true_eq, hcR]
        exact ⟨fun h => h.2, fun h => ⟨hf, h⟩⟩
      rw [this]
    · rw [Bool.not_eq_true] at hf
      rw [hf]
      simp

/-! ## the product of the blocks -/

/-- A row-major matrix is the product of two, with weights between them. -/
def MatrixFactors [Semiring α] (W : γ → ℕ → α) (m n : ℕ) (data d1 : List α) (g : γ) (d2 : List α) :
    Prop :=
  ∀ i < m, ∀ j < n, data.getD (i * n + j) 0 = ((List.range (min m n)).map fun l =>
    d1.getD (i * min m n + l) 0 * W g l * d2.getD (l * n + j) 0).sum

section cells
variable {t M T1 T2 : Tensor ν σ α} {G1 G2 : List ν} {F C E1 E2 : Edge σ} {x1 x2 c1 c2 : ν}
  {Q : ℕ → ℕ → List α → List α → γ → List α → Prop} {none : γ} {g : List σ → γ}

theorem Factors.keys_iff (hf : Factors Q none x1 x2 c1 c2 F C E1 E2 M T1 T2 g)
    (hM : WF M) (he : M.core.edges = [F, C]) (s : σ) :
    s ∈ OMap.keys F.map ↔ -s ∈ OMap.keys C.map :=
  ⟨two_keys hM (r := true) he, fun hs => by
    have := two_keys hM (r := false) (A := C) (B := F) he hs
    rwa [neg_neg] at this⟩

theorem Factors.dim1 (hf : Factors Q none x1 x2 c1 c2 F C E1 E2 M T1 T2 g)
    (hM : WF M) (he : M.core.edges = [F, C]) {s : σ} (hs : s ∈ OMap.keys F.map) :
    dimOf E1 (-s) = rankAt F C s ∧ -s ∈ OMap.keys E1.map := by
  have h1 := hf.find1 (-s)
  rw [if_pos ((hf.keys_iff hM he s).1 hs), neg_neg] at h1
  refine ⟨?_, by rw [← OMap.find?_isSome, h1]; rfl⟩
  unfold dimOf
  rw [h1]; rfl

theorem Factors.dim2 (hf : Factors Q none x1 x2 c1 c2 F C E1 E2 M T1 T2 g)
    {s : σ} (hs : s ∈ OMap.keys F.map) :
    dimOf E2 s = rankAt F C s ∧ s ∈ OMap.keys E2.map := by
  have h1 := hf.find2 s
  rw [if_pos hs] at h1
  refine ⟨?_, by rw [← OMap.find?_isSome, h1]; rfl⟩
  unfold dimOf
  rw [h1]; rfl

/-- An element of the merged tensor is the product of the elements of the factors. -/
theorem Factors.product [CommRing α] {W : γ → ℕ → α}
    (hf : Factors Q none x1 x2 c1 c2 F C E1 E2 M T1 T2 g)
    (hQ : ∀ {m n data d1 g d2}, Q m n data d1 g d2 → MatrixFactors W m n data d1 g d2)
    (hM : WF M) (he : M.core.edges = [F, C]) {s : σ} (hs : s ∈ OMap.keys F.map) {i j : ℕ}
    (hi : i < dimOf F s) (hj : j < dimOf C (-s)) :
    elemAt M.core [s, -s] [i, j] = some ((List.range (rankAt F C s)).map fun l =>
      (elemAt T1.core [s, -s] [i, l]).getD 0 * W (g [s, -s]) l *
      (elemAt T2.core [s, -s] [l, j]).getD 0).sum := by
  have hsC := (hf.keys_iff hM he s).1 hs
  obtain ⟨d, d1, d2, e0, e1, e2, hq, _⟩ := hf.block s hs
  have hq := hQ (hq (Nat.mul_ne_zero (by omega) (by omega))) i hi j hj
  obtain ⟨k1, k1'⟩ := hf.dim1 hM he hs
  obtain ⟨k2, k2'⟩ := hf.dim2 hs
  obtain ⟨b0, f0, _, g0⟩ := two_block hM (r := true) he hs hsC (add_neg_cancel s)
  obtain ⟨b1, f1, _, g1⟩ := two_block hf.wf1 (r := true) hf.edges1 hs k1' (add_neg_cancel s)
  obtain ⟨b2, f2, _, g2⟩ := two_block hf.wf2 (r := true) hf.edges2 k2' hsC (add_neg_cancel s)
  simp only [pairOf, if_true] at f0 f1 f2 g0 g1 g2
  rw [e0, Option.some.injEq] at f0
  rw [e1, Option.some.injEq] at f1
  rw [e2, Option.some.injEq] at f2
  subst f0 f1 f2
  rw [g0 i hi j hj]
  simp only [cell, if_true] at g1 g2 ⊢
  rw [hq]
  unfold rankAt
  congr 2
  apply List.map_congr_left
  intro l hl
  rw [List.mem_range] at hl
  rw [g1 i hi l (by rw [k1]; exact hl), g2 l (by rw [k2]; exact hl) j hj, k1]
  rfl

/-- An element of the tensor is the product of the elements of the factors. -/
theorem tensor_product [CommRing α] {W : γ → ℕ → α} (ht : WF t) (hh : Halves t G1 G2 F C M)
    (hp : t.names.Perm (G1 ++ G2))
    (hf : Factors Q none x1 x2 c1 c2 F C E1 E2 M T1 T2 g)
    (hQ : ∀ {m n data d1 g d2}, Q m n data d1 g d2 → MatrixFactors W m n data d1 g d2)
    {p : ν → σ × ℕ} (hv : ValidPos t p) :
    (keyOf G1 p).sum ∈ OMap.keys F.map ∧ (keyOf G2 p).sum = -(keyOf G1 p).sum ∧
    ((List.range (rankAt F C (keyOf G1 p).sum)).map fun l =>
      (elemAt T1.core [(keyOf G1 p).sum, -(keyOf G1 p).sum] [groupIdx (mapOf t) G1 p, l]).getD 0 *
      W (g [(keyOf G1 p).sum, -(keyOf G1 p).sum]) l *
      (elemAt T2.core [(keyOf G1 p).sum, -(keyOf G1 p).sum] [l, groupIdx (mapOf t) G2 p]).getD
        0).sum = applySign (orderSign t.names (G1 ++ G2) p) (amp t p) := by
  have hvt := (validPos_iff ht).1 hv
  have hk := KeyOk.perm hp hvt.keyOk
  have hF : (keyOf G1 p).sum ∈ OMap.keys F.map := (hh.keysF _).2 ⟨p, hk, rfl⟩
  have h2 : (keyOf G2 p).sum = -(keyOf G1 p).sum := by
    have := hvt.2
    rw [sum_split hp] at this
    exact (neg_eq_of_add_eq_zero_right this).symm
  refine ⟨hF, h2, ?_⟩
  have hC : -(keyOf G1 p).sum ∈ OMap.keys C.map := by
    rw [← h2]; exact (hh.keysC _).2 ⟨p, hk, rfl⟩
  have hs1 : ∀ n ∈ G1, n ∈ t.names := fun n hn => hp.mem_iff.2 (List.mem_append_left _ hn)
  have hs2 : ∀ n ∈ G2, n ∈ t.names := fun n hn => hp.mem_iff.2 (List.mem_append_right _ hn)
  have hi : groupIdx (mapOf t) G1 p < dimOf F (keyOf G1 p).sum := by
    rw [hh.dimF _ hF]
    exact groupIdx_lt (fun n hn => mapOf_sorted ht n (hs1 n hn)) fun n hn => hvt.1 n (hs1 n hn)
  have hj : groupIdx (mapOf t) G2 p < dimOf C (-(keyOf G1 p).sum) := by
    rw [hh.dimC _ hC, ← h2]
    exact groupIdx_lt (fun n hn => mapOf_sorted ht n (hs2 n hn)) fun n hn => hvt.1 n (hs2 n hn)
  have e1 := hf.product hQ hh.wf hh.edges hF hi hj
  have e2 := hh.elem p hv
  rw [h2, amp_valid ht hv, e1, Option.map_some, Option.some.injEq] at e2
  exact e2

end cells

/-- Exchanging the two groups costs a sign if they are odd. -/
theorem orderSign_swap {t : Tensor ν σ α} (ht : WF t) {G1 G2 : List ν}
    (hp : t.names.Perm (G1 ++ G2)) {p : ν → σ × ℕ} (h0 : (keyOf t.names p).sum = 0) :
    orderSign t.names (G2 ++ G1) p = orderSign t.names (G1 ++ G2) p *
      if TatSym.isFermi σ && oddInt (TatSym.fermi (keyOf G1 p).sum) then -1 else 1 := by
  unfold orderSign
  by_cases hf : TatSym.isFermi σ = true
  · rw [if_pos hf, if_pos hf, hf, Bool.true_and]
    have hnd := hp.nodup_iff.1 ht.nodup
    have hd : ∀ x ∈ G1, x ∉ G2 := fun x hx hx' => List.disjoint_of_nodup_append hnd hx hx'
    rw [List.nodup_append] at hnd
    rw [← exchangeOf_mul _ hp List.perm_append_comm, exchangeOf_swap _ hnd.1 hnd.2.1 hd]
    congr 1
    have h2 : (keyOf G2 p).sum = -(keyOf G1 p).sum := by
      rw [sum_split hp] at h0
      exact (neg_eq_of_add_eq_zero_right h0).symm
    have o1 := odd_sum p G1
    have o2 := odd_sum p G2
    rw [h2, odd_neg, o1] at o2
    rw [o1]
    simp only [decide_eq_decide] at o2
    by_cases h : oddCount (oddAt p) G1 % 2 = 1
    · rw [decide_eq_true h, if_pos rfl]
      have a1 : Odd (oddCount (oddAt p) G1) := Nat.odd_iff.2 h
      have a2 : Odd (oddCount (oddAt p) G2) := Nat.odd_iff.2 (o2.1 h)
      exact (a1.mul a2).neg_one_pow
    · rw [decide_eq_false h, if_neg (by simp)]
      have a1 : Even (oddCount (oddAt p) G1) := Nat.even_iff.2 (by omega)
      exact (a1.mul_right _).neg_one_pow
  · rw [Bool.not_eq_true] at hf
    simp [hf]

/-! ## contracting both factors -/

theorem isSign_orderSign (A B : List ν) (p : ν → σ × ℕ) (h : A.Perm B) :
    IsSign (orderSign A B p) := by
  unfold orderSign
  split
  · unfold IsSign
    have := exchangeOf_sq (oddAt p) A B
    exact mul_self_eq_one_iff.1 this
  · exact Or.inl rfl

section whole
variable [CommRing α] {t M T1 T2 U V : Tensor ν σ α} {G1 G2 : List ν} {F C E1 E2 : Edge σ}
  {x1 x2 c1 c2 : ν} {Q : ℕ → ℕ → List α → List α → γ → List α → Prop} {none : γ}
  {g : List σ → γ} {W : γ → ℕ → α}

/-- What remains of the sum over the common edge: `kept s` terms. -/
theorem value_first (ht : WF t) (hh : Halves t G1 G2 F C M) (hp : t.names.Perm (G1 ++ G2))
    (hf : Factors Q none x1 x2 c1 c2 F C E1 E2 M T1 T2 g)
    (hQ : ∀ {m n data d1 g d2}, Q m n data d1 g d2 → MatrixFactors W m n data d1 g d2)
    (h1 : c1 ∉ G1) (h2 : c2 ∉ G2) {p : ν → σ × ℕ} (hv : ValidPos t p)
    {w : σ × ℕ → α} (hw : ∀ s ∈ OMap.keys F.map, ∀ l < rankAt F C s,
      w (-s, l) = W (g [s, -s]) l) :
    ((List.range (rankAt F C (keyOf G1 p).sum)).map fun l =>
      (cellAt T1 t true G1 c1 (Function.update p c1 (-(keyOf G1 p).sum, l)) *
        w (-(keyOf G1 p).sum, l)) *
      cellAt T2 t false G2 c2 (Function.update p c2 ((keyOf G1 p).sum, l))).sum =
    applySign (orderSign t.names (G1 ++ G2) p) (amp t p) := by
  obtain ⟨e1, e2, e3⟩ := tensor_product ht hh hp hf hQ hv
  rw [← e3]
  congr 1
  apply List.map_congr_left
  intro l hl
  rw [cellAt_update _ _ _ h1, cellAt_update _ _ _ h2, e2, hw _ e1 l (List.mem_range.1 hl)]
  rfl

theorem value_second (ht : WF t) (hh : Halves t G1 G2 F C M) (hp : t.names.Perm (G1 ++ G2))
    (hf : Factors Q none x1 x2 c1 c2 F C E1 E2 M T1 T2 g)
    (hQ : ∀ {m n data d1 g d2}, Q m n data d1 g d2 → MatrixFactors W m n data d1 g d2)
    (h1 : c1 ∉ G1) (h2 : c2 ∉ G2) {p : ν → σ × ℕ} (hv : ValidPos t p)
    {w : σ × ℕ → α} (hw : ∀ s ∈ OMap.keys F.map, ∀ l < rankAt F C s,
      w (s, l) = W (g [s, -s]) l) :
    ((List.range (rankAt F C (-(keyOf G2 p).sum))).map fun l =>
      (cellAt T2 t false G2 c2 (Function.update p c2 (-(keyOf G2 p).sum, l)) *
        w (-(keyOf G2 p).sum, l)) *
      cellAt T1 t true G1 c1 (Function.update p c1 ((keyOf G2 p).sum, l))).sum =
    applySign (orderSign t.names (G1 ++ G2) p) (amp t p) := by
  obtain ⟨e1, e2, e3⟩ := tensor_product ht hh hp hf hQ hv
  rw [← e3, e2, neg_neg]
  congr 1
  apply List.map_congr_left
  intro l hl
  rw [cellAt_update _ _ _ h1, cellAt_update _ _ _ h2, e2, hw _ e1 l (List.mem_range.1 hl)]
  simp only [pairOf, if_true, Bool.false_eq_true, if_false]
  ring

end whole

/-- `r` is `t` with its edges in the order `order`: the same edges by name (an arrow only counts when
the edge has an odd symmetry) and the same elements by name, with the sign of the reordering. -/
structure Rearranged [Neg α] (t r : Tensor ν σ α) (order : List ν) : Prop where
  names : r.names = order
  perm : r.names.Perm t.names
  wf : WF r
  maps : ∀ n ∈ t.names, mapOf r n = mapOf t n
  arrows : TatSym.isFermi σ = true → ∀ n ∈ t.names, arrowValid (edgeOf t n) = true →
    (edgeOf r n).arrow = (edgeOf t n).arrow
  elem : ∀ p, ValidPos t p →
    elem r p = (elem t p).map (applySign (orderSign t.names order p))

/-- A factor has the edges of the tensor. -/
theorem HalfOf.maps {t A : Tensor ν σ α} {G : List ν} {c : ν} {left arrow : Bool} {D : List (σ × ℕ)}
    {a : (ν → σ × ℕ) → α} (h : HalfOf t G c left D arrow A a) (ht : WF t)
    (hfull : ∀ p, KeyOk (mapOf t) t.names p → -(keyOf G p).sum ∈ OMap.keys D) :
    ∀ n ∈ G, mapOf A n = mapOf t n := by
  intro n hn
  have hA : n ∈ A.names := h.perm.mem_iff.2 (List.mem_append_left _ hn)
  obtain ⟨-, -, -, hv⟩ := h.view ht
  obtain ⟨v1, v2, -⟩ := hv n hn
  apply OMap.ext (mapOf_sorted h.wf n hA) (mapOf_sorted ht n (h.sub n hn))
  intro s
  by_cases hs : s ∈ OMap.keys (mapOf A n)
  · exact v2 s hs
  · rw [OMap.find?_eq_none.2 hs]
    symm
    rw [OMap.find?_eq_none]
    intro hs'
    obtain ⟨q, hq, rfl⟩ := exists_key_at ht (h.sub n hn) hs'
    exact hs ((v1 _).2 ⟨q, fun m hm => hq.1 m (h.sub m hm), hfull q hq, rfl⟩)

/-- Contracting two factors whose products are the elements of the tensor. -/
theorem recompose [CommRing α] (ce : ContractEnv σ α) (hg : GemmOk ce.gemm)
    {cn : ContractNames ν} (hcn : [cn.c0, cn.c1, cn.c2].Nodup) {t A B : Tensor ν σ α}
    {G1 G2 : List ν} {c1 c2 : ν} {left : Bool} {D1 D2 : List (σ × ℕ)} {a b : (ν → σ × ℕ) → α}
    (ht : WF t) (hb : t.core.blocks ≠ [])
    (hA : HalfOf t G1 c1 left D1 true A a) (hB : HalfOf t G2 c2 (!left) D2 false B b)
    (hp : t.names.Perm (G1 ++ G2)) (hm : ∀ s, OMap.find? D1 s = OMap.find? D2 (-s))
    (hfull : ∀ p, KeyOk (mapOf t) t.names p → -(keyOf G1 p).sum ∈ OMap.keys D1)
    (hval : ∀ p, ValidPos t p → ((List.range (dimM D1 (-(keyOf G1 p).sum))).map fun l =>
          a (Function.update p c1 (-(keyOf G1 p).sum, l)) *
          b (Function.update p c2 ((keyOf G1 p).sum, l))).sum =
        applySign (orderSign t.names (G1 ++ G2) p) (amp t p)) :
    ∃ r, contract ce cn A B [(c1, c2)] = .ok r ∧ Rearranged t r (G1 ++ G2) := by
  have hD : D1 ≠ [] := by
    obtain ⟨q, hq⟩ := exists_key_of_blocks ht.shaped hb
    intro hc
    have := hfull q hq
    rw [hc] at this
    simp [OMap.keys] at this
  obtain ⟨r, r1, r2, r3, r4, r5, r6, r7, r8⟩ := join_spec ce hg hcn ht hA hB hp hm hD
  have hpr : r.names.Perm t.names := by rw [r2]; exact hp.symm
  have hmaps : ∀ n ∈ t.names, mapOf r n = mapOf t n := by
    intro n hn
    have hn' := hpr.mem_iff.2 hn
    apply OMap.ext (mapOf_sorted r3 n hn') (mapOf_sorted ht n hn)
    intro s
    by_cases hs : s ∈ OMap.keys (mapOf r n)
    · exact r5 n hn' s hs
    · rw [OMap.find?_eq_none.2 hs]
      symm
      rw [OMap.find?_eq_none]
      intro hs'
      obtain ⟨q, hq, rfl⟩ := exists_key_at ht hn hs'
      exact hs (r6 q hq (hfull q hq) n hn')
  refine ⟨r, r1, r2, hpr, r3, hmaps, fun hf n hn hv => ?_, fun p hv => ?_⟩
  · refine r4 n (hpr.mem_iff.2 hn) hf ?_
    rw [C49_arrow_valid] at hv ⊢
    obtain ⟨s, s1, s2⟩ := hv
    refine ⟨s, ?_, s2⟩
    change s ∈ OMap.keys (mapOf r n)
    rw [hmaps n hn]
    exact s1
  · have hvr : ValidPos r p := by
      rw [validPos_iff r3]
      have := (validPos_iff ht).1 hv
      rw [← fineOk_congr hmaps] at this
      exact FineOk.perm hpr.symm this
    rw [amp_valid r3 hvr, amp_valid ht hv, r8 p hv, hval p hv]
    rfl

end TAT
