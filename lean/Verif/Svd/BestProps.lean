import Verif.Svd.Norm
import Verif.Svd.Best

/-!
# The cut is the best approximation

C72.
-/

namespace TAT

variable {ν σ : Type} [LinearOrder ν] [TatSym σ]

/-- A sum of values at positions of the edges `ns` of a function of these edges. -/
theorem sumOver_local {α β : Type} [AddCommMonoid α] (E : ν → List β) {F : (ν → β) → α}
    {ns : List ν} (done : List ν)
    (hF : ∀ p q, (∀ n ∈ done ++ ns, p n = q n) → F p = F q) {w w' : ν → β}
    (hw : ∀ n ∈ done, w n = w' n) : sumOver E F ns w = sumOver E F ns w' := by
  induction ns generalizing done w w' with
  | nil => exact hF w w' (by simpa using hw)
  | cons n ns ih =>
    change ((E n).map fun x => sumOver E F ns (Function.update w n x)).sum =
      ((E n).map fun x => sumOver E F ns (Function.update w' n x)).sum
    congr 1
    refine List.map_congr_left fun x _ => ih (done ++ [n]) (by simpa using hF) fun m hm => ?_
    by_cases h : m = n
    · subst h; simp
    · rw [Function.update_of_ne h, Function.update_of_ne h]
      refine hw m ?_
      simpa [h] using hm

theorem sum_getElem {X M : Type} [AddCommMonoid M] (l : List X) (f : X → M) :
    (l.map f).sum = ∑ i : Fin l.length, f l[i.1] := (Fin.sum_univ_fun_getElem l f).symm

theorem card_filter_fin {X : Type} (l : List X) (p : X → Bool) :
    (Finset.univ.filter fun i : Fin l.length => p l[i.1]).card = (l.filter p).length := by
  rw [Finset.card_filter, ← sum_getElem l fun x => if p x then 1 else 0]
  induction l with
  | nil => rfl
  | cons x l ih =>
    rw [List.map_cons, List.sum_cons, ih, List.filter_cons]
    split
    · rw [List.length_cons, Nat.add_comm]
    · rw [Nat.zero_add]

section
variable {S S' : List (σ × List ℝ)} {DU : List (σ × ℕ)}

theorem kept_prefix (hS : OMap.Sorted S)
    (p4 : ∀ e ∈ S', e.2 ≠ [] ∧ ∃ w, (e.1, w) ∈ S ∧ e.2 <+: w) {s : σ}
    (hs : ((OMap.find? S' s).getD []).length ≠ 0) :
    ∃ l l', OMap.find? S' s = some l ∧ OMap.find? S s = some (l ++ l') := by
  cases hf : OMap.find? S' s with
  | none => simp [hf] at hs
  | some l =>
    obtain ⟨-, y, hy, z, rfl⟩ := p4 _ (OMap.mem_of_find? hf)
    exact ⟨l, z, rfl, OMap.find?_of_mem hS.nodup hy⟩

/-- The number of positions of the common edge which are kept. -/
theorem kept_card (hS : OMap.Sorted S) (p2 : OMap.Sorted S')
    (p4 : ∀ e ∈ S', e.2 ≠ [] ∧ ∃ w, (e.1, w) ∈ S ∧ e.2 <+: w) (hD : OMap.Sorted DU)
    (ht : ∀ s, (OMap.find? S s).map List.length = OMap.find? DU s) {xs : List (σ × ℕ)}
    (hxs : xs = edgePositions DU) :
    (Finset.univ.filter fun x : Fin xs.length =>
      xs[x.1].2 < ((OMap.find? S' xs[x.1].1).getD []).length).card =
    (S'.map fun e => e.2.length).sum := by
  have hcf := card_filter_fin xs fun x => decide (x.2 < ((OMap.find? S' x.1).getD []).length)
  simp only [decide_eq_true_eq] at hcf
  rw [hcf]
  have hsort : OMap.Sorted (S'.map fun e => (e.1, e.2.length)) := by
    unfold OMap.Sorted at p2 ⊢
    rwa [List.map_map]
  have hdim : ∀ s, dimM (S'.map fun e => (e.1, e.2.length)) s =
      ((OMap.find? S' s).getD []).length := fun s => by
    unfold dimM
    clear p2 p4 hcf hsort
    induction S' with
    | nil => rfl
    | cons e l ih =>
      rw [List.map_cons]
      simp only [OMap.find?]
      split
      · rfl
      · exact ih
  have hlen : (edgePositions (S'.map fun e => (e.1, e.2.length))).length =
      (S'.map fun e => e.2.length).sum := by
    simp [edgePositions, List.length_flatMap, Function.comp_def]
  rw [← hlen]
  refine List.Perm.length_eq ((List.perm_ext_iff_of_nodup
    ((hxs ▸ edgePositions_nodup hD : xs.Nodup).filter _) (edgePositions_nodup hsort)).2 fun x => ?_)
  rw [List.mem_filter, mem_edgePositions hsort, hdim, hxs, mem_edgePositions hD, decide_eq_true_eq]
  refine ⟨fun h => h.2, fun h => ⟨lt_of_lt_of_le h ?_, h⟩⟩
  obtain ⟨l, l', h1, h2⟩ := kept_prefix hS p4 (s := x.1) (by omega)
  have h3 := ht x.1
  rw [h2] at h3
  unfold dimM
  rw [← h3, h1]
  simp

/-- No value dropped exceeds one kept. -/
theorem dropped_le_kept (hS : OMap.Sorted S)
    (p4 : ∀ e ∈ S', e.2 ≠ [] ∧ ∃ w, (e.1, w) ∈ S ∧ e.2 <+: w)
    (p5 : ∀ e ∈ S, ∀ f ∈ S', ∀ x ∈ e.2.drop ((OMap.find? S' e.1).getD []).length, ∀ y ∈ f.2, x ≤ y)
    {x m : σ × ℕ} (hx : x.2 < ((OMap.find? S x.1).getD []).length)
    (hx' : ¬ x.2 < ((OMap.find? S' x.1).getD []).length)
    (hm : m.2 < ((OMap.find? S' m.1).getD []).length) :
    ((OMap.find? S x.1).getD []).getD x.2 0 ≤ ((OMap.find? S m.1).getD []).getD m.2 0 := by
  obtain ⟨l, l', f1, f2⟩ := kept_prefix hS p4 (s := m.1) (by omega)
  rw [f1, Option.getD_some] at hm
  have vm : ((OMap.find? S m.1).getD []).getD m.2 0 = l[m.2] := by
    simp [f2, List.getElem?_append_left hm, hm]
  cases hf : OMap.find? S x.1 with
  | none => rw [hf] at hx; simp at hx
  | some y =>
    rw [hf, Option.getD_some] at hx
    rw [vm, Option.getD_some, List.getD_eq_getElem _ _ hx]
    refine p5 _ (OMap.mem_of_find? hf) _ (OMap.mem_of_find? f1) _ ?_ _ (List.getElem_mem hm)
    rw [List.mem_drop_iff_getElem]
    refine ⟨x.2 - ((OMap.find? S' x.1).getD []).length, by dsimp only; omega, ?_⟩
    congr 1
    dsimp only
    omega

theorem value_nonneg (h : ∀ e ∈ S, ∀ x ∈ e.2, (0 : ℝ) ≤ x) (x : σ × ℕ) :
    0 ≤ ((OMap.find? S x.1).getD []).getD x.2 0 := by
  cases hf : OMap.find? S x.1 with
  | none => simp
  | some l =>
    rw [Option.getD_some, List.getD_eq_getElem?_getD]
    cases hl : l[x.2]? with
    | none => simp
    | some y => exact h _ (OMap.mem_of_find? hf) y (List.mem_of_getElem? hl)

end

section
variable {K : Type} [RCLike K]

/-- The square of the norm of a difference of sums of products, as a sum over two sets. -/
theorem normSq_products {E : ν → List (σ × ℕ)} {names G1 G2 : List ν} (hn : names.Nodup)
    (hE : ∀ n ∈ names, (E n).Nodup) (hp : names.Perm (G1 ++ G2)) {f : (ν → σ × ℕ) → K}
    {D : (ν → σ × ℕ) → (ν → σ × ℕ) → K}
    (hD : ∀ w p q, (∀ n ∈ G2, p n = q n) → D w p = D w q)
    (hf : ∀ w p, (∀ n ∈ G1 ++ G2, p n ∈ E n) → (∀ n ∈ G1, p n = w n) → f p = D w p)
    {L1 L2 : List (ν → σ × ℕ)} (hL1 : L1 = assigns E G1 fun _ => (0, 0))
    (hL2 : L2 = assigns E G2 fun _ => (0, 0)) :
    normSq (starRingEnd K) E f names =
      ((∑ i : Fin L1.length, ∑ j : Fin L2.length, ‖D L1[i.1] L2[j.1]‖ ^ 2 : ℝ) : K) := by
  subst hL1 hL2
  have hnd := List.nodup_append.1 (hp.nodup_iff.1 hn)
  unfold normSq
  rw [sumOver_perm hn hE hp, sumOver_append]
  rw [sumOver_congr (F' := fun w => sumOver E (fun p => (starRingEnd K) (D w p) * D w p) G2
    fun _ => (0, 0)) hnd.1 fun w hw _ => ?_]
  · rw [sumOver_eq, sum_getElem]
    push_cast
    refine Finset.sum_congr rfl fun i _ => ?_
    rw [sumOver_eq, sum_getElem]
    refine Finset.sum_congr rfl fun j _ => ?_
    rw [RCLike.conj_mul]
  · rw [← sumOver_local E (F := fun p => (starRingEnd K) (D w p) * D w p) [] (w := w)
      (fun p q h => by rw [hD w p q (by simpa using h)]) (by simp)]
    refine sumOver_congr hnd.2.1 fun p hp hpw => ?_
    have hG1 : ∀ n ∈ G1, p n = w n := fun n hn => hpw n fun h => hnd.2.2 n hn n h rfl
    rw [hf w p (fun n hn => ?_) hG1]
    rcases List.mem_append.1 hn with h | h
    · rw [hG1 n h]; exact hw n h
    · exact hp n h

variable {gesvd : Gesvd K ℝ}

/-- **C72.** Nothing is nearer to the tensor than what is left of it after a cut, among all sums of
as many products of a function of the edges of U and a function of the edges of V. -/
theorem C72_best (hsvd : GesvdOk (fun x : ℝ => (x : K)) gesvd)
    (ho : GesvdOrtho (starRingEnd K) gesvd) (hval : GesvdValues gesvd) (env : DecompEnv σ K)
    (junk : ℕ → K) {sn : SvdNames ν} (hx : sn.u ≠ sn.v) {t : Tensor ν σ K} (ht : WF t) (set : List ν)
    {commonU commonV : ν} (hU1 : sn.u ≠ commonU) (hV1 : sn.v ≠ commonV)
    (hU : commonU ∉ t.names.filter fun n => decide (n ∈ set))
    (hV : commonV ∉ t.names.filter fun n => !decide (n ∈ set)) {u0 v0 : Tensor ν σ K}
    {S : List (σ × List ℝ)}
    (h0 : svd gesvd env junk sn t set commonU commonV (2 ^ 64 - 1) = .ok (u0, S, v0)) {cut : ℕ}
    (hlt : cut < (S.map fun e => e.2.length).sum)
    (hpos : cut ≤ (S.map fun e => (e.2.filter fun x => decide (0 < x)).length).sum)
    (hc : cut ≠ 2 ^ 64 - 1) (hcut : 0 < cut) :
    ∃ u S' v, svd gesvd env junk sn t set commonU commonV cut = .ok (u, S', v) ∧
      ∀ (ce : ContractEnv σ K) (cn : ContractNames ν) (junk' : List σ → ℕ → K) (inv : ℝ → ℝ),
      GemmOk ce.gemm → [cn.c0, cn.c1, cn.c2].Nodup → ∃ w r,
      multiple junk' (fun x (y : ℝ) => x * (y : K)) inv u S' commonU 'u' false = .ok w ∧
      contract ce cn w v [(commonU, commonV)] = .ok r ∧
      ∀ k ≤ cut, ∀ P Q : Fin k → (ν → σ × ℕ) → K,
      (∀ l p q, (∀ n ∈ t.names.filter fun n => decide (n ∈ set), p n = q n) → P l p = P l q) →
      (∀ l p q, (∀ n ∈ t.names.filter fun n => !decide (n ∈ set), p n = q n) → Q l p = Q l q) →
      RCLike.re (normSq (starRingEnd K) (fun n => edgePositions (mapOf t n))
        (fun p => applySign (orderSign t.names r.names p) (amp t p) - amp r p) t.names) ≤
      RCLike.re (normSq (starRingEnd K) (fun n => edgePositions (mapOf t n))
        (fun p => applySign (orderSign t.names r.names p) (amp t p) - ∑ l, P l p * Q l p)
        t.names) := by
  have hdesc := C35_values hsvd hval env junk hx ht set hU1 hV1 hU hV h0
  obtain ⟨u, S', v, e1, hr⟩ := C71_cut hsvd ho env junk hx ht set hU1 hV1 hU hV h0
    (fun e he => (hdesc e he).2) hlt hpos hc hcut
  refine ⟨u, S', v, e1, fun ce cn junk' inv hg hcn => ?_⟩
  obtain ⟨w, r, r1, r2, r3, r4⟩ := hr ce cn junk' inv hg hcn
  refine ⟨w, r, r1, r2, fun k hk P Q hP hQ => ?_⟩
  rw [r4, r3]
  obtain ⟨S0, DU, DV, aU, aV, sp, so, _, hs⟩ := svd_spec_ortho hsvd env junk hx ht set hU1 hV1 hU hV
  obtain ⟨oU, oV⟩ := so _ ho
  obtain ⟨u1, v1, e3, hu0, hv0⟩ := (hs (2 ^ 64 - 1)).1 _ (C34_no_cut S0 (Or.inl rfl))
  rw [h0] at e3
  obtain ⟨rfl, rfl, rfl⟩ : u0 = u1 ∧ S = S0 ∧ v0 = v1 := by cases e3; exact ⟨rfl, rfl, rfl⟩
  obtain ⟨S'', ru, rv, p1, p2, p3, p4, p5, -, -⟩ := sp.cut (fun e he => (hdesc e he).2) hlt hpos hc
  obtain ⟨u', v', e2, -, -⟩ := (hs cut).1 _ p1
  obtain rfl : S' = S'' := by rw [e1] at e2; cases e2; rfl
  rw [cutMap_nil sp.sortedU] at hu0
  rw [cutMap_nil sp.sortedV] at hv0
  obtain ⟨GU, hGU⟩ : ∃ G, G = t.names.filter fun n => decide (n ∈ set) := ⟨_, rfl⟩
  obtain ⟨GV, hGV⟩ : ∃ G, G = t.names.filter fun n => !decide (n ∈ set) := ⟨_, rfl⟩
  have hp : t.names.Perm (GU ++ GV) := by
    rw [hGU, hGV]; exact (filter_perm _ _).trans List.perm_append_comm
  simp only [← hGU, ← hGV] at sp hu0 hv0 oU oV hP hQ ⊢
  -- the positions of the common edge and the values there
  obtain ⟨xs, hxs⟩ : ∃ xs, xs = edgePositions DU := ⟨_, rfl⟩
  have hnd : xs.Nodup := hxs ▸ edgePositions_nodup sp.sortedU
  let val (x : σ × ℕ) : ℝ := ((OMap.find? S x.1).getD []).getD x.2 0
  let len (s : σ) : ℕ := ((OMap.find? S' s).getD []).length
  have hmem : ∀ i : Fin xs.length, xs[i.1] ∈ edgePositions DU := fun i =>
    hxs ▸ List.getElem_mem i.2
  have hinj : ∀ i j : Fin xs.length, xs[i.1] = xs[j.1] ↔ i = j := fun i j => by
    rw [hnd.getElem_inj_iff, Fin.ext_iff]
  obtain ⟨LU, hLU⟩ : ∃ l, l = assigns (fun n => edgePositions (mapOf t n)) GU fun _ => ((0 : σ), 0) :=
    ⟨_, rfl⟩
  obtain ⟨LV, hLV⟩ : ∃ l, l = assigns (fun n => edgePositions (mapOf t n)) GV fun _ => ((0 : σ), 0) :=
    ⟨_, rfl⟩
  let A (x : Fin xs.length) (w : ν → σ × ℕ) : K := amp u0 (Function.update w commonU xs[x.1])
  let B (x : Fin xs.length) (w : ν → σ × ℕ) : K :=
    amp v0 (Function.update w commonV (-xs[x.1].1, xs[x.1].2))
  have hA : ∀ x y, ∑ i : Fin LU.length, (starRingEnd K) (A x LU[i.1]) * A y LU[i.1] =
      if x = y then 1 else 0 := fun x y => by
    have := (sp.ortho ht hp hu0 hv0 oU oV (hmem x) (hmem y) fun _ => (0, 0)).1
    rw [sumOver_eq, ← hLU, sum_getElem] at this
    simp only [hinj] at this
    exact this
  have hB : ∀ x y, ∑ i : Fin LV.length, (starRingEnd K) (B x LV[i.1]) * B y LV[i.1] =
      if x = y then 1 else 0 := fun x y => by
    have := (sp.ortho ht hp hu0 hv0 oU oV (hmem x) (hmem y) fun _ => (0, 0)).2
    rw [sumOver_eq, ← hLV, sum_getElem] at this
    simp only [hinj] at this
    exact this
  -- the left side
  have hleft : (S.map fun e => ((e.2.drop ((OMap.find? S' e.1).getD []).length).map
      fun x : ℝ => (starRingEnd K) (x : K) * (x : K)).sum).sum =
      ((∑ x ∈ (Finset.univ.filter fun x : Fin xs.length => xs[x.1].2 < len xs[x.1].1)ᶜ,
        val xs[x.1] ^ 2 : ℝ) : K) := by
    rw [← sp.sum_values (fun s => len s) fun x : ℝ => (starRingEnd K) (x : K) * (x : K), ← hxs,
      sum_getElem, Finset.compl_filter, Finset.sum_filter]
    push_cast
    refine Finset.sum_congr rfl fun i _ => ?_
    rw [ite_not]
    split
    · simp
    · rw [RCLike.conj_mul, RCLike.norm_ofReal, ← RCLike.ofReal_pow, sq_abs]
  rw [hleft, RCLike.ofReal_re]
  -- the right side
  have hright := normSq_products (K := K) (E := fun n => edgePositions (mapOf t n)) ht.nodup
    (fun n hn => edgePositions_nodup (mapOf_sorted ht n hn)) hp
    (f := fun p => applySign (orderSign t.names (GU ++ GV) p) (amp t p) - ∑ l, P l p * Q l p)
    (D := fun w p => ∑ x, A x w * (val xs[x.1] : K) * B x p - ∑ l, P l w * Q l p)
    (fun w p q h => by
      simp only [B, hv0.amp_local _ h, fun l => hQ l p q h])
    (fun w p hpos hw => by
      rw [sp.products ht hp hu0 hv0 (singularAt (fun x : ℝ => (x : K)) S) _
        (fun p hv => (sp.value p hv).symm) (fun p hv => by
          rw [amp_zero ht hv]; simp [applySign]) hpos, ← hxs, sum_getElem]
      simp only [A, hu0.amp_local _ hw, fun l => hP l p w hw]
      rfl) hLU hLV
  rw [hright, RCLike.ofReal_re]
  obtain ⟨kept, hkept⟩ : ∃ f, f = Finset.univ.filter
    fun x : Fin xs.length => xs[x.1].2 < len xs[x.1].1 := ⟨_, rfl⟩
  rw [← hkept]
  -- the values kept
  have hcard : kept.card = cut := by
    rw [hkept, ← p3]
    exact kept_card sp.sortedS p2 p4 sp.sortedU sp.table hxs
  have hne : kept.Nonempty := by
    rw [← Finset.card_pos, hcard]; exact hcut
  obtain ⟨m, hm, hmin⟩ := Finset.exists_min_image kept (fun x => val xs[x.1]) hne
  have hnn : ∀ x : Fin xs.length, 0 ≤ val xs[x.1] := fun x =>
    value_nonneg (fun e he => (hdesc e he).1) _
  refine nearest (fun x (i : Fin LU.length) => A x LU[i.1]) (fun x (j : Fin LV.length) => B x LV[j.1])
    (fun x => val xs[x.1]) hA hB kept (by rw [Fintype.card_fin, hcard]; exact hk)
    (τ := val xs[m.1] ^ 2) (by positivity) (fun x hx => pow_le_pow_left₀ (hnn m) (hmin x hx) 2)
    (fun x hx => pow_le_pow_left₀ (hnn x) ?_ 2) (fun l (i : Fin LU.length) => P l LU[i.1])
    (fun l (j : Fin LV.length) => Q l LV[j.1])
  have hx1 := (mem_edgePositions sp.sortedU).1 (hmem x)
  unfold dimM at hx1
  rw [← sp.table] at hx1
  refine dropped_le_kept sp.sortedS p4 p5 ?_ (by simpa [hkept] using hx) (by simpa [hkept] using hm)
  cases hf : OMap.find? S xs[x.1].1 with
  | none => rw [hf] at hx1; simp at hx1
  | some y => rw [hf] at hx1; simpa using hx1

end

end TAT
