import Verif.Contract.Linear
import Verif.Trace.LawProps

/-!
# C76: contraction and trace are linear and commute with conjugation

Laws between calls of `contract`, `trace`, `conjugate`, the sum and the difference of tensors and the
multiple of a tensor, stated without the description of what a contraction computes.  Two tensors
"agree" if their names are the same in the same order and their elements are the same at all
positions, an element being zero where a tensor has none.
-/

set_option linter.unusedSectionVars false

namespace TAT

variable {ν σ α : Type} [LinearOrder ν] [TatSym σ] [CommRing α]

/-- The same names in the same order, and the same elements. -/
def Agree (x y : Tensor ν σ α) : Prop := x.names = y.names ∧ ∀ p, amp x p = amp y p

/-! ## from the description of contractions -/

section
variable {t1 t2 r : Tensor ν σ α} {cs : List (ν × ν)}

theorem conj_agree {junk : List σ → ℕ → α} {conj : α →+* α} {isReal : Bool}
    (hreal : isReal = true → ∀ x, conj x = x) {c1 c2 r' : Tensor ν σ α} (h1 : WF t1) (h2 : WF t2)
    (hc1 : IsConj conj t1 c1) (hc2 : IsConj conj t2 c2) (hp : Pairs t1.names t2.names cs)
    (c : IsContraction t1 t2 cs r) (c' : IsContraction c1 c2 cs r') :
    ∃ rc, conjugate junk conj isReal r = .ok rc ∧ Agree r' rc := by
  obtain ⟨rc, e1, -⟩ := C26_conjugate junk conj isReal hreal c.wf
  have hc := isConj_of hreal c.wf e1
  refine ⟨rc, e1, ?_, fun p => ?_⟩
  · rw [hc.names, c'.names, c.names, hc1.names, hc2.names]
  · rw [← negPos_negPos p, hc.amps, c'.amps, c.amps, c.names]
    exact contracted_conj h1 h2 hc1 hc2 hp _

theorem dimM_of_mem {m : List (σ × ℕ)} (h : OMap.Sorted m) {x : σ × ℕ} (hx : x ∈ m) :
    dimM m x.1 = x.2 := by
  unfold dimM
  rw [OMap.find?_of_mem h.nodup hx, Option.getD_some]

theorem mem_of_key {m : List (σ × ℕ)} {s : σ} (h : s ∈ OMap.keys m) (hs : OMap.Sorted m) :
    (s, dimM m s) ∈ m := by
  obtain ⟨x, hx, rfl⟩ := List.mem_map.1 h
  rw [dimM_of_mem hs hx]
  exact hx

theorem compatible_outer {x1 x2 y1 y2 r r' : Tensor ν σ α} (h1 : WF x1) (h2 : WF x2)
    (h1' : WF y1) (h2' : WF y2)
    (p1 : y1.names.Perm x1.names) (p2 : y2.names.Perm x2.names)
    (k1 : ∀ n ∈ x1.names, CompatibleAt x1 y1 n) (k2 : ∀ n ∈ x2.names, CompatibleAt x2 y2 n)
    (c : IsContraction x1 x2 cs r) (c' : IsContraction y1 y2 cs r') :
    r'.names.Perm r.names ∧ ∀ n ∈ r.names, CompatibleAt r r' n := by
  have hperm : r'.names.Perm r.names := by
    rw [c.names, c'.names]
    exact (others_perm_names p1 _).append (others_perm_names p2 _)
  refine ⟨hperm, fun n hn s hs hs' => ?_⟩
  have hn' := hperm.mem_iff.2 hn
  have m := c.sub n hn _ (mem_of_key hs (mapOf_sorted c.wf n hn))
  have m' := c'.sub n hn' _ (mem_of_key hs' (mapOf_sorted c'.wf n hn'))
  have key : ∀ {a b : Tensor ν σ α}, WF a → WF b → n ∈ a.names → n ∈ b.names → CompatibleAt a b n →
      (s, dimM (mapOf r n) s) ∈ (edgeOf a n).map → (s, dimM (mapOf r' n) s) ∈ (edgeOf b n).map →
      dimM (mapOf r n) s = dimM (mapOf r' n) s := by
    intro a b ha hb na nb hk ma mb
    have := hk s (List.mem_map_of_mem (f := Prod.fst) ma) (List.mem_map_of_mem (f := Prod.fst) mb)
    have d1 := dimM_of_mem (mapOf_sorted ha n na) ma
    have d2 := dimM_of_mem (mapOf_sorted hb n nb) mb
    dsimp only at d1 d2
    rw [← d1, this, d2]
  rw [c.names, List.mem_append] at hn
  rcases hn with hn | hn
  · have hy : n ∈ others y1.names (cs.map Prod.fst) := (others_perm_names p1 _).mem_iff.2 hn
    rw [outerEdge_left hn] at m
    rw [outerEdge_left hy] at m'
    exact key h1 h1' (mem_others.1 hn).1 (mem_others.1 hy).1 (k1 n (mem_others.1 hn).1) m m'
  · have hy : n ∈ others y2.names (cs.map Prod.snd) := (others_perm_names p2 _).mem_iff.2 hn
    rw [outerEdge_right (c.names ▸ c.wf.nodup) hn] at m
    rw [outerEdge_right (c'.names ▸ c'.wf.nodup) hy] at m'
    exact key h2 h2' (mem_others.1 hn).1 (mem_others.1 hy).1 (k2 n (mem_others.1 hn).1) m m'

theorem compatible_self (t : Tensor ν σ α) (n : ν) : CompatibleAt t t n := fun _ _ _ => rfl

theorem transposeSign_self (A : List ν) (p : ν → σ × ℕ) : transposeSign A A p = 1 := by
  unfold transposeSign
  split
  · exact exchangeOf_refl _ _
  · rfl

/-- A tensor brought to another order of the names. -/
theorem aligned_spec (env : Env σ α) {x y : Tensor ν σ α} (hy : WF y) (hp : y.names.Perm x.names) :
    ∃ u : Tensor ν σ α, WF u ∧ u.names = x.names ∧ (∀ n ∈ x.names, edgeOf u n = edgeOf y n) ∧
      ∀ p, amp u p = transposeSign y.names x.names p • amp y p := by
  obtain ⟨u, -, a2, a3, a4, a5, a6⟩ := C16_transpose env hy hp
  exact ⟨u, a3, a2, a4, amp_of_elem hy.shaped a3.shaped a5 (fun q => isSign_transposeSign _ _ q) a6⟩

theorem add_left_agree (env : Env σ α) (junk : List σ → ℕ → α) {op : α → α → α} {e : α}
    (hop : ∀ a b, op a b = a + e * b) {x y s t r r' q : Tensor ν σ α} (hx : WF x) (hy : WF y)
    (ht : WF t) (hn : y.names.Perm x.names) (hk : ∀ n ∈ x.names, CompatibleAt x y n)
    (hs : scalarOp env junk id id op x y = .ok s) (hp : Pairs x.names t.names cs)
    (ha : TatSym.isFermi σ = true → ∀ c ∈ cs, (edgeOf y c.1).arrow = (edgeOf x c.1).arrow)
    (c : IsContraction x t cs r) (c' : IsContraction y t cs r') (d : IsContraction s t cs q) :
    ∃ u, scalarOp env junk id id op r r' = .ok u ∧ Agree q u := by
  obtain ⟨_, s1, s2, s3, s4, s5⟩ := sum_spec env junk hop hx hy hn hk
  rw [hs, Outcome.ok.injEq] at s1
  subst s1
  obtain ⟨n', k'⟩ := compatible_outer hx ht hy ht hn (List.Perm.refl _) hk
    (fun n _ => compatible_self t n) c c'
  obtain ⟨u, u1, -, u3, -, u5⟩ := sum_spec env junk hop c.wf c'.wf n' k'
  obtain ⟨z, z1, z2, z3, z4⟩ := aligned_spec env hy hn
  refine ⟨u, u1, ?_, fun p => ?_⟩
  · rw [u3, d.names, c.names, s3]
  · have hy' : contracted z t cs p = _ := contracted_transpose hy.shaped ht.shaped
      (t1' := z) (t2' := t) (cs := cs) ⟨hp.nodup1, hp.nodup2, fun c hc => hn.mem_iff.2 (hp.sub1 c hc), hp.sub2⟩
      (c'.names ▸ c'.wf.nodup) (by rw [z2]; exact hn) (List.Perm.refl _)
      (fun n h => z3 n (hn.mem_iff.1 h)) (by rw [z2]; exact z4)
      (fun p => by rw [transposeSign_self, one_smul]) p
    rw [u5, d.amps, contracted_add_left hx.shaped z1.shaped ⟨s2, s3, z2, s4, fun p => by rw [s5, z4]⟩ hp
      (fun hf c hc => by rw [z3 _ (hp.sub1 c hc)]; exact ha hf c hc), hy', c.amps, c'.amps, c.names,
      c'.names, z2]

theorem add_right_agree (env : Env σ α) (junk : List σ → ℕ → α) {op : α → α → α} {e : α}
    (hop : ∀ a b, op a b = a + e * b) {x y s t r r' q : Tensor ν σ α} (hx : WF x) (hy : WF y)
    (ht : WF t) (hn : y.names.Perm x.names) (hk : ∀ n ∈ x.names, CompatibleAt x y n)
    (hs : scalarOp env junk id id op x y = .ok s) (hp : Pairs t.names x.names cs)
    (c : IsContraction t x cs r) (c' : IsContraction t y cs r') (d : IsContraction t s cs q) :
    ∃ u, scalarOp env junk id id op r r' = .ok u ∧ Agree q u := by
  obtain ⟨_, s1, s2, s3, s4, s5⟩ := sum_spec env junk hop hx hy hn hk
  rw [hs, Outcome.ok.injEq] at s1
  subst s1
  obtain ⟨n', k'⟩ := compatible_outer ht hx ht hy (List.Perm.refl _) hn
    (fun n _ => compatible_self t n) hk c c'
  obtain ⟨u, u1, -, u3, -, u5⟩ := sum_spec env junk hop c.wf c'.wf n' k'
  obtain ⟨z, z1, z2, z3, z4⟩ := aligned_spec env hy hn
  refine ⟨u, u1, ?_, fun p => ?_⟩
  · rw [u3, d.names, c.names, s3]
  · have hy' : contracted t z cs p = _ := contracted_transpose ht.shaped hy.shaped
      (t1' := t) (t2' := z) (cs := cs) ⟨hp.nodup1, hp.nodup2, hp.sub1, fun c hc => hn.mem_iff.2 (hp.sub2 c hc)⟩
      (c'.names ▸ c'.wf.nodup) (List.Perm.refl _) (by rw [z2]; exact hn) (fun n h => rfl)
      (fun p => by rw [transposeSign_self, one_smul]) (by rw [z2]; exact z4) p
    rw [u5, d.amps, contracted_add_right (x := x) (y := z) ⟨s2, s3, z2, s4, fun p => by rw [s5, z4]⟩,
      hy', c.amps, c'.amps, c.names, c'.names, z2]

theorem scale_agree (junk : List σ → ℕ → α) (a b : α) {s1 s2 q : Tensor ν σ α} (h1 : WF t1)
    (h2 : WF t2) (e1 : scalarNumber junk (a * ·) t1 = .ok s1)
    (e2 : scalarNumber junk (b * ·) t2 = .ok s2) (c : IsContraction t1 t2 cs r)
    (d : IsContraction s1 s2 cs q) :
    ∃ u, scalarNumber junk (a * b * ·) r = .ok u ∧ Agree q u := by
  rw [(C24_number junk _ h1).1, Outcome.ok.injEq] at e1
  rw [(C24_number junk _ h2).1, Outcome.ok.injEq] at e2
  subst e1
  subst e2
  refine ⟨_, (C24_number junk _ c.wf).1, ?_, fun p => ?_⟩
  · rw [d.names]
    exact c.names.symm
  · rw [d.amps, contracted_scale, amp_mapTensor (mul_zero _), c.amps]

end

/-! ## contraction -/

section
variable {ce : ContractEnv σ α} {cn : ContractNames ν}

/-- **C76**: contracting conjugates gives the conjugate of the contraction, fermionic signs
included. -/
theorem C76_conjugate (hg : GemmOk ce.gemm) (hcn : cn.c1 ≠ cn.c2) (hns : TatSym.isNoSym σ = false)
    {junk1 junk2 junk3 : List σ → ℕ → α} {conj : α →+* α} {isReal : Bool}
    (hreal : isReal = true → ∀ x, conj x = x) {t1 t2 c1 c2 r r' : Tensor ν σ α} (h1 : WF t1)
    (h2 : WF t2) (hc1 : conjugate junk1 conj isReal t1 = .ok c1)
    (hc2 : conjugate junk2 conj isReal t2 = .ok c2) {pairs cs : List (ν × ν)}
    (hcs : knownPairs t1 t2 pairs = cs) (hr : contract ce cn t1 t2 pairs = .ok r)
    (hr' : contract ce cn c1 c2 pairs = .ok r') (s : Sound t1 t2 cs) (s' : Sound c1 c2 cs) :
    ∃ rc, conjugate junk3 conj isReal r = .ok rc ∧ Agree r' rc := by
  have k1 := isConj_of hreal h1 hc1
  have k2 := isConj_of hreal h2 hc2
  have hcs' : knownPairs c1 c2 pairs = cs := by
    rw [← hcs]
    unfold knownPairs
    rw [k1.names, k2.names]
  have p := ok_pairs hr
  rw [hcs] at p
  exact conj_agree hreal h1 h2 k1 k2 p (ok_isContraction hg hcn hns h1 h2 hcs s hr)
    (ok_isContraction hg hcn hns k1.wf k2.wf hcs' s' hr')

/-- **C76**: contraction is linear in the first tensor.  `op` is the sum (`e = 1`) or the difference
(`e = -1`) of numbers; the tensors may list their edges in different orders. -/
theorem C76_left (hg : GemmOk ce.gemm) (hcn : cn.c1 ≠ cn.c2) (hns : TatSym.isNoSym σ = false)
    (env : Env σ α) (junk : List σ → ℕ → α) {op : α → α → α} {e : α}
    (hop : ∀ a b, op a b = a + e * b) {x y s t r r' q : Tensor ν σ α} (hx : WF x) (hy : WF y)
    (ht : WF t) (hn : y.names.Perm x.names) (hk : ∀ n ∈ x.names, CompatibleAt x y n)
    (hs : scalarOp env junk id id op x y = .ok s) {pairs cs : List (ν × ν)}
    (hcs : knownPairs x t pairs = cs) (hr : contract ce cn x t pairs = .ok r)
    (hr' : contract ce cn y t pairs = .ok r') (hq : contract ce cn s t pairs = .ok q)
    (sx : Sound x t cs) (sy : Sound y t cs) (ss : Sound s t cs) :
    ∃ u, scalarOp env junk id id op r r' = .ok u ∧ Agree q u := by
  obtain ⟨_, s1, s2, s3, -, -⟩ := sum_spec env junk hop hx hy hn hk
  rw [hs, Outcome.ok.injEq] at s1
  subst s1
  have ky : knownPairs y t pairs = cs := by
    rw [← hcs]
    unfold knownPairs
    simp only [hn.mem_iff]
  have ks : knownPairs s t pairs = cs := by
    rw [← hcs]
    unfold knownPairs
    rw [s3]
  have p := ok_pairs hr
  rw [hcs] at p
  refine add_left_agree env junk hop hx hy ht hn hk hs p (fun hf c hc => ?_)
    (ok_isContraction hg hcn hns hx ht hcs sx hr) (ok_isContraction hg hcn hns hy ht ky sy hr')
    (ok_isContraction hg hcn hns s2 ht ks ss hq)
  have a1 := ok_arrows hns hx ht hr hf (hcs ▸ hc)
  have a2 := ok_arrows hns hy ht hr' hf (ky ▸ hc)
  revert a1 a2
  cases (edgeOf x c.1).arrow <;> cases (edgeOf y c.1).arrow <;> cases (edgeOf t c.2).arrow <;> simp

/-- **C76**: contraction is linear in the second tensor. -/
theorem C76_right (hg : GemmOk ce.gemm) (hcn : cn.c1 ≠ cn.c2) (hns : TatSym.isNoSym σ = false)
    (env : Env σ α) (junk : List σ → ℕ → α) {op : α → α → α} {e : α}
    (hop : ∀ a b, op a b = a + e * b) {x y s t r r' q : Tensor ν σ α} (hx : WF x) (hy : WF y)
    (ht : WF t) (hn : y.names.Perm x.names) (hk : ∀ n ∈ x.names, CompatibleAt x y n)
    (hs : scalarOp env junk id id op x y = .ok s) {pairs cs : List (ν × ν)}
    (hcs : knownPairs t x pairs = cs) (hr : contract ce cn t x pairs = .ok r)
    (hr' : contract ce cn t y pairs = .ok r') (hq : contract ce cn t s pairs = .ok q)
    (sx : Sound t x cs) (sy : Sound t y cs) (ss : Sound t s cs) :
    ∃ u, scalarOp env junk id id op r r' = .ok u ∧ Agree q u := by
  obtain ⟨_, s1, s2, s3, -, -⟩ := sum_spec env junk hop hx hy hn hk
  rw [hs, Outcome.ok.injEq] at s1
  subst s1
  have ky : knownPairs t y pairs = cs := by
    rw [← hcs]
    unfold knownPairs
    simp only [hn.mem_iff]
  have ks : knownPairs t s pairs = cs := by
    rw [← hcs]
    unfold knownPairs
    rw [s3]
  have p := ok_pairs hr
  rw [hcs] at p
  exact add_right_agree env junk hop hx hy ht hn hk hs p
    (ok_isContraction hg hcn hns ht hx hcs sx hr) (ok_isContraction hg hcn hns ht hy ky sy hr')
    (ok_isContraction hg hcn hns ht s2 ks ss hq)

/-- **C76**: factors of the tensors are factors of the contraction. -/
theorem C76_multiple (hg : GemmOk ce.gemm) (hcn : cn.c1 ≠ cn.c2) (hns : TatSym.isNoSym σ = false)
    (junk : List σ → ℕ → α) (a b : α) {t1 t2 s1 s2 r q : Tensor ν σ α} (h1 : WF t1) (h2 : WF t2)
    (e1 : scalarNumber junk (a * ·) t1 = .ok s1) (e2 : scalarNumber junk (b * ·) t2 = .ok s2)
    {pairs cs : List (ν × ν)} (hcs : knownPairs t1 t2 pairs = cs)
    (hr : contract ce cn t1 t2 pairs = .ok r) (hq : contract ce cn s1 s2 pairs = .ok q)
    (s : Sound t1 t2 cs) :
    ∃ u, scalarNumber junk (a * b * ·) r = .ok u ∧ Agree q u := by
  have e1' := e1
  have e2' := e2
  rw [(C24_number junk _ h1).1, Outcome.ok.injEq] at e1'
  rw [(C24_number junk _ h2).1, Outcome.ok.injEq] at e2'
  subst e1'
  subst e2'
  refine scale_agree junk a b h1 h2 e1 e2 (ok_isContraction hg hcn hns h1 h2 hcs s hr)
    (ok_isContraction hg hcn hns (mapTensor_wf _ h1) (mapTensor_wf _ h2) hcs ?_ hq)
  refine ⟨s.separated, fun hf hl p k1 k2 k3 => ?_, ?_⟩
  · obtain ⟨w, w1, w2, w3⟩ := s.reached hf hl p k1 k2 k3
    refine ⟨w, ?_, w2, w3⟩
    show keyOf t1.names w ∈ (t1.core.blocks.map fun c => (c.1, c.2.map (a * ·))).map Prod.fst
    rw [List.map_map]
    exact w1
  · refine s.blocks.imp_right fun hb h => hb ?_
    have : t1.core.blocks.map (fun c => (c.1, c.2.map (a * ·))) = [] := h
    exact List.map_eq_nil_iff.1 this

/-! ## contraction without symmetry -/

theorem blocks_of_edges {x y : Tensor ν σ α} (hx : WF x) (hy : WF y)
    (he : y.core.edges = x.core.edges) (hb : x.core.blocks ≠ []) : y.core.blocks ≠ [] := by
  intro h
  have h1 := hx.blocks
  have h2 := hy.blocks
  rw [he, ← h1, h, List.map_nil] at h2
  exact hb (List.map_eq_nil_iff.1 h2.symm)

theorem nosym_conj_edges (hns : TatSym.isNoSym σ = true) {conj : α →+* α} {t c : Tensor ν σ α}
    (h : WF t) (hc : IsConj conj t c) :
    (∀ n ∈ t.names, edgeOf c n = edgeOf t n) ∧ c.core.edges = t.core.edges := by
  have hf := TatSym.noSym_bose hns
  have key : ∀ n ∈ t.names, edgeOf c n = edgeOf t n := by
    intro n hn
    have hm : mapOf c n = mapOf t n := OMap.ext (mapOf_sorted hc.wf n (hc.names ▸ hn))
      (mapOf_sorted h n hn) fun s => by
        rw [← hc.maps n hn s, TatSym.noSym_eq hns (-s) s]
    have ha := hc.arrows n hn
    rw [hf] at ha
    show (⟨(edgeOf c n).arrow, mapOf c n⟩ : Edge σ) = ⟨(edgeOf t n).arrow, mapOf t n⟩
    rw [hm, ha]
    rfl
  refine ⟨key, ?_⟩
  rw [edges_named hc.wf, edges_named h, hc.names]
  exact List.map_congr_left key

/-- **C76**: without symmetry, contracting conjugates gives the conjugate of the contraction.  All
calls succeed. -/
theorem C76_nosym_conjugate (hg : GemmOk ce.gemm) (hcn : [cn.c0, cn.c1, cn.c2].Nodup)
    (hns : TatSym.isNoSym σ = true) (junk1 junk2 junk3 : List σ → ℕ → α) (conj : α →+* α)
    (isReal : Bool) (hreal : isReal = true → ∀ x, conj x = x) {t1 t2 : Tensor ν σ α} (h1 : WF t1)
    (h2 : WF t2) (hb1 : t1.core.blocks ≠ []) (hb2 : t2.core.blocks ≠ []) {cs : List (ν × ν)}
    (hp : Pairs t1.names t2.names cs) (hm : ∀ c ∈ cs, mapOf t1 c.1 = mapOf t2 c.2)
    (hnd : (others t1.names (cs.map Prod.fst) ++ others t2.names (cs.map Prod.snd)).Nodup) :
    ∃ c1 c2 r r' rc, conjugate junk1 conj isReal t1 = .ok c1 ∧
      conjugate junk2 conj isReal t2 = .ok c2 ∧ contract ce cn t1 t2 cs = .ok r ∧
      contract ce cn c1 c2 cs = .ok r' ∧ conjugate junk3 conj isReal r = .ok rc ∧ Agree r' rc := by
  obtain ⟨c1, e1, -⟩ := C26_conjugate junk1 conj isReal hreal h1
  obtain ⟨c2, e2, -⟩ := C26_conjugate junk2 conj isReal hreal h2
  have k1 := isConj_of hreal h1 e1
  have k2 := isConj_of hreal h2 e2
  obtain ⟨f1, g1⟩ := nosym_conj_edges hns h1 k1
  obtain ⟨f2, g2⟩ := nosym_conj_edges hns h2 k2
  obtain ⟨r, er, cr, -⟩ := nosym_isContraction ce hg hcn hns h1 h2 hb1 hb2 hp hm hnd
  obtain ⟨r', er', cr', -⟩ := nosym_isContraction ce hg hcn hns k1.wf k2.wf
    (blocks_of_edges h1 k1.wf g1 hb1) (blocks_of_edges h2 k2.wf g2 hb2)
    (by rw [k1.names, k2.names]; exact hp)
    (fun c hc => by
      unfold mapOf
      rw [f1 _ (hp.sub1 c hc), f2 _ (hp.sub2 c hc)]
      exact hm c hc) (by rw [k1.names, k2.names]; exact hnd)
  obtain ⟨rc, erc, ha⟩ := conj_agree (junk := junk3) hreal h1 h2 k1 k2 hp cr cr'
  exact ⟨c1, c2, r, r', rc, e1, e2, er, er', erc, ha⟩

/-- **C76**: without symmetry, contraction is linear in the first tensor.  All calls succeed. -/
theorem C76_nosym_left (hg : GemmOk ce.gemm) (hcn : [cn.c0, cn.c1, cn.c2].Nodup)
    (hns : TatSym.isNoSym σ = true) (env : Env σ α) (junk : List σ → ℕ → α) {op : α → α → α} {e : α}
    (hop : ∀ a b, op a b = a + e * b) {x y t : Tensor ν σ α} (hx : WF x) (hy : WF y) (ht : WF t)
    (hbx : x.core.blocks ≠ []) (hby : y.core.blocks ≠ []) (hbt : t.core.blocks ≠ [])
    (hn : y.names.Perm x.names) (hk : ∀ n ∈ x.names, mapOf x n = mapOf y n) {cs : List (ν × ν)}
    (hp : Pairs x.names t.names cs) (hm : ∀ c ∈ cs, mapOf x c.1 = mapOf t c.2)
    (hnd : (others x.names (cs.map Prod.fst) ++ others t.names (cs.map Prod.snd)).Nodup) :
    ∃ s r r' q u, scalarOp env junk id id op x y = .ok s ∧ contract ce cn x t cs = .ok r ∧
      contract ce cn y t cs = .ok r' ∧ contract ce cn s t cs = .ok q ∧
      scalarOp env junk id id op r r' = .ok u ∧ Agree q u := by
  have hf := TatSym.noSym_bose hns
  obtain ⟨s, -, es, hs, ns, hes, -⟩ := C25_inplace env junk op hx hy hn fun n h =>
    ⟨hk n h, fun h' => absurd h' (by rw [hf]; simp)⟩
  have hpy : Pairs y.names t.names cs :=
    ⟨hp.nodup1, hp.nodup2, fun c hc => hn.mem_iff.2 (hp.sub1 c hc), hp.sub2⟩
  have hed : ∀ n ∈ x.names, edgeOf s n = edgeOf x n := fun n h =>
    edgeOf_unique hs (by rw [hes, ns]; exact edges_named hx) n (ns ▸ h)
  obtain ⟨r, er, cr, -⟩ := nosym_isContraction ce hg hcn hns hx ht hbx hbt hp hm hnd
  obtain ⟨r', er', cr', -⟩ := nosym_isContraction ce hg hcn hns hy ht hby hbt hpy
    (fun c hc => by rw [← hk _ (hp.sub1 c hc)]; exact hm c hc)
    (((others_perm_names hn _).append_right _).nodup_iff.2 hnd)
  obtain ⟨q, eq, cq, -⟩ := nosym_isContraction ce hg hcn hns hs ht (blocks_of_edges hx hs hes hbx) hbt
    (by rw [ns]; exact hp) (fun c hc => by
      unfold mapOf
      rw [hed _ (hp.sub1 c hc)]
      exact hm c hc) (by rw [ns]; exact hnd)
  obtain ⟨u, eu, ha⟩ := add_left_agree env junk hop hx hy ht hn
    (fun n h k _ _ => by rw [hk n h]) es hp (fun h => absurd h (by rw [hf]; simp)) cr cr' cq
  exact ⟨s, r, r', q, u, es, er, er', eq, eu, ha⟩

/-- **C76**: without symmetry, factors of the tensors are factors of the contraction. -/
theorem C76_nosym_multiple (hg : GemmOk ce.gemm) (hcn : [cn.c0, cn.c1, cn.c2].Nodup)
    (hns : TatSym.isNoSym σ = true) (junk : List σ → ℕ → α) (a b : α) {t1 t2 : Tensor ν σ α}
    (h1 : WF t1) (h2 : WF t2) (hb1 : t1.core.blocks ≠ []) (hb2 : t2.core.blocks ≠ [])
    {cs : List (ν × ν)} (hp : Pairs t1.names t2.names cs)
    (hm : ∀ c ∈ cs, mapOf t1 c.1 = mapOf t2 c.2)
    (hnd : (others t1.names (cs.map Prod.fst) ++ others t2.names (cs.map Prod.snd)).Nodup) :
    ∃ s1 s2 r q u, scalarNumber junk (a * ·) t1 = .ok s1 ∧ scalarNumber junk (b * ·) t2 = .ok s2 ∧
      contract ce cn t1 t2 cs = .ok r ∧ contract ce cn s1 s2 cs = .ok q ∧
      scalarNumber junk (a * b * ·) r = .ok u ∧ Agree q u := by
  obtain ⟨r, er, cr, -⟩ := nosym_isContraction ce hg hcn hns h1 h2 hb1 hb2 hp hm hnd
  have e1 := (C24_number junk (a * ·) h1).1
  have e2 := (C24_number junk (b * ·) h2).1
  obtain ⟨q, eq, cq, -⟩ := nosym_isContraction ce hg hcn hns (mapTensor_wf (a * ·) h1)
    (mapTensor_wf (b * ·) h2) (blocks_of_edges h1 (mapTensor_wf _ h1) rfl hb1)
    (blocks_of_edges h2 (mapTensor_wf _ h2) rfl hb2) hp hm hnd
  obtain ⟨u, eu, ha⟩ := scale_agree junk a b h1 h2 e1 e2 cr cq
  exact ⟨_, _, r, q, u, e1, e2, er, eq, eu, ha⟩

end

/-! ## trace -/

section
variable {env1 env2 : Env σ α} {junk : List σ → ℕ → α} {tn : TraceNames ν}

/-- **C76**: the trace of the conjugate is the conjugate of the trace, fermionic signs included. -/
theorem C76_trace_conjugate (htn : [tn.t1, tn.t2, tn.t3].Nodup) {junk1 junk2 : List σ → ℕ → α}
    {conj : α →+* α} {isReal : Bool} (hreal : isReal = true → ∀ x, conj x = x)
    {t c r r' : Tensor ν σ α} (h : WF t) (hc : conjugate junk1 conj isReal t = .ok c)
    {ps : List (ν × ν)} (hr : traceTensor env1 env2 junk tn t ps = .ok r)
    (hr' : traceTensor env1 env2 junk tn c ps = .ok r') (s : Traceable t ps) (s' : Traceable c ps) :
    ∃ rc, conjugate junk2 conj isReal r = .ok rc ∧ Agree r' rc := by
  have k := isConj_of hreal h hc
  have d := ok_isTrace htn h s hr
  have d' := ok_isTrace htn k.wf s' hr'
  obtain ⟨rc, e, -⟩ := C26_conjugate junk2 conj isReal hreal d.wf
  have hc' := isConj_of hreal d.wf e
  refine ⟨rc, e, ?_, fun p => ?_⟩
  · rw [hc'.names, d'.names, d.names, k.names]
  · rw [← negPos_negPos p, hc'.amps, d'.amps, d.amps, d.names]
    exact traced_conj h k s.nodup s.names _

/-- **C76**: the trace is linear.  `op` is the sum (`e = 1`) or the difference (`e = -1`).  The arrows
of fermionic edges that are traced have to be the same in both tensors; the library's sum does not
look at them. -/
theorem C76_trace_sum (htn : [tn.t1, tn.t2, tn.t3].Nodup) (env : Env σ α) (junk' : List σ → ℕ → α)
    {op : α → α → α} {e : α} (hop : ∀ a b, op a b = a + e * b) {x y s r r' q : Tensor ν σ α}
    (hx : WF x) (hy : WF y) (hn : y.names.Perm x.names) (hk : ∀ n ∈ x.names, CompatibleAt x y n)
    (hs : scalarOp env junk' id id op x y = .ok s) {ps : List (ν × ν)}
    (ha : TatSym.isFermi σ = true → ∀ c ∈ ps, (edgeOf y c.1).arrow = (edgeOf x c.1).arrow)
    (hr : traceTensor env1 env2 junk tn x ps = .ok r)
    (hr' : traceTensor env1 env2 junk tn y ps = .ok r')
    (hq : traceTensor env1 env2 junk tn s ps = .ok q)
    (sx : Traceable x ps) (sy : Traceable y ps) (ss : Traceable s ps) :
    ∃ u, scalarOp env junk' id id op r r' = .ok u ∧ Agree q u := by
  obtain ⟨_, s1, s2, s3, s4, s5⟩ := sum_spec env junk' hop hx hy hn hk
  rw [hs, Outcome.ok.injEq] at s1
  subst s1
  have c := ok_isTrace htn hx sx hr
  have c' := ok_isTrace htn hy sy hr'
  have d := ok_isTrace htn s2 ss hq
  have hperm : r'.names.Perm r.names := by
    rw [c.names, c'.names]
    exact others_perm_names hn _
  obtain ⟨u, u1, -, u3, -, u5⟩ := sum_spec env junk' hop c.wf c'.wf hperm fun n hn1 k hk1 hk2 => by
    have hn2 := hperm.mem_iff.2 hn1
    have m := c.sub n hn1 _ (mem_of_key hk1 (mapOf_sorted c.wf n hn1))
    have m' := c'.sub n hn2 _ (mem_of_key hk2 (mapOf_sorted c'.wf n hn2))
    rw [c.names] at hn1
    rw [c'.names] at hn2
    have := hk n (mem_others.1 hn1).1 k (List.mem_map_of_mem (f := Prod.fst) m)
      (List.mem_map_of_mem (f := Prod.fst) m')
    have d1 := dimM_of_mem (mapOf_sorted hx n (mem_others.1 hn1).1) m
    have d2 := dimM_of_mem (mapOf_sorted hy n (mem_others.1 hn2).1) m'
    dsimp only at d1 d2
    rw [← d1, this, d2]
  obtain ⟨z, z1, z2, z3, z4⟩ := aligned_spec env hy hn
  refine ⟨u, u1, ?_, fun p => ?_⟩
  · rw [u3, d.names, c.names, s3]
  · have hin : ∀ d ∈ ps, d.1 ∈ x.names := fun d hd' => sx.names d.1
      ((pairNames_split ps).mem_iff.2 (List.mem_append_left _ (List.mem_map_of_mem hd')))
    have hz : traced z ps p = _ := traced_transpose hy.shaped (t' := z) sy.nodup sy.names
      (by rw [z2]; exact hn) (fun n h => z3 n (hn.mem_iff.1 h)) (by rw [z2]; exact z4) p
    rw [u5, d.amps, traced_add hx.shaped z1.shaped ⟨s2, s3, z2, s4, fun p => by rw [s5, z4]⟩ sx.nodup
      sx.names (fun hf c hc => by rw [z3 _ (hin c hc)]; exact ha hf c hc), hz, c.amps, c'.amps,
      c.names, c'.names, z2]

/-- **C76**: a factor of the tensor is a factor of the trace. -/
theorem C76_trace_multiple (htn : [tn.t1, tn.t2, tn.t3].Nodup) (junk' : List σ → ℕ → α) (a : α)
    {t s r q : Tensor ν σ α} (h : WF t) (hs : scalarNumber junk' (a * ·) t = .ok s)
    {ps : List (ν × ν)} (hr : traceTensor env1 env2 junk tn t ps = .ok r)
    (hq : traceTensor env1 env2 junk tn s ps = .ok q) (k : Traceable t ps) :
    ∃ u, scalarNumber junk' (a * ·) r = .ok u ∧ Agree q u := by
  rw [(C24_number junk' _ h).1, Outcome.ok.injEq] at hs
  subst hs
  have c := ok_isTrace htn h k hr
  have d := ok_isTrace htn (mapTensor_wf (a * ·) h) ⟨k.nodup, k.names, ⟨k.matched.arrows, k.matched.maps⟩,
    k.separated⟩ hq
  refine ⟨_, (C24_number junk' _ c.wf).1, ?_, fun p => ?_⟩
  · rw [d.names]
    exact c.names.symm
  · rw [d.amps, traced_scale, amp_mapTensor (mul_zero _), c.amps]

end

end TAT
