import Verif.Contract.WhenOk
import Verif.Contract.Unit

/-!
# C73: the laws of contraction

What `contract` computes is given element by element in `Verif/Contract/Spec.lean`.  Here are laws
between several calls of it, stated without that description: the order of two contractions, the
order of the arguments, transposed arguments and reversed edges.
-/

set_option linter.unusedSectionVars false

namespace TAT

variable {ν σ α : Type}

section
variable [LinearOrder ν] [TatSym σ]

theorem knownPairs_self {t1 t2 : Tensor ν σ α} {cs : List (ν × ν)}
    (h : ∀ c ∈ cs, c.1 ∈ t1.names ∧ c.2 ∈ t2.names) : knownPairs t1 t2 cs = cs := by
  unfold knownPairs
  rw [List.filter_eq_self]
  intro c hc
  exact decide_eq_true (h c hc)

/-- The names after both contractions of a chain. -/
theorem chain_names {N1 N2 N3 : List ν} {cs ds : List (ν × ν)}
    (hc : ∀ c ∈ cs, c.1 ∈ N1 ∧ c.2 ∈ N2) (hd : ∀ d ∈ ds, d.1 ∈ N2 ∧ d.2 ∈ N3)
    (hdis : ∀ d ∈ ds, d.1 ∉ cs.map Prod.snd)
    (nd12 : (others N1 (cs.map Prod.fst) ++ others N2 (cs.map Prod.snd)).Nodup)
    (nd23 : (others N2 (ds.map Prod.fst) ++ others N3 (ds.map Prod.snd)).Nodup) :
    others (others N1 (cs.map Prod.fst) ++ others N2 (cs.map Prod.snd)) (ds.map Prod.fst) ++
      others N3 (ds.map Prod.snd) =
    others N1 (cs.map Prod.fst) ++ others (others N2 (ds.map Prod.fst) ++
      others N3 (ds.map Prod.snd)) (cs.map Prod.snd) := by
  rw [others_append, others_append, others_comm N2, List.append_assoc]
  have h1 : others (others N1 (cs.map Prod.fst)) (ds.map Prod.fst) = others N1 (cs.map Prod.fst) := by
    refine others_self fun n hn hn' => ?_
    obtain ⟨d, hd', rfl⟩ := List.mem_map.1 hn'
    exact (List.nodup_append.1 nd12).2.2 _ hn _ (mem_others.2 ⟨(hd d hd').1, hdis d hd'⟩) rfl
  have h3 : others (others N3 (ds.map Prod.snd)) (cs.map Prod.snd) = others N3 (ds.map Prod.snd) := by
    refine others_self fun n hn hn' => ?_
    obtain ⟨c, hc', rfl⟩ := List.mem_map.1 hn'
    refine (List.nodup_append.1 nd23).2.2 _ (mem_others.2 ⟨(hc c hc').2, fun hh => ?_⟩) _ hn rfl
    obtain ⟨d, hd', he⟩ := List.mem_map.1 hh
    exact hdis d hd' (he ▸ List.mem_map_of_mem hc')
  rw [h1, h3]

/-- **C73**: the order of two contractions.  The tensors are joined in a chain: `cs` are edges of the
first and the second, `ds` other edges of the second with edges of the third.  If both ways to
contract the chain succeed, the results have the same names in the same order and the same elements,
fermionic signs included.  An element is zero where a tensor has none. -/
theorem C73_associative [CommRing α] {ce : ContractEnv σ α} (hg : GemmOk ce.gemm)
    {cn : ContractNames ν} (hcn : cn.c1 ≠ cn.c2) (hns : TatSym.isNoSym σ = false)
    {t1 t2 t3 r12 r23 l r : Tensor ν σ α} (h1 : WF t1) (h2 : WF t2) (h3 : WF t3)
    {cs ds : List (ν × ν)} (hc : ∀ c ∈ cs, c.1 ∈ t1.names ∧ c.2 ∈ t2.names)
    (hd : ∀ d ∈ ds, d.1 ∈ t2.names ∧ d.2 ∈ t3.names) (hdis : ∀ d ∈ ds, d.1 ∉ cs.map Prod.snd)
    (h12 : contract ce cn t1 t2 cs = .ok r12) (h23 : contract ce cn t2 t3 ds = .ok r23)
    (hl : contract ce cn r12 t3 ds = .ok l) (hr : contract ce cn t1 r23 cs = .ok r)
    (s12 : Sound t1 t2 cs) (s23 : Sound t2 t3 ds) (sl : Sound r12 t3 ds) (sr : Sound t1 r23 cs) :
    l.names = r.names ∧ ∀ p, amp l p = amp r p := by
  have k12 := knownPairs_self hc
  have k23 := knownPairs_self hd
  have c12 := ok_isContraction hg hcn hns h1 h2 k12 s12 h12
  have c23 := ok_isContraction hg hcn hns h2 h3 k23 s23 h23
  have kl : knownPairs r12 t3 ds = ds := knownPairs_self fun d hd' => by
    refine ⟨?_, (hd d hd').2⟩
    rw [c12.names]
    exact List.mem_append_right _ (mem_others.2 ⟨(hd d hd').1, hdis d hd'⟩)
  have kr : knownPairs t1 r23 cs = cs := knownPairs_self fun c hc' => by
    refine ⟨(hc c hc').1, ?_⟩
    rw [c23.names]
    refine List.mem_append_left _ (mem_others.2 ⟨(hc c hc').2, fun hh => ?_⟩)
    obtain ⟨d, hd', he⟩ := List.mem_map.1 hh
    exact hdis d hd' (he ▸ List.mem_map_of_mem hc')
  have cl := ok_isContraction hg hcn hns c12.wf h3 kl sl hl
  have cr := ok_isContraction hg hcn hns h1 c23.wf kr sr hr
  have p12 := ok_pairs h12
  have p23 := ok_pairs h23
  rw [k12] at p12
  rw [k23] at p23
  refine ⟨?_, fun p => ?_⟩
  · rw [cl.names, cr.names, c12.names, c23.names]
    exact chain_names hc hd hdis (c12.names ▸ c12.wf.nodup) (c23.names ▸ c23.wf.nodup)
  · rw [cl.amps, cr.amps]
    refine contracted_assoc h2.shaped p12 p23 (fun n hn => ?_) c12 c23 p
    obtain ⟨d, hd', rfl⟩ := List.mem_map.1 hn
    exact hdis d hd'

theorem sound_single {t1 t2 : Tensor ν σ α} (h1 : WF t1) (h2 : WF t2) {c : ν × ν}
    (hc1 : c.1 ∈ t1.names) (hc2 : c.2 ∈ t2.names) (b1 : t1.core.blocks ≠ [])
    (b2 : t2.core.blocks ≠ []) : Sound t1 t2 [c] := by
  refine ⟨Or.inl fun p q _ _ hs d hd => ?_, fun _ => sharedReached_single h1 h2 hc1 hc2 b1 b2,
    Or.inr b1⟩
  obtain rfl : d = c := by simpa using hd
  simpa using hs

/-- **C73**: the order of two contractions in a chain with one edge between neighbours. -/
theorem C73_chain [CommRing α] {ce : ContractEnv σ α} (hg : GemmOk ce.gemm)
    {cn : ContractNames ν} (hcn : cn.c1 ≠ cn.c2) (hns : TatSym.isNoSym σ = false)
    {t1 t2 t3 r12 r23 l r : Tensor ν σ α} (h1 : WF t1) (h2 : WF t2) (h3 : WF t3)
    {c d : ν × ν} (hc1 : c.1 ∈ t1.names) (hc2 : c.2 ∈ t2.names) (hd1 : d.1 ∈ t2.names)
    (hd2 : d.2 ∈ t3.names) (hdis : d.1 ≠ c.2)
    (h12 : contract ce cn t1 t2 [c] = .ok r12) (h23 : contract ce cn t2 t3 [d] = .ok r23)
    (hl : contract ce cn r12 t3 [d] = .ok l) (hr : contract ce cn t1 r23 [c] = .ok r)
    (b1 : t1.core.blocks ≠ []) (b2 : t2.core.blocks ≠ []) (b3 : t3.core.blocks ≠ [])
    (b12 : r12.core.blocks ≠ []) (b23 : r23.core.blocks ≠ []) :
    l.names = r.names ∧ ∀ p, amp l p = amp r p := by
  have s12 := sound_single h1 h2 hc1 hc2 b1 b2
  have s23 := sound_single h2 h3 hd1 hd2 b2 b3
  have k12 : knownPairs t1 t2 [c] = [c] := knownPairs_self (by simpa using ⟨hc1, hc2⟩)
  have k23 : knownPairs t2 t3 [d] = [d] := knownPairs_self (by simpa using ⟨hd1, hd2⟩)
  have c12 := ok_isContraction hg hcn hns h1 h2 k12 s12 h12
  have c23 := ok_isContraction hg hcn hns h2 h3 k23 s23 h23
  refine C73_associative hg hcn hns h1 h2 h3 (by simpa using ⟨hc1, hc2⟩) (by simpa using ⟨hd1, hd2⟩)
    (by simpa using hdis) h12 h23 hl hr s12 s23
    (sound_single c12.wf h3 ?_ hd2 b12 b3) (sound_single h1 c23.wf hc1 ?_ b1 b23)
  · rw [c12.names]
    exact List.mem_append_right _ (mem_others.2 ⟨hd1, by simpa using hdis⟩)
  · rw [c23.names]
    exact List.mem_append_left _ (mem_others.2 ⟨hc2, by simpa using hdis.symm⟩)

/-- **C73**: the order of the arguments.  If the same edges are contracted with the tensors exchanged,
in whatever order the pairs are given, the result is the same tensor transposed: the edges of the
second tensor come first, and the elements differ by the sign of that transposition. -/
theorem C73_exchange [CommRing α] {ce : ContractEnv σ α} (hg : GemmOk ce.gemm)
    {cn : ContractNames ν} (hcn : cn.c1 ≠ cn.c2) (hns : TatSym.isNoSym σ = false)
    {t1 t2 r r' : Tensor ν σ α} (h1 : WF t1) (h2 : WF t2)
    {pairs pairs' cs : List (ν × ν)} (hcs : knownPairs t1 t2 pairs = cs)
    (hcs' : (knownPairs t2 t1 pairs').Perm (cs.map Prod.swap))
    (hr : contract ce cn t1 t2 pairs = .ok r) (hr' : contract ce cn t2 t1 pairs' = .ok r')
    (s : Sound t1 t2 cs) (s' : Sound t2 t1 (knownPairs t2 t1 pairs')) :
    (∃ A B, r.names = A ++ B ∧ r'.names = B ++ A) ∧
    (∀ p, amp r' p = transposeSign r.names r'.names p • amp r p) ∧
    ∀ env, ∃ u, transpose env r' r.names = .ok u ∧ u.names = r.names ∧ ∀ p, amp u p = amp r p := by
  have c := ok_isContraction hg hcn hns h1 h2 hcs s hr
  have c' := ok_isContraction hg hcn hns h2 h1 rfl s' hr'
  have p := ok_pairs hr
  rw [hcs] at p
  have k1 := (hcs'.map Prod.fst)
  have k2 := (hcs'.map Prod.snd)
  rw [map_swap_fst] at k1
  rw [map_swap_snd] at k2
  have o1 : others t2.names ((knownPairs t2 t1 pairs').map Prod.fst) =
      others t2.names (cs.map Prod.snd) := List.filter_congr fun n _ => by simp only [k1.mem_iff]
  have o2 : others t1.names ((knownPairs t2 t1 pairs').map Prod.snd) =
      others t1.names (cs.map Prod.fst) := List.filter_congr fun n _ => by simp only [k2.mem_iff]
  have n' := c'.names
  rw [o1, o2] at n'
  have hperm : r'.names.Perm r.names := by
    rw [n', c.names]
    exact List.perm_append_comm
  have ha : ∀ q, amp r' q = transposeSign r.names r'.names q • amp r q := by
    intro q
    rw [c'.amps, c.amps, contracted_perm h2.shaped h1.shaped (p.swap.perm hcs') hcs',
      contracted_swap h1.shaped h2.shaped p (c.names ▸ c.wf.nodup) (fun hf x hx =>
        ok_arrows hns h1 h2 hr hf (hcs ▸ hx)) q]
    unfold transposeSign
    rw [c.names, n']
  refine ⟨⟨_, _, c.names, n'⟩, ha, fun env => ?_⟩
  obtain ⟨u, u1, u2, u3, u4, u5, u6⟩ := C16_transpose env c'.wf hperm
  refine ⟨u, u1, u2, fun q => ?_⟩
  rw [amp_of_elem c'.wf.shaped u3.shaped u5 (fun q => isSign_transposeSign _ _ q) u6, ha, smul_smul]
  have : transposeSign r'.names r.names q * transposeSign r.names r'.names q = 1 := by
    unfold transposeSign
    split
    · rw [exchangeOf_mul _ hperm hperm.symm, exchangeOf_refl]
    · rfl
  rw [this, one_smul]

/-- **C73**: transposed arguments.  Transposing the arguments of a contraction transposes the result:
the edges kept appear in the new order, and the elements differ by the sign of that transposition. -/
theorem C73_transpose [CommRing α] {ce : ContractEnv σ α} (hg : GemmOk ce.gemm)
    {cn : ContractNames ν} (hcn : cn.c1 ≠ cn.c2) (hns : TatSym.isNoSym σ = false) (env : Env σ α)
    {t1 t2 u1 u2 r r' : Tensor ν σ α} (h1 : WF t1) (h2 : WF t2) {target1 target2 : List ν}
    (p1 : t1.names.Perm target1) (p2 : t2.names.Perm target2)
    (hu1 : transpose env t1 target1 = .ok u1) (hu2 : transpose env t2 target2 = .ok u2)
    {pairs cs : List (ν × ν)} (hcs : knownPairs t1 t2 pairs = cs)
    (hr : contract ce cn t1 t2 pairs = .ok r) (hr' : contract ce cn u1 u2 pairs = .ok r')
    (s : Sound t1 t2 cs) (s' : Sound u1 u2 cs) :
    r'.names = others target1 (cs.map Prod.fst) ++ others target2 (cs.map Prod.snd) ∧
    ∀ p, amp r' p = transposeSign r.names r'.names p • amp r p := by
  obtain ⟨_, a1, a2, a3, a4, a5, a6⟩ := C16_transpose env h1 p1
  rw [hu1, Outcome.ok.injEq] at a1
  subst a1
  obtain ⟨_, b1, b2, b3, b4, b5, b6⟩ := C16_transpose env h2 p2
  rw [hu2, Outcome.ok.injEq] at b1
  subst b1
  subst a2
  subst b2
  have hcs' : knownPairs u1 u2 pairs = cs := by
    rw [← hcs]
    unfold knownPairs
    simp only [p1.mem_iff, p2.mem_iff]
  have c := ok_isContraction hg hcn hns h1 h2 hcs s hr
  have c' := ok_isContraction hg hcn hns a3 b3 hcs' s' hr'
  have p := ok_pairs hr
  rw [hcs] at p
  refine ⟨c'.names, fun q => ?_⟩
  rw [c'.amps, c.amps, c.names, c'.names]
  exact contracted_transpose h1.shaped h2.shaped p (c.names ▸ c.wf.nodup) p1 p2
    (fun n hn => a4 n (p1.mem_iff.1 hn))
    (amp_of_elem h1.shaped a3.shaped a5 (fun q => isSign_transposeSign _ _ q) a6)
    (amp_of_elem h2.shaped b3.shaped b5 (fun q => isSign_transposeSign _ _ q) b6) q

/-- **C73**: reversed edges.  Reversing contracted edges of both tensors, with the sign applied to one
of them, does not change the result. -/
theorem C73_reverse [CommRing α] {ce : ContractEnv σ α} (hg : GemmOk ce.gemm)
    {cn : ContractNames ν} (hcn : cn.c1 ≠ cn.c2) (hns : TatSym.isNoSym σ = false) (env : Env σ α)
    {t1 t2 u1 u2 r r' : Tensor ν σ α} (h1 : WF t1) (h2 : WF t2)
    {pairs cs : List (ν × ν)} (hcs : knownPairs t1 t2 pairs = cs) {R1 R2 : List ν}
    (hR1 : ∀ n ∈ R1, n ∈ cs.map Prod.fst) (hR2 : ∀ n ∈ R2, n ∈ cs.map Prod.snd)
    (hR : ∀ c ∈ cs, c.1 ∈ R1 ↔ c.2 ∈ R2) (applyParity : Bool)
    (hu1 : reverseEdge env t1 R1 applyParity [] = .ok u1)
    (hu2 : reverseEdge env t2 R2 (!applyParity) [] = .ok u2)
    (hr : contract ce cn t1 t2 pairs = .ok r) (hr' : contract ce cn u1 u2 pairs = .ok r')
    (s : Sound t1 t2 cs) (s' : Sound u1 u2 cs) :
    r'.names = r.names ∧ ∀ p, amp r' p = amp r p := by
  obtain ⟨_, a1, a2, a3, a4, a5, a6⟩ := C18_reverse env h1 R1 applyParity []
  rw [hu1, Outcome.ok.injEq] at a1
  subst a1
  obtain ⟨_, b1, b2, b3, b4, b5, b6⟩ := C18_reverse env h2 R2 (!applyParity) []
  rw [hu2, Outcome.ok.injEq] at b1
  subst b1
  have hcs' : knownPairs u1 u2 pairs = cs := by
    rw [← hcs]
    unfold knownPairs
    rw [a2, b2]
  have c := ok_isContraction hg hcn hns h1 h2 hcs s hr
  have c' := ok_isContraction hg hcn hns a3 b3 hcs' s' hr'
  have p := ok_pairs hr
  rw [hcs] at p
  have hsign : ∀ (R : List ν) (b : Bool) (N : List ν) (q : ν → σ × ℕ),
      IsSign (reverseSign R b [] N q) := by
    intro R b N q
    unfold reverseSign reverseOf
    split
    · have : ∀ l : List ν, IsSign (l.map fun n => if (decide (n ∈ R) && marked b [] n) = true ∧
          oddAt q n = true then (-1 : ℤ) else 1).prod := by
        intro l
        induction l with
        | nil => exact Or.inl rfl
        | cons n l ih =>
          rw [List.map_cons, List.prod_cons]
          rcases ih with ih | ih <;> rw [ih] <;> split <;> simp [IsSign]
      exact this N
    · exact Or.inl rfl
  refine ⟨by rw [c'.names, c.names, a2, b2], fun q => ?_⟩
  rw [c'.amps, c.amps]
  exact contracted_reverse h1.shaped h2.shaped p a2 b2 applyParity hR1 hR2 hR a4
    (amp_of_elem h1.shaped a3.shaped a5 (hsign _ _ _) a6)
    (amp_of_elem h2.shaped b3.shaped b5 (hsign _ _ _) b6) q

/-! ## chains that can always be contracted -/

theorem single_key {t1 t2 : Tensor ν σ α} (h1 : WF t1) (h2 : WF t2) {c : ν × ν}
    (hp : Pairs t1.names t2.names [c])
    (hnd : (others t1.names [c.1] ++ others t2.names [c.2]).Nodup)
    {q1 q2 : ν → σ × ℕ} (k1 : KeyOk (mapOf t1) t1.names q1) (k2 : KeyOk (mapOf t2) t2.names q2)
    (hq : (q2 c.2).1 = -(q1 c.1).1) :
    ∃ p, KeyOk (fun n => (outerEdge t1 t2 [c] n).map) (others t1.names [c.1] ++ others t2.names [c.2]) p ∧
      (∀ n ∈ others t1.names [c.1], p n = q1 n) ∧ ∀ n ∈ others t2.names [c.2], p n = q2 n := by
  have g1 : ∀ n ∈ others t1.names [c.1],
      (if n ∈ others t1.names [c.1] then q1 n else q2 n) = q1 n := fun n hn => if_pos hn
  have g2 : ∀ n ∈ others t2.names [c.2],
      (if n ∈ others t1.names [c.1] then q1 n else q2 n) = q2 n := fun n hn =>
    if_neg fun h' => (List.nodup_append.1 hnd).2.2 n h' n hn rfl
  refine ⟨fun n => if n ∈ others t1.names [c.1] then q1 n else q2 n, ⟨fun n hn => ?_, ?_⟩, g1, g2⟩
  · dsimp only
    rcases List.mem_append.1 hn with hn | hn
    · rw [g1 n hn, outerEdge_left hn]
      exact k1.1 n (mem_others.1 hn).1
    · rw [g2 n hn, outerEdge_right hnd hn]
      exact k2.1 n (mem_others.1 hn).1
  · have e1 := k1.2
    have e2 := k2.2
    have s1 := hp.split1 h1.nodup
    have s2 := hp.split2 h2.nodup
    rw [keyOf, ((s1.map _).sum_eq), List.map_append, List.sum_append] at e1
    rw [keyOf, ((s2.map _).sum_eq), List.map_append, List.sum_append] at e2
    rw [keyOf, List.map_append, List.sum_append, List.map_congr_left (g := fun n => (q1 n).1)
      (fun n hn => by rw [g1 n hn]), List.map_congr_left (g := fun n => (q2 n).1)
      (l := others t2.names [c.2]) (fun n hn => by rw [g2 n hn])]
    simp only [List.map_cons, List.map_nil, List.sum_cons, List.sum_nil, add_zero] at e1 e2
    rw [hq] at e2
    rw [eq_neg_of_add_eq_zero_left e1, eq_neg_of_add_eq_zero_left e2]
    simp

/-- No symmetry of an edge gets lost in the contraction of one pair of edges which match. -/
theorem single_maps [CommRing α] {t1 t2 r : Tensor ν σ α} (h1 : WF t1) (h2 : WF t2) {c : ν × ν}
    (hp : Pairs t1.names t2.names [c]) (hm : Matched t1 t2 [c]) (hr : IsContraction t1 t2 [c] r) :
    (∀ n ∈ r.names, mapOf r n = (outerEdge t1 t2 [c] n).map) ∧
      (t1.core.blocks ≠ [] → r.core.blocks ≠ []) := by
  have hnames : r.names = others t1.names [c.1] ++ others t2.names [c.2] := hr.names
  have hnd := hr.wf.nodup
  rw [hnames] at hnd
  have hc1 := hp.sub1 c (by simp)
  have hc2 := hp.sub2 c (by simp)
  have hm' := hm.maps c (by simp)
  have to2 : ∀ q1 : ν → σ × ℕ, KeyOk (mapOf t1) t1.names q1 →
      ∃ q2, KeyOk (mapOf t2) t2.names q2 ∧ (q2 c.2).1 = -(q1 c.1).1 := by
    intro q1 k1
    refine exists_key_at h2 hc2 ?_
    have := k1.1 c.1 hc1
    rw [← OMap.find?_isSome] at this ⊢
    rwa [hm'] at this
  have to1 : ∀ q2 : ν → σ × ℕ, KeyOk (mapOf t2) t2.names q2 →
      ∃ q1, KeyOk (mapOf t1) t1.names q1 ∧ (q2 c.2).1 = -(q1 c.1).1 := by
    intro q2 k2
    have : -(q2 c.2).1 ∈ OMap.keys (mapOf t1 c.1) := by
      have := k2.1 c.2 hc2
      rw [← OMap.find?_isSome] at this ⊢
      rw [hm', neg_neg]
      exact this
    obtain ⟨q1, k1, e⟩ := exists_key_at h1 hc1 this
    exact ⟨q1, k1, by rw [e, neg_neg]⟩
  refine ⟨fun n hn => ?_, fun hb => ?_⟩
  · have hsorted : OMap.Sorted (outerEdge t1 t2 [c] n).map := by
      rw [hnames] at hn
      rcases List.mem_append.1 hn with hn | hn
      · rw [outerEdge_left hn]; exact mapOf_sorted' h1.shaped n (mem_others.1 hn).1
      · rw [outerEdge_right hnd hn]; exact mapOf_sorted' h2.shaped n (mem_others.1 hn).1
    have hkey : ∀ s ∈ OMap.keys (outerEdge t1 t2 [c] n).map, s ∈ OMap.keys (mapOf r n) := by
      intro s hs
      have hn' := hn
      rw [hnames] at hn'
      rcases List.mem_append.1 hn' with hn' | hn'
      · rw [outerEdge_left hn'] at hs
        obtain ⟨q1, k1, rfl⟩ := exists_key_at h1 (mem_others.1 hn').1 hs
        obtain ⟨q2, k2, e⟩ := to2 q1 k1
        obtain ⟨p, kp, e1, e2⟩ := single_key h1 h2 hp hnd k1 k2 e
        rw [← e1 n hn']
        exact hr.used p (hnames ▸ kp) n hn
      · rw [outerEdge_right hnd hn'] at hs
        obtain ⟨q2, k2, rfl⟩ := exists_key_at h2 (mem_others.1 hn').1 hs
        obtain ⟨q1, k1, e⟩ := to1 q2 k2
        obtain ⟨p, kp, e1, e2⟩ := single_key h1 h2 hp hnd k1 k2 e
        rw [← e2 n hn']
        exact hr.used p (hnames ▸ kp) n hn
    refine OMap.ext (mapOf_sorted' hr.wf.shaped n hn) hsorted fun s => ?_
    cases e : OMap.find? (mapOf r n) s with
    | some d => exact (OMap.find?_of_mem hsorted.nodup (hr.sub n hn _ (OMap.mem_of_find? e))).symm
    | none =>
      symm
      exact OMap.find?_eq_none.2 fun h => OMap.find?_eq_none.1 e (hkey s h)
  · obtain ⟨q1, k1⟩ := exists_key_of_blocks h1.shaped hb
    obtain ⟨q2, k2, e⟩ := to2 q1 k1
    obtain ⟨p, kp, -⟩ := single_key h1 h2 hp hnd k1 k2 e
    have : keyOf r.names p ∈ OMap.keys r.core.blocks :=
      (mem_keys_named hr.wf _).2 ⟨hr.used p (hnames ▸ kp), hnames ▸ kp.2⟩
    intro hb
    rw [hb] at this
    simp [OMap.keys] at this

/-- **C73**: without fermions a chain of tensors with one edge between neighbours, which has opposite
symmetries on both sides, can be contracted both ways, with the same result. -/
theorem C73_chain_bosons [CommRing α] {ce : ContractEnv σ α} (hg : GemmOk ce.gemm)
    {cn : ContractNames ν} (hcn : cn.c1 ≠ cn.c2) (hns : TatSym.isNoSym σ = false)
    (hf : TatSym.isFermi σ = false) {t1 t2 t3 : Tensor ν σ α} (h1 : WF t1) (h2 : WF t2) (h3 : WF t3)
    {c d : ν × ν} (hc1 : c.1 ∈ t1.names) (hc2 : c.2 ∈ t2.names) (hd1 : d.1 ∈ t2.names)
    (hd2 : d.2 ∈ t3.names) (hdis : d.1 ≠ c.2)
    (m12 : ∀ s, OMap.find? (mapOf t1 c.1) s = OMap.find? (mapOf t2 c.2) (-s))
    (m23 : ∀ s, OMap.find? (mapOf t2 d.1) s = OMap.find? (mapOf t3 d.2) (-s))
    (nd12 : (others t1.names [c.1] ++ others t2.names [c.2]).Nodup)
    (nd23 : (others t2.names [d.1] ++ others t3.names [d.2]).Nodup)
    (nd : (others t1.names [c.1] ++ others t3.names [d.2]).Nodup)
    (b1 : t1.core.blocks ≠ []) (b2 : t2.core.blocks ≠ []) (b3 : t3.core.blocks ≠ []) :
    ∃ r12 r23 l r, contract ce cn t1 t2 [c] = .ok r12 ∧ contract ce cn t2 t3 [d] = .ok r23 ∧
      contract ce cn r12 t3 [d] = .ok l ∧ contract ce cn t1 r23 [c] = .ok r ∧
      l.names = r.names ∧ ∀ p, amp l p = amp r p := by
  have mk : ∀ (u v : Tensor ν σ α) (x : ν × ν), (∀ s, OMap.find? (mapOf u x.1) s =
      OMap.find? (mapOf v x.2) (-s)) → Matched u v [x] := fun u v x h =>
    ⟨fun h => absurd h (by rw [hf]; simp), by simpa using h⟩
  have sep : ∀ (u : Tensor ν σ α) (x : ν), Separated u [x] := by
    intro u x p q _ _ hs n hn
    obtain rfl : n = x := by simpa using hn
    simpa using hs
  have run : ∀ (u v : Tensor ν σ α) (x : ν × ν), WF u → WF v → x.1 ∈ u.names → x.2 ∈ v.names →
      (∀ s, OMap.find? (mapOf u x.1) s = OMap.find? (mapOf v x.2) (-s)) →
      (others u.names [x.1] ++ others v.names [x.2]).Nodup → u.core.blocks ≠ [] →
      ∃ r, contract ce cn u v [x] = .ok r ∧ IsContraction u v [x] r ∧ r.core.blocks ≠ [] ∧
        ∀ n ∈ r.names, mapOf r n = (outerEdge u v [x] n).map := by
    intro u v x hu hv xu xv hm hn hb
    have hp : Pairs u.names v.names [x] := ⟨by simp, by simp, by simpa using xu, by simpa using xv⟩
    obtain ⟨r, e1, e2, e3, e4, e5⟩ := C28_contract_partial ce hg hcn hns hu hv
      (knownPairs_self (cs := [x]) (by simpa using ⟨xu, xv⟩)) (by simp) (by simp) (mk u v x hm)
      (Or.inl (sep u x.1)) hn (Or.inr hb)
    have hi := isContraction_of hu.shaped hv.shaped hp hn e2 e3 e4 e5
    have := single_maps hu hv hp (mk u v x hm) hi
    exact ⟨r, e1, hi, this.2 hb, this.1⟩
  obtain ⟨r12, a1, a2, a3, a4⟩ := run t1 t2 c h1 h2 hc1 hc2 m12 nd12 b1
  obtain ⟨r23, u1, u2, u3, u4⟩ := run t2 t3 d h2 h3 hd1 hd2 m23 nd23 b2
  have n12 : r12.names = others t1.names [c.1] ++ others t2.names [c.2] := a2.names
  have n23 : r23.names = others t2.names [d.1] ++ others t3.names [d.2] := u2.names
  have hd1' : d.1 ∈ others t2.names [c.2] := mem_others.2 ⟨hd1, by simpa using hdis⟩
  have hc2' : c.2 ∈ others t2.names [d.1] := mem_others.2 ⟨hc2, by simpa using hdis.symm⟩
  have i12 : d.1 ∈ r12.names := by rw [n12]; exact List.mem_append_right _ hd1'
  have i23 : c.2 ∈ r23.names := by rw [n23]; exact List.mem_append_left _ hc2'
  have x12 : mapOf r12 d.1 = mapOf t2 d.1 := by
    rw [a4 _ i12, outerEdge_right nd12 hd1']; rfl
  have x23 : mapOf r23 c.2 = mapOf t2 c.2 := by
    rw [u4 _ i23, outerEdge_left hc2']; rfl
  have hnames := chain_names (N1 := t1.names) (N2 := t2.names) (N3 := t3.names) (cs := [c]) (ds := [d])
    (by simpa using ⟨hc1, hc2⟩) (by simpa using ⟨hd1, hd2⟩) (by simpa using hdis) nd12 nd23
  simp only [List.map_cons, List.map_nil] at hnames
  have ndl : (others r12.names [d.1] ++ others t3.names [d.2]).Nodup := by
    rw [n12, others_append, List.append_assoc]
    have s1 := List.nodup_append.1 nd12
    have s2 := List.nodup_append.1 nd23
    have s3 := List.nodup_append.1 nd
    rw [List.nodup_append, List.nodup_append]
    refine ⟨s1.1.filter _, ⟨s1.2.1.filter _, s2.2.1, fun x hx y hy => ?_⟩, fun x hx y hy => ?_⟩
    · have := mem_others.1 hx
      exact s2.2.2 x (mem_others.2 ⟨(mem_others.1 this.1).1, this.2⟩) y hy
    · have hx' := (mem_others.1 hx).1
      rcases List.mem_append.1 hy with hy | hy
      · exact s1.2.2 x hx' y (mem_others.1 hy).1
      · exact s3.2.2 x hx' y hy
  have ndr : (others t1.names [c.1] ++ others r23.names [c.2]).Nodup := by
    rw [n23, ← hnames, ← n12]
    exact ndl
  obtain ⟨l, l1, l2, -, -⟩ := run r12 t3 d a2.wf h3 i12 hd2 (by rw [x12]; exact m23) ndl a3
  obtain ⟨r, v1, v2, -, -⟩ := run t1 r23 c h1 u2.wf hc1 i23 (by rw [x23]; exact m12) ndr b1
  exact ⟨r12, r23, l, r, a1, u1, l1, v1, C73_chain hg hcn hns h1 h2 h3 hc1 hc2 hd1 hd2 hdis a1 u1 l1 v1 b1 b2
    b3 a3 u3⟩

/-! ## without symmetry -/

theorem nosym_isContraction [CommRing α] (ce : ContractEnv σ α) (hg : GemmOk ce.gemm)
    {cn : ContractNames ν} (hcn : [cn.c0, cn.c1, cn.c2].Nodup) (hns : TatSym.isNoSym σ = true)
    {t1 t2 : Tensor ν σ α} (h1 : WF t1) (h2 : WF t2) (hb1 : t1.core.blocks ≠ [])
    (hb2 : t2.core.blocks ≠ []) {cs : List (ν × ν)} (hp : Pairs t1.names t2.names cs)
    (hm : ∀ c ∈ cs, mapOf t1 c.1 = mapOf t2 c.2)
    (hnd : (others t1.names (cs.map Prod.fst) ++ others t2.names (cs.map Prod.snd)).Nodup) :
    ∃ r, contract ce cn t1 t2 cs = .ok r ∧ IsContraction t1 t2 cs r ∧ r.core.blocks ≠ [] ∧
      ∀ n ∈ r.names, edgeOf r n = outerEdge t1 t2 cs n := by
  have hcs : knownPairs t1 t2 cs = cs := knownPairs_self fun c hc => ⟨hp.sub1 c hc, hp.sub2 c hc⟩
  have hbose := TatSym.noSym_bose hns
  have hsh : sharedNames t1 t2 cs = [] := by
    unfold sharedNames
    rw [List.filter_eq_nil_iff]
    intro n hn hn'
    obtain ⟨g1, g2, g3⟩ := of_decide_eq_true hn'
    exact (List.nodup_append.1 hnd).2.2 n (mem_others.2 ⟨hn, g2⟩) n (mem_others.2 ⟨g1, g3⟩) rfl
  obtain ⟨r, shared, e1, e2, e3, -, e4, e5, e6⟩ := C27_contract ce hg hcn hns h1 h2 hb1 hb2 hcs hp.nodup1
    hp.nodup2 hm (by rw [hsh]; simp)
  rw [hsh, List.perm_nil] at e3
  subst e3
  have hn : r.names = others t1.names (cs.map Prod.fst) ++ others t2.names (cs.map Prod.snd) := by
    rw [e4]
    simp
  have hout : ∀ n ∈ r.names, edgeOf r n = outerEdge t1 t2 cs n := e5
  have hcon : ∀ p, sumOver (fun n => edgePositions (mapOf t1 n))
        (fun w => amp t1 w * amp t2 (partner cs p w)) (cs.map Prod.fst) p = contracted t1 t2 cs p := by
    intro p
    unfold contracted
    simp only [contractSign_bose hbose, one_smul]
  refine ⟨r, e1, ⟨hn, e2, fun n hn x hx => ?_, fun q hq n hn => ?_,
    fun hf => absurd hf (by rw [hbose]; simp), fun p => ?_⟩, ?_, hout⟩
  · rw [← hout n hn]; exact hx
  · unfold mapOf
    rw [hout n hn]
    exact hq.1 n hn
  · by_cases hv : ValidPos r p
    · have := amp_valid e2 hv
      rw [e6 p hv, Option.some.injEq] at this
      rw [← this, hcon]
    · rw [amp_zero e2 hv]
      symm
      refine contracted_outside h1.shaped h2.shaped hp hnd fun hf => hv ?_
      rw [validPos_iff e2]
      rw [hn]
      refine ⟨fun n hn' => ?_, hf.2⟩
      have := hf.1 n hn'
      unfold mapOf
      rw [hout n (hn ▸ hn')]
      exact this
  · refine solid_of_keys hns e2 fun n hn' => ?_
    unfold mapOf
    rw [hout n hn']
    rw [hn] at hn'
    rcases List.mem_append.1 hn' with hn' | hn'
    · rw [outerEdge_left hn']
      exact solid_keys hns h1 hb1 n (mem_others.1 hn').1
    · rw [outerEdge_right hnd hn']
      exact solid_keys hns h2 hb2 n (mem_others.1 hn').1

/-- **C73**: without symmetry a chain of tensors with any number of edges between neighbours, which
have equal dimensions, can be contracted both ways and the results are the same tensor. -/
theorem C73_nosym_associative [CommRing α] (ce : ContractEnv σ α) (hg : GemmOk ce.gemm)
    {cn : ContractNames ν} (hcn : [cn.c0, cn.c1, cn.c2].Nodup) (hns : TatSym.isNoSym σ = true)
    {t1 t2 t3 : Tensor ν σ α} (h1 : WF t1) (h2 : WF t2) (h3 : WF t3) (hb1 : t1.core.blocks ≠ [])
    (hb2 : t2.core.blocks ≠ []) (hb3 : t3.core.blocks ≠ []) {cs ds : List (ν × ν)}
    (hc : ∀ c ∈ cs, c.1 ∈ t1.names ∧ c.2 ∈ t2.names)
    (hd : ∀ d ∈ ds, d.1 ∈ t2.names ∧ d.2 ∈ t3.names) (hdis : ∀ d ∈ ds, d.1 ∉ cs.map Prod.snd)
    (cn1 : (cs.map Prod.fst).Nodup) (cn2 : (cs.map Prod.snd).Nodup)
    (dn1 : (ds.map Prod.fst).Nodup) (dn2 : (ds.map Prod.snd).Nodup)
    (m12 : ∀ c ∈ cs, mapOf t1 c.1 = mapOf t2 c.2) (m23 : ∀ d ∈ ds, mapOf t2 d.1 = mapOf t3 d.2)
    (nd12 : (others t1.names (cs.map Prod.fst) ++ others t2.names (cs.map Prod.snd)).Nodup)
    (nd23 : (others t2.names (ds.map Prod.fst) ++ others t3.names (ds.map Prod.snd)).Nodup)
    (nd : (others t1.names (cs.map Prod.fst) ++ others t3.names (ds.map Prod.snd)).Nodup) :
    ∃ r12 r23 u, contract ce cn t1 t2 cs = .ok r12 ∧ contract ce cn t2 t3 ds = .ok r23 ∧
      contract ce cn r12 t3 ds = .ok u ∧ contract ce cn t1 r23 cs = .ok u := by
  have p12 : Pairs t1.names t2.names cs := ⟨cn1, cn2, fun c h => (hc c h).1, fun c h => (hc c h).2⟩
  have p23 : Pairs t2.names t3.names ds := ⟨dn1, dn2, fun d h => (hd d h).1, fun d h => (hd d h).2⟩
  obtain ⟨r12, a1, a2, a3, a4⟩ := nosym_isContraction ce hg hcn hns h1 h2 hb1 hb2 p12 m12 nd12
  obtain ⟨r23, u1, u2, u3, u4⟩ := nosym_isContraction ce hg hcn hns h2 h3 hb2 hb3 p23 m23 nd23
  have hd1 : ∀ d ∈ ds, d.1 ∈ others t2.names (cs.map Prod.snd) := fun d h =>
    mem_others.2 ⟨(hd d h).1, hdis d h⟩
  have hc2 : ∀ c ∈ cs, c.2 ∈ others t2.names (ds.map Prod.fst) := fun c h => by
    refine mem_others.2 ⟨(hc c h).2, fun hh => ?_⟩
    obtain ⟨d, hd', he⟩ := List.mem_map.1 hh
    exact hdis d hd' (he ▸ List.mem_map_of_mem h)
  have i12 : ∀ d ∈ ds, d.1 ∈ r12.names := fun d h => by
    rw [a2.names]; exact List.mem_append_right _ (hd1 d h)
  have i23 : ∀ c ∈ cs, c.2 ∈ r23.names := fun c h => by
    rw [u2.names]; exact List.mem_append_left _ (hc2 c h)
  have hnames := chain_names hc hd hdis nd12 nd23
  have ndl : (others r12.names (ds.map Prod.fst) ++ others t3.names (ds.map Prod.snd)).Nodup := by
    rw [a2.names, others_append, List.append_assoc]
    have s1 := List.nodup_append.1 nd12
    have s2 := List.nodup_append.1 nd23
    have s3 := List.nodup_append.1 nd
    rw [List.nodup_append, List.nodup_append]
    refine ⟨s1.1.filter _, ⟨s1.2.1.filter _, s2.2.1, fun x hx y hy => ?_⟩, fun x hx y hy => ?_⟩
    · have := mem_others.1 hx
      exact s2.2.2 x (mem_others.2 ⟨(mem_others.1 this.1).1, this.2⟩) y hy
    · have hx' := (mem_others.1 hx).1
      rcases List.mem_append.1 hy with hy | hy
      · exact s1.2.2 x hx' y (mem_others.1 hy).1
      · exact s3.2.2 x hx' y hy
  have ndr : (others t1.names (cs.map Prod.fst) ++ others r23.names (cs.map Prod.snd)).Nodup := by
    rw [u2.names, ← hnames, ← a2.names]
    exact ndl
  obtain ⟨l, l1, l2, -, l4⟩ := nosym_isContraction ce hg hcn hns a2.wf h3 a3 hb3
    ⟨dn1, dn2, i12, fun d h => (hd d h).2⟩ (fun d h => by
      rw [← m23 d h]
      unfold mapOf
      rw [a4 _ (i12 d h), outerEdge_right nd12 (hd1 d h)]) ndl
  obtain ⟨r, v1, v2, -, v4⟩ := nosym_isContraction ce hg hcn hns h1 u2.wf hb1 u3
    ⟨cn1, cn2, fun c h => (hc c h).1, i23⟩ (fun c h => by
      rw [m12 c h]
      unfold mapOf
      rw [u4 _ (i23 c h), outerEdge_left (hc2 c h)]) ndr
  have hn : l.names = r.names := by
    rw [l2.names, v2.names, a2.names, u2.names]
    exact hnames
  have hedge : ∀ n ∈ r.names, edgeOf r n = edgeOf l n := by
    intro n h
    rw [v4 n h, l4 n (hn ▸ h)]
    rw [v2.names] at h
    rcases List.mem_append.1 h with h | h
    · have g : n ∈ r12.names := by rw [a2.names]; exact List.mem_append_left _ h
      have g' : n ∈ others r12.names (ds.map Prod.fst) := by
        refine mem_others.2 ⟨g, fun hh => ?_⟩
        obtain ⟨d, hd', rfl⟩ := List.mem_map.1 hh
        exact (List.nodup_append.1 nd12).2.2 _ h _ (hd1 d hd') rfl
      rw [outerEdge_left h, outerEdge_left g', a4 n g, outerEdge_left h]
    · obtain ⟨g, gc⟩ := mem_others.1 h
      rw [outerEdge_right ndr h, u4 n g]
      rw [u2.names] at g
      rcases List.mem_append.1 g with g | g
      · have g2 : n ∈ others t2.names (cs.map Prod.snd) := mem_others.2 ⟨(mem_others.1 g).1, gc⟩
        have g12 : n ∈ r12.names := by rw [a2.names]; exact List.mem_append_right _ g2
        rw [outerEdge_left g, outerEdge_left (mem_others.2 ⟨g12, (mem_others.1 g).2⟩), a4 n g12,
          outerEdge_right nd12 g2]
      · rw [outerEdge_right nd23 g, outerEdge_right ndl g]
  have hlr : l = r := by
    refine tensor_ext l2.wf v2.wf hn (edges_eq_of_edgeOf l2.wf v2.wf hn hedge) fun p hp => ?_
    have hp' : ValidPos r p := by
      rw [validPos_iff v2.wf, ← hn]
      rw [validPos_iff l2.wf] at hp
      refine ⟨fun n h => ?_, hp.2⟩
      have := hp.1 n h
      unfold mapOf at this ⊢
      rw [hedge n (hn ▸ h)]
      exact this
    rw [amp_valid l2.wf hp, amp_valid v2.wf hp', l2.amps, v2.amps]
    congr 1
    refine contracted_assoc h2.shaped p12 p23 (fun n hn => ?_) a2 u2 p
    obtain ⟨d, hd', rfl⟩ := List.mem_map.1 hn
    exact hdis d hd'
  exact ⟨r12, r23, l, a1, u1, l1, hlr ▸ v1⟩

/-- **C73**: without symmetry the arguments of a contraction can be exchanged, up to the order of the
edges of the result. -/
theorem C73_nosym_exchange [CommRing α] (ce : ContractEnv σ α) (hg : GemmOk ce.gemm)
    {cn : ContractNames ν} (hcn : [cn.c0, cn.c1, cn.c2].Nodup) (hns : TatSym.isNoSym σ = true)
    (env : Env σ α) {t1 t2 : Tensor ν σ α} (h1 : WF t1) (h2 : WF t2) (hb1 : t1.core.blocks ≠ [])
    (hb2 : t2.core.blocks ≠ []) {cs : List (ν × ν)}
    (hc : ∀ c ∈ cs, c.1 ∈ t1.names ∧ c.2 ∈ t2.names)
    (cn1 : (cs.map Prod.fst).Nodup) (cn2 : (cs.map Prod.snd).Nodup)
    (m12 : ∀ c ∈ cs, mapOf t1 c.1 = mapOf t2 c.2)
    (nd12 : (others t1.names (cs.map Prod.fst) ++ others t2.names (cs.map Prod.snd)).Nodup) :
    ∃ r r', contract ce cn t1 t2 cs = .ok r ∧ contract ce cn t2 t1 (cs.map Prod.swap) = .ok r' ∧
      transpose env r' r.names = .ok r := by
  have p12 : Pairs t1.names t2.names cs := ⟨cn1, cn2, fun c h => (hc c h).1, fun c h => (hc c h).2⟩
  have nd21 : (others t2.names ((cs.map Prod.swap).map Prod.fst) ++
      others t1.names ((cs.map Prod.swap).map Prod.snd)).Nodup := by
    rw [map_swap_fst, map_swap_snd]
    exact List.perm_append_comm.nodup_iff.1 nd12
  obtain ⟨r, a1, a2, a3, a4⟩ := nosym_isContraction ce hg hcn hns h1 h2 hb1 hb2 p12 m12 nd12
  obtain ⟨r', u1, u2, u3, u4⟩ := nosym_isContraction ce hg hcn hns h2 h1 hb2 hb1 p12.swap (by
    intro c hc
    obtain ⟨d, hd, rfl⟩ := List.mem_map.1 hc
    exact (m12 d hd).symm) nd21
  have n' := u2.names
  rw [map_swap_fst, map_swap_snd] at n'
  have hperm : r'.names.Perm r.names := by
    rw [n', a2.names]
    exact List.perm_append_comm
  obtain ⟨w, w1, w2, w3, w4, w5, w6⟩ := C16_transpose env u2.wf hperm
  refine ⟨r, r', a1, u1, ?_⟩
  rw [w1, Outcome.ok.injEq]
  have hbose := TatSym.noSym_bose hns
  have hedge : ∀ n ∈ r.names, edgeOf r n = edgeOf w n := by
    intro n h
    rw [w4 n h, a4 n h, u4 n (hperm.mem_iff.2 h)]
    rw [a2.names] at h
    rcases List.mem_append.1 h with h | h
    · rw [outerEdge_left h, outerEdge_right nd21 (by rw [map_swap_snd]; exact h)]
    · rw [outerEdge_right nd12 h, outerEdge_left (by rw [map_swap_fst]; exact h)]
  refine tensor_ext w3 a2.wf w2 (edges_eq_of_edgeOf w3 a2.wf w2 hedge) fun p hp => ?_
  have hp' : ValidPos r p := by
    rw [validPos_iff a2.wf, ← w2]
    rw [validPos_iff w3] at hp
    refine ⟨fun n h => ?_, hp.2⟩
    have := hp.1 n h
    unfold mapOf at this ⊢
    rw [hedge n (w2 ▸ h)]
    exact this
  have := amp_of_elem u2.wf.shaped w3.shaped w5 (fun q => isSign_transposeSign _ _ q) w6 p
  rw [amp_valid w3 hp, amp_valid a2.wf hp', this, u2.amps, a2.amps,
    contracted_swap h1.shaped h2.shaped p12 nd12 (fun hf => absurd hf (by rw [hbose]; simp))]
  unfold transposeSign
  rw [hbose]
  simp

end

end TAT
