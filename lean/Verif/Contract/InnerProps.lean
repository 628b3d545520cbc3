import Mathlib.Analysis.RCLike.Basic
import Verif.Contract.ConjModel
import Verif.Contract.Inner
import Verif.Contract.LawCases
import Verif.Shrink.Unit
import Verif.Trace.LawCases

/-!
# C77: contracting a tensor with its conjugate

The contraction of all edges of a tensor with its conjugate is the sum of the squares of the moduli of
all elements, the square of the norm.  `signedSquares` adds the signs which the contraction of odd
edges pointing in brings.
-/

set_option linter.unusedSectionVars false

namespace TAT

variable {ν σ α : Type} [LinearOrder ν] [TatSym σ]

section
variable [CommRing α] {ce : ContractEnv σ α} {cn : ContractNames ν}

theorem amp_edgeRename {t : Tensor ν σ α} (h : WF t) (d : List (ν × ν))
    (hn : (edgeRename t d).names.Nodup) (p : ν → σ × ℕ) :
    amp (edgeRename t d) p = amp t fun n => p (newName d n) := by
  obtain ⟨-, -, -, c4, c5, c6⟩ := C23_rename h d
  have hw := c6 hn
  by_cases hv : ValidPos (edgeRename t d) p
  · have h1 := amp_valid' hw.shaped hv
    have h2 := amp_valid' h.shaped ((c4 p).1 hv)
    rw [c5, h2, Option.some.injEq] at h1
    exact h1.symm
  · rw [amp_zero' hw.shaped hv, amp_zero' h.shaped fun hc => hv ((c4 p).2 hc)]

/-- A tensor with a block has a conjugate with a block. -/
theorem conj_blocks {conj : α →+* α} {t c : Tensor ν σ α} (h : WF t) (hc : IsConj conj t c)
    (hb : t.core.blocks ≠ []) : c.core.blocks ≠ [] := by
  obtain ⟨q, hq⟩ := exists_key_of_blocks h.shaped hb
  intro h0
  have := (mem_keys_named hc.wf (negPos q)).2 ⟨fun n hn => by
    rw [hc.names] at hn
    rw [← OMap.find?_isSome]
    show (OMap.find? (mapOf c n) (-(q n).1)).isSome = true
    rw [hc.maps n hn, OMap.find?_isSome]
    exact hq.1 n hn, by rw [keyOf_negPos, sum_neg_list, neg_eq_zero, hc.names]; exact hq.2⟩
  rw [h0] at this
  exact absurd this (by simp [OMap.keys])

/-- The result of a contraction followed by traces is well formed. -/
theorem contract_chain_wf {env1 env2 : Env σ α} {junk : List σ → ℕ → α} {tn : TraceNames ν}
    (hg : GemmOk ce.gemm) (hcn : cn.c1 ≠ cn.c2) (hns : TatSym.isNoSym σ = false)
    (htn : [tn.t1, tn.t2, tn.t3].Nodup) {t1 t2 r u : Tensor ν σ α} (h1 : WF t1) (h2 : WF t2)
    (b1 : t1.core.blocks ≠ []) (b2 : t2.core.blocks ≠ [])
    {c : ν × ν} {ps : List (ν × ν)} (hp : Pairs t1.names t2.names (c :: ps))
    (hr : contract ce cn t1 t2 [c] = .ok r) (hu : TraceChain env1 env2 junk tn r ps u) : WF u := by
  have hc1 := hp.sub1 c (by simp)
  have hc2 := hp.sub2 c (by simp)
  have d := ok_isContraction hg hcn hns h1 h2 (knownPairs_self (by simpa using ⟨hc1, hc2⟩))
    (sound_single h1 h2 hc1 hc2 b1 b2) hr
  have nd := d.names ▸ d.wf.nodup
  have hp' : Pairs t1.names t2.names ([c] ++ ps) := hp
  obtain ⟨hP1, hP2, hpn, -⟩ := others_traced hp' nd
  exact (traceChain_spec htn d.wf hpn (fun n hn => by
    rw [d.names]
    rcases List.mem_append.1 ((pairNames_split ps).mem_iff.1 hn) with h | h
    · exact List.mem_append_left _ (hP1 n h)
    · exact List.mem_append_right _ (hP2 n h)) hu).wf

/-- **C77** (partial): `contract_all_edge()`, contracting all edges of a tensor with its
conjugate, succeeds and gives the sum
of the squares of the moduli, with a sign for each block.

Missing: tensors with symmetries other than Z2 of which two combinations of symmetries have the same
total (`hl`), that is almost all tensors with more than one block; the claim is false, see
`C77_wrong`.  Tensors without a block (`hb`), see `C77_no_block`. -/
theorem C77_signed_partial (hg : GemmOk ce.gemm) (hcn : [cn.c0, cn.c1, cn.c2].Nodup)
    (junk : List σ → ℕ → α) {conj : α →+* α} {isReal : Bool}
    (hreal : isReal = true → ∀ x, conj x = x) {t : Tensor ν σ α} (h : WF t)
    (hb : t.core.blocks ≠ []) (hl : Separated t t.names ∨ ∀ s : σ, -s = s) :
    contractConjugate ce cn junk conj isReal t = .ok ⟨[], [], [([], [signedSquares conj t])]⟩ := by
  obtain ⟨c, e1, -⟩ := C26_conjugate junk conj isReal hreal h
  have hc := isConj_of hreal h e1
  unfold contractConjugate
  rw [e1]
  show contractAllEdge ce cn t c = _
  set ns := OMap.keys (OMap.ofList (t.names.map fun n => (n, ()))) with hns
  have hmem : ∀ n, n ∈ ns ↔ n ∈ t.names := fun n => keys_unitMap _ n
  have hnd : ns.Nodup := (sorted_unitMap _).nodup
  have hp : ns.Perm t.names := (List.perm_ext_iff_of_nodup hnd h.nodup).2 hmem
  have f1 : (ns.map fun n => (n, n)).map Prod.fst = ns := by simp [List.map_map, Function.comp_def]
  have f2 : (ns.map fun n => (n, n)).map Prod.snd = ns := by simp [List.map_map, Function.comp_def]
  have hbc := conj_blocks h hc hb
  obtain ⟨r, e2, e3, e4, -, e5⟩ := contract_unified ce hg hcn h hc.wf hb hbc
    (pairs := ns.map fun n => (n, n)) (knownPairs_self (by
      intro x hx
      obtain ⟨n, hn, rfl⟩ := List.mem_map.1 hx
      rw [hc.names]
      exact ⟨(hmem n).1 hn, (hmem n).1 hn⟩)) (by rw [f1]; exact hnd) (by rw [f2]; exact hnd)
    ⟨fun hf x hx => by
      obtain ⟨n, hn, rfl⟩ := List.mem_map.1 hx
      dsimp only
      rw [hc.arrows n ((hmem n).1 hn), if_pos hf]
      cases (edgeOf t n).arrow <;> simp, fun x hx s => by
      obtain ⟨n, hn, rfl⟩ := List.mem_map.1 hx
      exact (hc.maps n ((hmem n).1 hn) s).symm⟩
    (hl.imp (fun hs => by rw [f1]; exact hs.perm hp) id)
    (by rw [f1, f2, others_all fun n hn => (hmem n).2 hn, hc.names,
      others_all fun n hn => (hmem n).2 hn]; exact List.nodup_nil)
  rw [f1, f2, others_all fun n hn => (hmem n).2 hn, hc.names, others_all fun n hn => (hmem n).2 hn,
    List.append_nil] at e3
  unfold contractAllEdge
  rw [← hns, e2]
  refine congrArg Outcome.ok (rank_zero e4 e3 fun p => ?_)
  have hf : FineOk (fun n => (outerEdge t c (ns.map fun n => (n, n)) n).map) r.names p := by
    rw [e3]
    exact ⟨fun n hn => by simp at hn, rfl⟩
  have := norm_contracted h hc (c' := c) (f := id) (by rw [hc.names, List.map_id])
    (hc.names ▸ h.nodup) (fun _ => rfl) hp p
  rw [← this]
  have hv : ValidPos r p := by
    have he : r.core.edges = [] := by
      have := e4.rank
      rw [e3] at this
      exact List.eq_nil_of_length_eq_zero this.symm
    rw [ValidPos, e3, he]
    exact ⟨.nil, rfl⟩
  have h1 := amp_valid' e4.shaped hv
  rw [e5 p hf, Option.some.injEq] at h1
  exact h1.symm

/-- **C77** (partial): contracting all edges of a tensor with its conjugate gives the sum of the squares
of the moduli of all elements, for tensors without fermions and for tensors all of whose edges point the
same way.

Missing: see `C77_signed_partial`, and fermionic tensors with edges of both directions, for which
blocks are subtracted, see `C77_negative`. -/
theorem C77_norm_partial (hg : GemmOk ce.gemm) (hcn : [cn.c0, cn.c1, cn.c2].Nodup)
    (junk : List σ → ℕ → α) {conj : α →+* α} {isReal : Bool}
    (hreal : isReal = true → ∀ x, conj x = x) {t : Tensor ν σ α} (h : WF t)
    (hb : t.core.blocks ≠ []) (hl : Separated t t.names ∨ ∀ s : σ, -s = s)
    (hs : TatSym.isFermi σ = false ∨ ∃ a, ∀ e ∈ t.core.edges, e.arrow = a) :
    contractConjugate ce cn junk conj isReal t =
      .ok ⟨[], [], [([], [((allElems t).map fun x => x * conj x).sum])]⟩ := by
  rw [← signedSquares_plain conj h hs]
  exact C77_signed_partial hg hcn junk hreal h hb hl

/-- **C77**: for all symmetries, the conjugate renamed, one edge contracted and the others traced one
after the other. -/
theorem C77_one_by_one {env1 env2 : Env σ α} {junk : List σ → ℕ → α} {tn : TraceNames ν}
    (hg : GemmOk ce.gemm) (hcn : cn.c1 ≠ cn.c2) (hns : TatSym.isNoSym σ = false)
    (htn : [tn.t1, tn.t2, tn.t3].Nodup) {junk' : List σ → ℕ → α} {conj : α →+* α} {isReal : Bool}
    (hreal : isReal = true → ∀ x, conj x = x) {t c r u : Tensor ν σ α} (h : WF t)
    (hb : t.core.blocks ≠ []) (hc : conjugate junk' conj isReal t = .ok c) {d : List (ν × ν)}
    (hd : (edgeRename c d).names.Nodup) {n : ν} {ns : List ν} (hp : (n :: ns).Perm t.names)
    (hr : contract ce cn t (edgeRename c d) [(n, newName d n)] = .ok r)
    (hu : TraceChain env1 env2 junk tn r (ns.map fun m => (m, newName d m)) u) :
    u = ⟨[], [], [([], [signedSquares conj t])]⟩ := by
  have hk := isConj_of hreal h hc
  have hw : WF (edgeRename c d) := (C23_rename hk.wf d).2.2.2.2.2 hd
  have hbc : (edgeRename c d).core.blocks ≠ [] := show c.core.blocks ≠ [] from conj_blocks h hk hb
  have hnames : (edgeRename c d).names = t.names.map (newName d) := by
    rw [edgeRename_names, hk.names]
  have f1 : ((n :: ns).map fun m => (m, newName d m)).map Prod.fst = n :: ns := by
    simp [List.map_map, Function.comp_def]
  have f2 : ((n :: ns).map fun m => (m, newName d m)).map Prod.snd = (n :: ns).map (newName d) := by
    simp [List.map_map, Function.comp_def]
  have hpairs : Pairs t.names (edgeRename c d).names ((n :: ns).map fun m => (m, newName d m)) := by
    refine ⟨by rw [f1]; exact hp.nodup_iff.2 h.nodup, ?_, fun x hx => ?_, fun x hx => ?_⟩
    · rw [f2]
      rw [hnames] at hd
      exact (hp.map _).nodup_iff.2 hd
    · obtain ⟨m, hm, rfl⟩ := List.mem_map.1 hx
      exact hp.mem_iff.1 hm
    · obtain ⟨m, hm, rfl⟩ := List.mem_map.1 hx
      rw [hnames]
      exact List.mem_map_of_mem (hp.mem_iff.1 hm)
  obtain ⟨e1, e2⟩ := C74_contract_one_by_one hg hcn hns htn h hw hb hbc hpairs hr hu
  have hwu : WF u := contract_chain_wf hg hcn hns htn h hw hb hbc hpairs hr hu
  change u.names = others _ (((n :: ns).map fun m => (m, newName d m)).map Prod.fst) ++
    others _ (((n :: ns).map fun m => (m, newName d m)).map Prod.snd) at e1
  rw [f1, f2, others_all fun m hm => hp.mem_iff.2 hm, others_all fun m hm => by
    rw [hnames] at hm
    exact (hp.map _).mem_iff.2 hm] at e1
  refine rank_zero hwu e1 fun p => ?_
  rw [e2]
  exact norm_contracted h hk hnames hd (amp_edgeRename hk.wf d hd) hp p

end

section
variable {K : Type} [RCLike K] {ce : ContractEnv σ K} {cn : ContractNames ν}

/-- **C77** (partial): the square of the 2-norm, for real and complex scalars.

Missing: see `C77_norm_partial`. -/
theorem C77_two_norm_partial (hg : GemmOk ce.gemm) (hcn : [cn.c0, cn.c1, cn.c2].Nodup)
    (junk : List σ → ℕ → K) {isReal : Bool} (hreal : isReal = true → ∀ x : K, starRingEnd K x = x)
    {t : Tensor ν σ K} (h : WF t) (hb : t.core.blocks ≠ [])
    (hl : Separated t t.names ∨ ∀ s : σ, -s = s)
    (hs : TatSym.isFermi σ = false ∨ ∃ a, ∀ e ∈ t.core.edges, e.arrow = a) :
    contractConjugate ce cn junk (starRingEnd K) isReal t =
      .ok ⟨[], [], [([], [((normSum (fun x : K => ‖x‖ ^ 2) Real.sqrt t ^ 2 : ℝ) : K)])]⟩ := by
  rw [C77_norm_partial hg hcn junk hreal h hb hl hs, C48_sum, Real.sq_sqrt (List.sum_nonneg (by
    intro x hx
    obtain ⟨y, -, rfl⟩ := List.mem_map.1 hx
    positivity))]
  have : ∀ l : List K, (l.map fun x => x * starRingEnd K x).sum =
      (((l.map fun x => ‖x‖ ^ 2).sum : ℝ) : K) := by
    intro l
    induction l with
    | nil => simp
    | cons x l ih =>
      rw [List.map_cons, List.map_cons, List.sum_cons, List.sum_cons, ih, RCLike.mul_conj]
      push_cast
      rfl
  rw [this]

end

/-! ## cases -/

/-- A matrix with three blocks. -/
def normU : Tensor ℕ U1Symmetry ℤ :=
  ⟨[0, 1], [⟨false, [(⟨-1⟩, 1), (⟨0⟩, 1), (⟨1⟩, 1)]⟩, ⟨false, [(⟨-1⟩, 1), (⟨0⟩, 1), (⟨1⟩, 1)]⟩],
    [([⟨-1⟩, ⟨1⟩], [2]), ([⟨0⟩, ⟨0⟩], [3]), ([⟨1⟩, ⟨-1⟩], [5])]⟩

theorem normU_wf : WF normU := by
  refine ⟨by decide, by decide, by decide, by decide +kernel, by decide +kernel⟩

/-- **C77** is false for tensors with more than one block: the contraction multiplies the first block
with the last of the conjugate, because the conjugate has its blocks in the opposite order and both
edges are merged to one with a single symmetry (see `C28_two_edges_wrong`). -/
theorem C77_wrong : WF normU ∧ normU.core.blocks ≠ [] ∧
    ((allElems normU).map fun x => x * x).sum = 38 ∧
    contractConjugate ce0 names0 (fun _ _ => 0) id true normU =
      .ok ⟨[], [], [([], [29])]⟩ :=
  ⟨normU_wf, by decide, by decide, by decide +kernel⟩

/-- One block with odd edges, one pointing in and one pointing out. -/
def normF : Tensor ℕ FermiSymmetry ℤ :=
  ⟨[0, 1], [⟨false, [(⟨1⟩, 1)]⟩, ⟨true, [(⟨-1⟩, 1)]⟩], [([⟨1⟩, ⟨-1⟩], [3])]⟩

theorem normF_wf : WF normF := by
  refine ⟨by decide, by decide, by decide, by decide +kernel, by decide +kernel⟩

theorem normF_separated : Separated normF normF.names := by
  refine Separated.single fun n hn => ?_
  have : n = 0 ∨ n = 1 := by simpa [normF] using hn
  rcases this with rfl | rfl
  · exact ⟨⟨1⟩, by decide⟩
  · exact ⟨⟨-1⟩, by decide⟩

/-- **C77** is false for fermions with edges of both directions: the "square of the norm" may be
negative. -/
theorem C77_negative : WF normF ∧ normF.core.blocks ≠ [] ∧ Separated normF normF.names ∧
    ((allElems normF).map fun x => x * x).sum = 9 ∧
    contractConjugate ce0 names0 (fun _ _ => 0) id true normF =
      .ok ⟨[], [], [([], [-9])]⟩ ∧ signedSquares id normF = -9 :=
  ⟨normF_wf, by decide, normF_separated, by decide, by decide +kernel, by decide +kernel⟩

/-- **C77** is false for tensors without a block: the norm is zero, the call throws. -/
theorem C77_no_block : WF (⟨[0], [⟨false, []⟩], []⟩ : Tensor ℕ Z2Symmetry ℤ) ∧
    contractConjugate ce0 names0 (fun _ _ => 0) id true
      (⟨[0], [⟨false, []⟩], []⟩ : Tensor ℕ Z2Symmetry ℤ) = .error "map::at" :=
  ⟨⟨by decide, by decide, by decide, by decide, by decide⟩, by decide +kernel⟩

/-- The hypotheses of `C77_norm_partial`: two blocks, of four and one elements. -/
example : WF (⟨[4, 1], [⟨false, [(⟨false⟩, 2), (⟨true⟩, 1)]⟩, ⟨false, [(⟨false⟩, 2), (⟨true⟩, 1)]⟩],
      [([⟨false⟩, ⟨false⟩], [1, 2, 3, 4]), ([⟨true⟩, ⟨true⟩], [5])]⟩ : Tensor ℕ Z2Symmetry ℤ) ∧
    (∀ s : Z2Symmetry, -s = s) ∧ TatSym.isFermi Z2Symmetry = false ∧
    contractConjugate ce0 names0 (fun _ _ => 0) id true
        (⟨[4, 1], [⟨false, [(⟨false⟩, 2), (⟨true⟩, 1)]⟩, ⟨false, [(⟨false⟩, 2), (⟨true⟩, 1)]⟩],
          [([⟨false⟩, ⟨false⟩], [1, 2, 3, 4]), ([⟨true⟩, ⟨true⟩], [5])]⟩ : Tensor ℕ Z2Symmetry ℤ) =
      .ok ⟨[], [], [([], [55])]⟩ :=
  ⟨by refine ⟨by decide, by decide, by decide, by decide +kernel, by decide +kernel⟩,
    fun ⟨b⟩ => by cases b <;> decide, rfl, by decide +kernel⟩

/-- The conjugate of `normU` with other names, contracted with it over the first edge. -/
def normU' : Tensor ℕ U1Symmetry ℤ :=
  ⟨[1, 11], [⟨false, [(⟨-1⟩, 1), (⟨0⟩, 1), (⟨1⟩, 1)]⟩, ⟨false, [(⟨-1⟩, 1), (⟨0⟩, 1), (⟨1⟩, 1)]⟩],
    [([⟨-1⟩, ⟨1⟩], [25]), ([⟨0⟩, ⟨0⟩], [9]), ([⟨1⟩, ⟨-1⟩], [4])]⟩

/-- The hypotheses of `C77_one_by_one`: the contraction which `C77_wrong` gets wrong. -/
example : ∃ c, conjugate (fun _ _ => 0) (RingHom.id ℤ) true normU = .ok c ∧
    (edgeRename c [(0, 10), (1, 11)]).names.Nodup ∧ ([0, 1] : List ℕ).Perm normU.names ∧
    contract ce0 names0 normU (edgeRename c [(0, 10), (1, 11)]) [(0, newName [(0, 10), (1, 11)] 0)] =
      .ok normU' ∧
    TraceChain env0 env0 (fun _ _ => 77) trNames0 normU'
      ([1].map fun m => (m, newName [(0, 10), (1, 11)] m)) ⟨[], [], [([], [38])]⟩ ∧
    signedSquares (RingHom.id ℤ) normU = 38 := by
  refine ⟨⟨[0, 1], [⟨false, [(⟨-1⟩, 1), (⟨0⟩, 1), (⟨1⟩, 1)]⟩, ⟨false, [(⟨-1⟩, 1), (⟨0⟩, 1), (⟨1⟩, 1)]⟩],
    [([⟨-1⟩, ⟨1⟩], [5]), ([⟨0⟩, ⟨0⟩], [3]), ([⟨1⟩, ⟨-1⟩], [2])]⟩, by decide +kernel, by decide, by decide,
    by decide +kernel, .cons ⟨fun h => absurd h (by decide), fun c hc => ?_⟩ (by decide +kernel) (.nil _),
    by decide +kernel⟩
  have : c = (1, 11) := by simpa [newName, OMap.find?] using hc
  subst this
  exact maps_of_keys (by decide +kernel) (by decide +kernel)

end TAT
