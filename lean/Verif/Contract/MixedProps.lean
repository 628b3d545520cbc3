import Verif.Contract.Mixed

/-!
# C83: contraction and trace do not depend on when the scalars are converted

A program may have real and complex tensors.  `contract` of two tensors with different scalars
converts them to their common type first.  The result is that of any other order of conversions: a
product of real tensors may be formed with real or with complex numbers, and the real part of the
product of a real and a complex tensor is the product with the real part.
-/

set_option linter.unusedSectionVars false

namespace TAT

variable {ν σ α β γ δ : Type} [LinearOrder ν] [TatSym σ]

section
variable [CommRing γ] [CommRing δ] {ce : ContractEnv σ γ} {ce' : ContractEnv σ δ}
  {cn : ContractNames ν}

/-- **C83**: two contractions of the same tensors with numbers of different types.  `ψ` leads from
the numbers of the first to those of the second: it is additive and takes the products formed in the
first to those formed in the second.  Then the second contraction succeeds as well, and its result is
the converted result of the first. -/
theorem C83_contract [Zero α] [Zero β] (hg : GemmOk ce.gemm) (hg' : GemmOk ce'.gemm)
    (hcn : cn.c1 ≠ cn.c2) (hns : TatSym.isNoSym σ = false) (a : ToCommon α γ) (b : ToCommon β γ)
    (c : ToCommon α δ) (d : ToCommon β δ) (ha : a.fn 0 = 0) (hb : b.fn 0 = 0) (hc : c.fn 0 = 0)
    (hd : d.fn 0 = 0) (ψ : γ →+ δ) (hψ : ∀ x y, ψ (a.fn x * b.fn y) = c.fn x * d.fn y)
    {t1 : Tensor ν σ α} {t2 : Tensor ν σ β} (h1 : WF t1) (h2 : WF t2) {pairs : List (ν × ν)}
    (s : Sound (a.tensor t1) (b.tensor t2) (knownPairs (a.tensor t1) (b.tensor t2) pairs))
    {r : Tensor ν σ γ} (hr : contractMixed ce cn a b t1 t2 pairs = .ok r) :
    ∃ r', contractMixed ce' cn c d t1 t2 pairs = .ok r' ∧ Agree r' (convertTo ψ r) := by
  unfold contractMixed at hr ⊢
  rw [a.tensor_eq h1, b.tensor_eq h2] at hr s
  rw [c.tensor_eq h1, d.tensor_eq h2]
  have k := ok_isContraction hg hcn hns (mapTensor_wf _ h1) (mapTensor_wf _ h2) rfl s hr
  obtain ⟨r', hr'⟩ := contract_map_ok (ce := ce) (ce' := ce') hg' hcn hns
    (c := c.fn) (d := d.fn) h1 h2 s hr
  have k' := ok_isContraction hg' hcn hns (mapTensor_wf c.fn h1) (mapTensor_wf d.fn h2)
    (pairs := pairs) (cs := knownPairs (mapTensor a.fn t1) (mapTensor b.fn t2) pairs) rfl
    (sound_map c.fn d.fn s) hr'
  refine ⟨r', hr', ?_, fun p => ?_⟩
  · rw [(C50_to ψ k.wf).1]
    show r'.names = r.names
    rw [k.names, k'.names]
    rfl
  · rw [(C50_to ψ k.wf).1, amp_mapTensor' (map_zero ψ), k.amps, k'.amps]
    exact contracted_map ha hb hc hd ψ hψ t1 t2 _ p

/-- **C83**: whether a contraction succeeds does not depend on the type of the numbers in which it is
done. -/
theorem C83_succeeds (hg : GemmOk ce.gemm) (hg' : GemmOk ce'.gemm) (hcn : cn.c1 ≠ cn.c2)
    (hns : TatSym.isNoSym σ = false) (a : ToCommon α γ) (b : ToCommon β γ) (c : ToCommon α δ)
    (d : ToCommon β δ) {t1 : Tensor ν σ α} {t2 : Tensor ν σ β} (h1 : WF t1) (h2 : WF t2)
    {pairs : List (ν × ν)}
    (s : Sound (a.tensor t1) (b.tensor t2) (knownPairs (a.tensor t1) (b.tensor t2) pairs)) :
    (∃ r, contractMixed ce cn a b t1 t2 pairs = .ok r) ↔
      ∃ r, contractMixed ce' cn c d t1 t2 pairs = .ok r := by
  unfold contractMixed
  rw [a.tensor_eq h1, b.tensor_eq h2] at s ⊢
  rw [c.tensor_eq h1, d.tensor_eq h2]
  exact ⟨fun ⟨r, hr⟩ => contract_map_ok hg' hcn hns h1 h2 s hr, fun ⟨r, hr⟩ =>
    contract_map_ok hg hcn hns h1 h2 (sound_map c.fn d.fn s) hr⟩

/-- **C83**: the same without symmetry, where a contraction of tensors whose edges fit succeeds. -/
theorem C83_nosym_contract [Zero α] [Zero β] (hg : GemmOk ce.gemm) (hg' : GemmOk ce'.gemm)
    (hcn : [cn.c0, cn.c1, cn.c2].Nodup) (hns : TatSym.isNoSym σ = true) (a : ToCommon α γ)
    (b : ToCommon β γ) (c : ToCommon α δ) (d : ToCommon β δ) (ha : a.fn 0 = 0) (hb : b.fn 0 = 0)
    (hc : c.fn 0 = 0) (hd : d.fn 0 = 0) (ψ : γ →+ δ)
    (hψ : ∀ x y, ψ (a.fn x * b.fn y) = c.fn x * d.fn y)
    {t1 : Tensor ν σ α} {t2 : Tensor ν σ β} (h1 : WF t1) (h2 : WF t2) (hb1 : t1.core.blocks ≠ [])
    (hb2 : t2.core.blocks ≠ []) {cs : List (ν × ν)} (hp : Pairs t1.names t2.names cs)
    (hm : ∀ x ∈ cs, mapOf t1 x.1 = mapOf t2 x.2)
    (hnd : (others t1.names (cs.map Prod.fst) ++ others t2.names (cs.map Prod.snd)).Nodup) :
    ∃ r r', contractMixed ce cn a b t1 t2 cs = .ok r ∧ contractMixed ce' cn c d t1 t2 cs = .ok r' ∧
      Agree r' (convertTo ψ r) := by
  have blk : ∀ {μ τ : Type} (f : μ → τ) (t : Tensor ν σ μ), t.core.blocks ≠ [] →
      (mapTensor f t).core.blocks ≠ [] := fun f t h h' => h (List.map_eq_nil_iff.1 h')
  unfold contractMixed
  rw [a.tensor_eq h1, b.tensor_eq h2, c.tensor_eq h1, d.tensor_eq h2]
  obtain ⟨r, er, k, -⟩ := nosym_isContraction ce hg hcn hns (mapTensor_wf a.fn h1)
    (mapTensor_wf b.fn h2) (blk _ _ hb1) (blk _ _ hb2) hp hm hnd
  obtain ⟨r', er', k', -⟩ := nosym_isContraction ce' hg' hcn hns (mapTensor_wf c.fn h1)
    (mapTensor_wf d.fn h2) (blk _ _ hb1) (blk _ _ hb2) hp hm hnd
  refine ⟨r, r', er, er', ?_, fun p => ?_⟩
  · rw [(C50_to ψ k.wf).1]
    show r'.names = r.names
    rw [k.names, k'.names]
    rfl
  · rw [(C50_to ψ k.wf).1, amp_mapTensor' (map_zero ψ), k.amps, k'.amps]
    exact contracted_map ha hb hc hd ψ hψ t1 t2 cs p

/-- **C83**: tensors with scalars `γ` (real numbers, say) may be contracted before or after both, or
one of them, became tensors with scalars `δ`. -/
theorem C83_widen (hg : GemmOk ce.gemm) (hg' : GemmOk ce'.gemm) (hcn : cn.c1 ≠ cn.c2)
    (hns : TatSym.isNoSym σ = false) (f : γ →+* δ) {t1 t2 : Tensor ν σ γ} (h1 : WF t1) (h2 : WF t2)
    {pairs : List (ν × ν)} (s : Sound t1 t2 (knownPairs t1 t2 pairs)) {r : Tensor ν σ γ}
    (hr : contract ce cn t1 t2 pairs = .ok r) :
    (∃ r', contract ce' cn (convertTo f t1) (convertTo f t2) pairs = .ok r' ∧
      Agree r' (convertTo f r)) ∧
    (∃ r', contractMixed ce' cn (.convert f) .same t1 (convertTo f t2) pairs = .ok r' ∧
      Agree r' (convertTo f r)) ∧
    ∃ r', contractMixed ce' cn .same (.convert f) (convertTo f t1) t2 pairs = .ok r' ∧
      Agree r' (convertTo f r) := by
  have key := C83_contract hg hg' hcn hns (α := γ) (β := γ) .same .same (.convert f) (.convert f)
    rfl rfl (map_zero f) (map_zero f) f.toAddMonoidHom (fun x y => map_mul f x y) h1 h2 s hr
  exact ⟨key, key, key⟩

/-- **C83**: a tensor with scalars `δ` times one with scalars `γ` that is converted to `γ` afterwards.
`f` is the embedding and `g` a part, like the real part: it is additive and numbers `f x` are factors
of it. -/
theorem C83_part (hg : GemmOk ce.gemm) (hg' : GemmOk ce'.gemm) (hcn : cn.c1 ≠ cn.c2)
    (hns : TatSym.isNoSym σ = false) (f : γ →+* δ) (g : δ →+ γ) (hfg : ∀ x y, g (f x * y) = x * g y)
    {t1 : Tensor ν σ γ} {t2 : Tensor ν σ δ} (h1 : WF t1) (h2 : WF t2) {pairs : List (ν × ν)} :
    (∀ {r}, Sound (convertTo f t1) t2 (knownPairs (convertTo f t1) t2 pairs) →
      contractMixed ce' cn (.convert f) .same t1 t2 pairs = .ok r →
      ∃ r', contract ce cn t1 (convertTo g t2) pairs = .ok r' ∧ Agree r' (convertTo g r)) ∧
    ∀ {r}, Sound t2 (convertTo f t1) (knownPairs t2 (convertTo f t1) pairs) →
      contractMixed ce' cn .same (.convert f) t2 t1 pairs = .ok r →
      ∃ r', contract ce cn (convertTo g t2) t1 pairs = .ok r' ∧ Agree r' (convertTo g r) :=
  ⟨fun s hr => C83_contract (ce := ce') (ce' := ce) hg' hg hcn hns (.convert f) .same .same
      (.convert g) (map_zero f) rfl rfl (map_zero g) g (fun x y => hfg x y) h1 h2 s hr,
    fun s hr => C83_contract (ce := ce') (ce' := ce) hg' hg hcn hns .same (.convert f) (.convert g)
      .same rfl (map_zero f) (map_zero g) rfl g
      (fun x y => by show g (x * f y) = g x * y; rw [mul_comm, hfg, mul_comm]) h2 h1 s hr⟩

/-- **C83**: the trace may be taken before or after the conversion, if the conversion is additive. -/
theorem C83_trace {env1 env2 : Env σ γ} {env1' env2' : Env σ δ} {junk : List σ → ℕ → γ}
    {junk' : List σ → ℕ → δ} {tn : TraceNames ν} (htn : [tn.t1, tn.t2, tn.t3].Nodup) (ψ : γ →+ δ)
    {t r : Tensor ν σ γ} (h : WF t) {ps : List (ν × ν)} (k : Traceable t ps)
    (hr : traceTensor env1 env2 junk tn t ps = .ok r) :
    ∃ r', traceTensor env1' env2' junk' tn (convertTo ψ t) ps = .ok r' ∧
      Agree r' (convertTo ψ r) := by
  rw [(C50_to ψ h).1]
  have m : Matched (mapTensor ψ t) (mapTensor ψ t) ps := ⟨k.matched.arrows, k.matched.maps⟩
  have c := ok_isTrace htn h k hr
  have hz : ∃ p, keyOf t.names p ∈ OMap.keys t.core.blocks ∧
      (keyOf (others t.names (pairNames ps)) p).sum = 0 := by
    by_contra hz
    push Not at hz
    rw [C30_no_zero_block env1 env2 junk htn h k.nodup k.names k.matched k.separated hz] at hr
    cases hr
  have hk : OMap.keys (mapTensor ψ t).core.blocks = OMap.keys t.core.blocks := by
    simp [mapTensor, OMap.keys, Function.comp_def]
  obtain ⟨r', e, -⟩ := C30_trace_partial env1' env2' junk' htn (mapTensor_wf ψ h) k.nodup k.names m
    k.separated (by rw [hk]; exact hz)
  have d := ok_isTrace htn (mapTensor_wf ψ h) ⟨k.nodup, k.names, m, k.separated⟩ e
  refine ⟨r', e, ?_, fun p => ?_⟩
  · rw [(C50_to ψ c.wf).1, d.names]
    exact c.names.symm
  · rw [d.amps, (C50_to ψ c.wf).1, amp_mapTensor' (map_zero ψ), c.amps]
    exact traced_map ψ t ps p

end

end TAT
