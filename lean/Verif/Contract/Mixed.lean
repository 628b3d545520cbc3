import Verif.Contract.LinearProps

/-!
# Contraction of tensors with different scalars (tensor.hpp 556-581)
-/

set_option linter.unusedSectionVars false

namespace TAT

/-! ## model -/

/-- How a scalar of an argument becomes one of the result, `std::common_type_t` (tensor.hpp 561-575):
either the types are the same and nothing happens, or `to<ResultScalarType>` is called. -/
inductive ToCommon : Type → Type → Type 1 where
  | same {α : Type} : ToCommon α α
  | convert {α γ : Type} (f : α → γ) : ToCommon α γ

variable {ν σ α β γ δ : Type}

/-- The conversion of one scalar. -/
def ToCommon.fn : ToCommon α γ → α → γ
  | .same => id
  | .convert f => f

/-- The argument passed on: `tensor` itself or `tensor.template to<ResultScalarType>()`. -/
def ToCommon.tensor [TatSym σ] : ToCommon α γ → Tensor ν σ α → Tensor ν σ γ
  | .same => id
  | .convert f => convertTo f

/-- tensor.hpp 556-581 `contract` of tensors with scalars `ScalarType1` and `ScalarType2`: the four
branches of `if constexpr` are the four combinations of `same` and `convert`. -/
def contractMixed [LinearOrder ν] [TatSym σ] [CommRing γ] (ce : ContractEnv σ γ)
    (cn : ContractNames ν) (c1 : ToCommon α γ) (c2 : ToCommon β γ) (t1 : Tensor ν σ α)
    (t2 : Tensor ν σ β) (pairs : List (ν × ν)) : Outcome (Tensor ν σ γ) :=
  contract ce cn (c1.tensor t1) (c2.tensor t2) pairs

/-! ## helper lemmas -/

section
variable [LinearOrder ν] [TatSym σ]

theorem mapTensor_id (t : Tensor ν σ α) : mapTensor id t = t := by
  rcases t with ⟨n, e, b⟩
  simp [mapTensor]

theorem mapTensor_comp (f : α → γ) (g : γ → δ) (t : Tensor ν σ α) :
    mapTensor g (mapTensor f t) = mapTensor (g ∘ f) t := by
  rcases t with ⟨n, e, b⟩
  simp [mapTensor, Function.comp_def]

theorem ToCommon.tensor_eq (c : ToCommon α γ) {t : Tensor ν σ α} (h : WF t) :
    c.tensor t = mapTensor c.fn t := by
  cases c with
  | same => exact (mapTensor_id t).symm
  | convert f => exact (C50_to f h).1

theorem amp_mapTensor' [Zero α] [Zero γ] {f : α → γ} (h0 : f 0 = 0) (t : Tensor ν σ α)
    (p : ν → σ × ℕ) : amp (mapTensor f t) p = f (amp t p) := by
  unfold amp
  rw [elem_mapTensor]
  change (if (∀ x ∈ t.names.zip t.core.edges, (p x.1).2 < dimOf x.2 (p x.1).1) ∧
    (keyOf t.names p).sum = 0 then _ else _) = _
  by_cases h : (∀ x ∈ t.names.zip t.core.edges, (p x.1).2 < dimOf x.2 (p x.1).1) ∧
    (keyOf t.names p).sum = 0
  · rw [if_pos h, if_pos h]
    cases elem t p
    · exact h0.symm
    · rfl
  · rw [if_neg h, if_neg h]
    exact h0.symm

theorem map_smul_int [AddCommGroup γ] [AddCommGroup δ] (ψ : γ →+ δ) (z : ℤ) (x : γ) :
    ψ (z • x) = z • ψ x := map_zsmul ψ z x

/-- Two ways of converting the scalars before a contraction. -/
theorem contracted_map [Zero α] [Zero β] [CommRing γ] [CommRing δ] {a : α → γ} {b : β → γ}
    {c : α → δ} {d : β → δ} (ha : a 0 = 0) (hb : b 0 = 0) (hc : c 0 = 0) (hd : d 0 = 0) (ψ : γ →+ δ)
    (hψ : ∀ x y, ψ (a x * b y) = c x * d y) (t1 : Tensor ν σ α) (t2 : Tensor ν σ β)
    (cs : List (ν × ν)) (p : ν → σ × ℕ) :
    contracted (mapTensor c t1) (mapTensor d t2) cs p =
      ψ (contracted (mapTensor a t1) (mapTensor b t2) cs p) := by
  unfold contracted
  rw [sumOver_hom ψ]
  show sumOver (fun n => edgePositions (mapOf t1 n)) _ _ p =
    sumOver (fun n => edgePositions (mapOf t1 n)) _ _ p
  congr 1
  funext w
  rw [amp_mapTensor' hc, amp_mapTensor' hd, amp_mapTensor' ha, amp_mapTensor' hb, map_zsmul, hψ]
  rfl

theorem traced_map [AddCommGroup γ] [AddCommGroup δ] (ψ : γ →+ δ) (t : Tensor ν σ γ)
    (ps : List (ν × ν)) (p : ν → σ × ℕ) : traced (mapTensor ψ t) ps p = ψ (traced t ps p) := by
  unfold traced
  rw [sumOver_hom ψ]
  show sumOver (fun n => edgePositions (mapOf t n)) _ _ p =
    sumOver (fun n => edgePositions (mapOf t n)) _ _ p
  congr 1
  funext w
  rw [amp_mapTensor' (map_zero ψ)]
  show (if Diagonal ps w then traceSign t ps w • _ else 0) = _
  split
  · rw [map_zsmul]
  · rw [map_zero]

theorem sound_map {a : α → γ} {b : β → γ} (c : α → δ) (d : β → δ) {t1 : Tensor ν σ α}
    {t2 : Tensor ν σ β} {cs : List (ν × ν)} (s : Sound (mapTensor a t1) (mapTensor b t2) cs) :
    Sound (mapTensor c t1) (mapTensor d t2) cs := by
  refine ⟨s.separated, fun hf hl p k1 k2 k3 => ?_, s.blocks.imp_right fun hb h => hb ?_⟩
  · obtain ⟨w, x1, x2, x3⟩ := s.reached hf hl p k1 k2 k3
    refine ⟨w, ?_, x2, x3⟩
    have e : OMap.keys (mapTensor c t1).core.blocks = OMap.keys (mapTensor a t1).core.blocks := by
      simp [mapTensor, OMap.keys, Function.comp_def]
    exact e ▸ x1
  · have h' : t1.core.blocks.map (fun x => (x.1, x.2.map c)) = [] := h
    show t1.core.blocks.map (fun x => (x.1, x.2.map a)) = []
    rw [List.map_eq_nil_iff.1 h', List.map_nil]

/-- Whether a contraction succeeds does not depend on the numbers. -/
theorem contract_map_ok [CommRing γ] [CommRing δ] {ce : ContractEnv σ γ} {ce' : ContractEnv σ δ}
    (hg : GemmOk ce'.gemm) {cn : ContractNames ν} (hcn : cn.c1 ≠ cn.c2)
    (hns : TatSym.isNoSym σ = false) {a : α → γ} {b : β → γ} {c : α → δ} {d : β → δ}
    {t1 : Tensor ν σ α} {t2 : Tensor ν σ β} (h1 : WF t1) (h2 : WF t2) {pairs : List (ν × ν)}
    {r : Tensor ν σ γ}
    (hs : Sound (mapTensor a t1) (mapTensor b t2) (knownPairs (mapTensor a t1) (mapTensor b t2) pairs))
    (hr : contract ce cn (mapTensor a t1) (mapTensor b t2) pairs = .ok r) :
    ∃ r', contract ce' cn (mapTensor c t1) (mapTensor d t2) pairs = .ok r' := by
  have w1 := mapTensor_wf a h1
  have w2 := mapTensor_wf b h2
  have v1 := mapTensor_wf c h1
  have v2 := mapTensor_wf d h2
  have keys : ∀ {μ τ : Type} (f : α → μ) (g : α → τ),
      OMap.keys (mapTensor f t1).core.blocks = OMap.keys (mapTensor g t1).core.blocks := by
    intro μ τ f g
    simp [mapTensor, OMap.keys, Function.comp_def]
  have hp := ok_pairs hr
  have hnd : (others t1.names ((knownPairs (mapTensor a t1) (mapTensor b t2) pairs).map Prod.fst) ++
      others t2.names ((knownPairs (mapTensor a t1) (mapTensor b t2) pairs).map Prod.snd)).Nodup := by
    by_contra hnd
    exact C29_equal_names ce cn hns _ _ pairs hnd r hr
  have hmem : ∀ c ∈ knownPairs (mapTensor a t1) (mapTensor b t2) pairs,
      c ∈ pairs ∧ c.1 ∈ t1.names ∧ c.2 ∈ t2.names :=
    fun c hc => ⟨(List.mem_filter.1 hc).1, of_decide_eq_true (List.mem_filter.1 hc).2⟩
  by_cases hf : TatSym.isFermi σ = true
  · obtain ⟨r', e1, -⟩ := C28_fermi_sectors_partial ce' hg hcn hns hf v1 v2
      (pairs := pairs) (cs := knownPairs (mapTensor a t1) (mapTensor b t2) pairs) rfl hp.nodup1
      hp.nodup2 (fun c hc => ok_arrows hns w1 w2 hr hf hc)
      (fun c hc s d1 d2 x y => ok_dims hns w1 w2 hr hc x y)
      (by
        by_contra hh
        rw [not_or] at hh
        obtain ⟨g1, g2⟩ := hh
        push Not at g1 g2
        obtain ⟨c, hc, s, hs, hs'⟩ := g1
        obtain ⟨q, hq, hq'⟩ := exists_key_at w1 (hmem c hc).2.1 hs
        refine C28_fermi_must_match ce cn hns hf w1 w2 rfl hc (Or.inl
          ⟨⟨q, (mem_keys_named' w1.shaped q).2 hq, by rw [hq']; exact hs'⟩, fun n hn => ?_⟩) r hr
        have := g2 n hn
        by_cases hnc : n ∈ (knownPairs (mapTensor a t1) (mapTensor b t2) pairs).map Prod.fst
        · rw [decide_eq_false (by simpa using hnc)] at this
          rw [decide_eq_true hnc]
          exact Bool.eq_true_of_not_eq_false this
        · rw [decide_eq_true hnc] at this
          rw [decide_eq_false hnc]
          exact Bool.eq_false_of_not_eq_true this)
      (by
        by_contra hh
        rw [not_or] at hh
        obtain ⟨g1, g2⟩ := hh
        push Not at g1 g2
        obtain ⟨c, hc, s, hs, hs'⟩ := g1
        obtain ⟨q, hq, hq'⟩ := exists_key_at w2 (hmem c hc).2.2 hs
        refine C28_fermi_must_match ce cn hns hf w1 w2 rfl hc (Or.inr
          ⟨⟨q, (mem_keys_named' w2.shaped q).2 hq, by rw [hq']; exact hs'⟩, fun n hn => ?_⟩) r hr
        exact Bool.eq_false_of_not_eq_true (g2 n hn))
      hs.separated hnd (fun hl p k1 k2 k3 => by
        obtain ⟨w, x1, x2, x3⟩ := hs.reached hf hl p k1 k2 k3
        exact ⟨w, keys a c ▸ x1, x2, x3⟩)
    exact ⟨r', e1⟩
  · rw [Bool.not_eq_true] at hf
    have hm := ok_matched hns hf w1 w2 hr
    have hl : Separated (mapTensor a t1)
        ((knownPairs (mapTensor a t1) (mapTensor b t2) pairs).map Prod.fst) ∨ ∀ s : σ, -s = s := by
      refine hs.separated.imp_left fun h p q hp' hq' hsum n hn => ?_
      have hin : ∀ p : ν → σ, (∀ n ∈ (knownPairs (mapTensor a t1) (mapTensor b t2) pairs).map Prod.fst,
          p n ∈ OMap.keys (mapOf (mapTensor a t1) n)) →
          ∀ c ∈ knownPairs (mapTensor a t1) (mapTensor b t2) pairs,
          p c.1 ∈ OMap.keys (mapOf (mapTensor a t1) c.1) ∧
            -p c.1 ∈ OMap.keys (mapOf (mapTensor b t2) c.2) := fun p hp c hc =>
        ⟨hp _ (List.mem_map_of_mem hc), (ok_sectors hns hf w1 w2 hr hc).1 _
          (hp _ (List.mem_map_of_mem hc))⟩
      obtain ⟨c, hc, rfl⟩ := List.mem_map.1 hn
      exact h p q (hin p hp') (hin q hq') hsum c hc
    obtain ⟨r', e1, -⟩ := C28_contract_partial ce' hg hcn hns v1 v2
      (pairs := pairs) (cs := knownPairs (mapTensor a t1) (mapTensor b t2) pairs) rfl hp.nodup1
      hp.nodup2 ⟨hm.arrows, hm.maps⟩ hl hnd (hs.blocks.imp_right fun hb h => hb (by
        have h' : t1.core.blocks.map (fun x => (x.1, x.2.map c)) = [] := h
        show t1.core.blocks.map (fun x => (x.1, x.2.map a)) = []
        rw [List.map_eq_nil_iff.1 h', List.map_nil]))
    exact ⟨r', e1⟩

end

end TAT
