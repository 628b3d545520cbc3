import Verif.Contract.Laws2
import Verif.Contract.FuseProps

/-!
# Helper lemmas for the laws of contraction: calls that succeed
-/

set_option linter.unusedSectionVars false

namespace TAT

variable {ν σ α : Type}

section
variable [LinearOrder ν] [TatSym σ]

/-- What a contraction which succeeds needs to be correct (see C28): combinations of symmetries of
the contracted edges are told apart by their total, the allowed combinations of symmetries of the
result are those of products of blocks, and a result of rank 0 has a block. -/
structure Sound (t1 t2 : Tensor ν σ α) (cs : List (ν × ν)) : Prop where
  separated : SharedSeparated t1 t2 cs ∨ ∀ s : σ, -s = s
  reached : TatSym.isFermi σ = true → SharedReached t1 t2 cs
  blocks : others t1.names (cs.map Prod.fst) ++ others t2.names (cs.map Prod.snd) ≠ [] ∨
    t1.core.blocks ≠ []

theorem isError_ok {x : Outcome α} {r : α} (h : x = .ok r) : x.isError = false := by
  rw [h]; rfl

/-- The pairs of a contraction that succeeds. -/
theorem ok_pairs [CommRing α] {ce : ContractEnv σ α} {cn : ContractNames ν}
    {t1 t2 r : Tensor ν σ α} {pairs : List (ν × ν)} (hr : contract ce cn t1 t2 pairs = .ok r) :
    Pairs t1.names t2.names (knownPairs t1 t2 pairs) := by
  by_cases hp : ((knownPairs t1 t2 pairs).map Prod.fst).Nodup ∧
      ((knownPairs t1 t2 pairs).map Prod.snd).Nodup
  · refine ⟨hp.1, hp.2, fun c hc => ?_, fun c hc => ?_⟩
    · exact (of_decide_eq_true (List.mem_filter.1 hc).2).1
    · exact (of_decide_eq_true (List.mem_filter.1 hc).2).2
  · have := C29_repeated ce cn t1 t2 pairs hp
    rw [isError_ok hr] at this
    cases this

theorem ok_arrows [CommRing α] {ce : ContractEnv σ α} {cn : ContractNames ν}
    (hns : TatSym.isNoSym σ = false) {t1 t2 r : Tensor ν σ α} (h1 : WF t1) (h2 : WF t2)
    {pairs : List (ν × ν)} (hr : contract ce cn t1 t2 pairs = .ok r) (hf : TatSym.isFermi σ = true)
    {c : ν × ν} (hc : c ∈ knownPairs t1 t2 pairs) :
    (edgeOf t1 c.1).arrow ≠ (edgeOf t2 c.2).arrow := by
  intro he
  obtain ⟨hc0, hc'⟩ := List.mem_filter.1 hc
  obtain ⟨hc1, hc2⟩ := of_decide_eq_true hc'
  have := C29_unfit ce cn hns h1 h2 hc0 hc1 hc2 (Or.inl ⟨hf, he⟩)
  rw [isError_ok hr] at this
  cases this

theorem ok_dims [CommRing α] {ce : ContractEnv σ α} {cn : ContractNames ν}
    (hns : TatSym.isNoSym σ = false) {t1 t2 r : Tensor ν σ α} (h1 : WF t1) (h2 : WF t2)
    {pairs : List (ν × ν)} (hr : contract ce cn t1 t2 pairs = .ok r)
    {c : ν × ν} (hc : c ∈ knownPairs t1 t2 pairs) {s : σ} {d1 d2 : ℕ}
    (e1 : OMap.find? (mapOf t1 c.1) s = some d1) (e2 : OMap.find? (mapOf t2 c.2) (-s) = some d2) :
    d1 = d2 := by
  by_contra he
  obtain ⟨hc0, hc'⟩ := List.mem_filter.1 hc
  obtain ⟨hc1, hc2⟩ := of_decide_eq_true hc'
  have := C29_unfit ce cn hns h1 h2 hc0 hc1 hc2 (Or.inr ⟨s, d1, d2, e1, e2, he⟩)
  rw [isError_ok hr] at this
  cases this

theorem ok_sectors [CommRing α] {ce : ContractEnv σ α} {cn : ContractNames ν}
    (hns : TatSym.isNoSym σ = false) (hf : TatSym.isFermi σ = false)
    {t1 t2 r : Tensor ν σ α} (h1 : WF t1) (h2 : WF t2)
    {pairs : List (ν × ν)} (hr : contract ce cn t1 t2 pairs = .ok r)
    {c : ν × ν} (hc : c ∈ knownPairs t1 t2 pairs) :
    (∀ s ∈ OMap.keys (mapOf t1 c.1), -s ∈ OMap.keys (mapOf t2 c.2)) ∧
    (∀ s ∈ OMap.keys (mapOf t2 c.2), -s ∈ OMap.keys (mapOf t1 c.1)) := by
  obtain ⟨hc0, hc'⟩ := List.mem_filter.1 hc
  obtain ⟨hc1, hc2⟩ := of_decide_eq_true hc'
  constructor <;> intro s hs <;> by_contra he
  · obtain ⟨q, hq, hq'⟩ := exists_key_at h1 hc1 hs
    exact C28_sectors_must_match ce cn hns hf h1 h2 hc0 hc1 hc2
      (Or.inl ⟨q, (mem_keys_named' h1.shaped q).2 hq, by rw [hq']; exact he⟩) r hr
  · obtain ⟨q, hq, hq'⟩ := exists_key_at h2 hc2 hs
    exact C28_sectors_must_match ce cn hns hf h1 h2 hc0 hc1 hc2
      (Or.inr ⟨q, (mem_keys_named' h2.shaped q).2 hq, by rw [hq']; exact he⟩) r hr

theorem ok_matched [CommRing α] {ce : ContractEnv σ α} {cn : ContractNames ν}
    (hns : TatSym.isNoSym σ = false) (hf : TatSym.isFermi σ = false)
    {t1 t2 r : Tensor ν σ α} (h1 : WF t1) (h2 : WF t2)
    {pairs : List (ν × ν)} (hr : contract ce cn t1 t2 pairs = .ok r) :
    Matched t1 t2 (knownPairs t1 t2 pairs) := by
  refine ⟨fun h => absurd h (by rw [hf]; simp), fun c hc s => ?_⟩
  obtain ⟨k1, k2⟩ := ok_sectors hns hf h1 h2 hr hc
  cases e1 : OMap.find? (mapOf t1 c.1) s with
  | some d1 =>
    have := k1 s (List.mem_map_of_mem (f := Prod.fst) (OMap.mem_of_find? e1))
    cases e2 : OMap.find? (mapOf t2 c.2) (-s) with
    | none => exact absurd this (OMap.find?_eq_none.1 e2)
    | some d2 => rw [ok_dims hns h1 h2 hr hc e1 e2]
  | none =>
    cases e2 : OMap.find? (mapOf t2 c.2) (-s) with
    | none => rfl
    | some d2 =>
      have := k2 (-s) (List.mem_map_of_mem (f := Prod.fst) (OMap.mem_of_find? e2))
      rw [neg_neg] at this
      exact absurd this (OMap.find?_eq_none.1 e1)

theorem ok_isContraction [CommRing α] {ce : ContractEnv σ α} (hg : GemmOk ce.gemm)
    {cn : ContractNames ν} (hcn : cn.c1 ≠ cn.c2) (hns : TatSym.isNoSym σ = false)
    {t1 t2 r : Tensor ν σ α} (h1 : WF t1) (h2 : WF t2) {pairs cs : List (ν × ν)}
    (hcs : knownPairs t1 t2 pairs = cs) (hs : Sound t1 t2 cs)
    (hr : contract ce cn t1 t2 pairs = .ok r) : IsContraction t1 t2 cs r := by
  subst hcs
  have hp := ok_pairs hr
  have hnd : (others t1.names ((knownPairs t1 t2 pairs).map Prod.fst) ++
      others t2.names ((knownPairs t1 t2 pairs).map Prod.snd)).Nodup := by
    by_contra hnd
    exact C29_equal_names ce cn hns t1 t2 pairs hnd r hr
  have hmem : ∀ c ∈ knownPairs t1 t2 pairs, c ∈ pairs ∧ c.1 ∈ t1.names ∧ c.2 ∈ t2.names :=
    fun c hc => ⟨(List.mem_filter.1 hc).1, of_decide_eq_true (List.mem_filter.1 hc).2⟩
  by_cases hf : TatSym.isFermi σ = true
  · obtain ⟨r', e1, e2, e3, ⟨e, e4, e4'⟩, e5⟩ := C28_fermi_sectors_partial ce hg hcn hns hf h1 h2 rfl hp.nodup1
      hp.nodup2 (fun c hc => ok_arrows hns h1 h2 hr hf hc)
      (fun c hc s d1 d2 x y => ok_dims hns h1 h2 hr hc x y)
      (by
        by_contra hh
        rw [not_or] at hh
        obtain ⟨g1, g2⟩ := hh
        push Not at g1 g2
        obtain ⟨c, hc, s, hs, hs'⟩ := g1
        obtain ⟨q, hq, hq'⟩ := exists_key_at h1 (hmem c hc).2.1 hs
        refine C28_fermi_must_match ce cn hns hf h1 h2 rfl hc (Or.inl
          ⟨⟨q, (mem_keys_named' h1.shaped q).2 hq, by rw [hq']; exact hs'⟩, fun n hn => ?_⟩) r hr
        have := g2 n hn
        by_cases hnc : n ∈ (knownPairs t1 t2 pairs).map Prod.fst
        · rw [decide_eq_false (by simpa using hnc)] at this
          rw [decide_eq_true hnc]
          simpa using this
        · rw [decide_eq_true hnc] at this
          rw [decide_eq_false hnc]
          simpa using this)
      (by
        by_contra hh
        rw [not_or] at hh
        obtain ⟨g1, g2⟩ := hh
        push Not at g1 g2
        obtain ⟨c, hc, s, hs, hs'⟩ := g1
        obtain ⟨q, hq, hq'⟩ := exists_key_at h2 (hmem c hc).2.2 hs
        refine C28_fermi_must_match ce cn hns hf h1 h2 rfl hc (Or.inr
          ⟨⟨q, (mem_keys_named' h2.shaped q).2 hq, by rw [hq']; exact hs'⟩, fun n hn => ?_⟩) r hr
        simpa using g2 n hn)
      hs.separated hnd (hs.reached hf)
    rw [hr, Outcome.ok.injEq] at e1
    subst e1
    exact isContraction_of h1.shaped h2.shaped hp hnd e2 e3
      ⟨e, e4, fun n hn => ⟨(e4' n hn).1, fun _ => (e4' n hn).2⟩⟩ e5
  · rw [Bool.not_eq_true] at hf
    have hm := ok_matched hns hf h1 h2 hr
    have hl : Separated t1 ((knownPairs t1 t2 pairs).map Prod.fst) ∨ ∀ s : σ, -s = s := by
      refine hs.separated.imp_left fun h p q hp' hq' hsum n hn => ?_
      have hin : ∀ p : ν → σ, (∀ n ∈ (knownPairs t1 t2 pairs).map Prod.fst,
          p n ∈ OMap.keys (mapOf t1 n)) → ∀ c ∈ knownPairs t1 t2 pairs,
          p c.1 ∈ OMap.keys (mapOf t1 c.1) ∧ -p c.1 ∈ OMap.keys (mapOf t2 c.2) := fun p hp c hc =>
        ⟨hp _ (List.mem_map_of_mem hc), (ok_sectors hns hf h1 h2 hr hc).1 _
          (hp _ (List.mem_map_of_mem hc))⟩
      obtain ⟨c, hc, rfl⟩ := List.mem_map.1 hn
      exact h p q (hin p hp') (hin q hq') hsum c hc
    obtain ⟨r', e1, e2, e3, e4, e5⟩ := C28_contract_partial ce hg hcn hns h1 h2 rfl hp.nodup1
      hp.nodup2 hm hl hnd hs.blocks
    rw [hr, Outcome.ok.injEq] at e1
    subst e1
    exact isContraction_of h1.shaped h2.shaped hp hnd e2 e3 e4 e5

end

end TAT
