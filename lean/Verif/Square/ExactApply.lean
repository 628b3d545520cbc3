import Verif.Square.ExactLemmas

/-!
# A term of the Hamiltonian applied to the exact vector: the contraction
-/

namespace TAT

set_option linter.unusedSectionVars false

variable {ν α ρ : Type} [LinearOrder ν] [Field α] [LinearOrder ρ] [Field ρ] {M N d : ℕ}

/-- The assumptions about the calls: `gemm` multiplies matrices, the names used inside of `contract` are
distinct, different strings are different names. -/
structure ExactEnvOk (e : ExactEnv ν α ρ) : Prop where
  gemm : GemmOk e.ce.gemm
  names : [e.cn.c0, e.cn.c1, e.cn.c2].Nodup
  inj : Function.Injective e.nm

/-- A term acts on the sites `xs` and leaves the others alone. -/
def actOn (xs : List (LatticeSite M N)) (h : List ℕ → List ℕ → α) (ψ : SpinConfig M N d → α)
    (s : SpinConfig M N d) : α :=
  ∑ s', if ∀ x, x ∉ xs → s' x = s x then ψ s' * h (spinsAt s' xs) (spinsAt s xs) else 0

theorem applyTerm_ok {e : ExactEnv ν α ρ} (he : ExactEnvOk e) {v t : Tensor ν NoSymmetry α}
    (hv : VectorOn M N d e.nm v) {xs : List (LatticeSite M N)} (hx : xs.Nodup)
    (ht : OperatorOn d xs.length e.nm t) :
    ∃ w, applyTerm e v (xs.map sitePos, t) = .ok w ∧ VectorOn M N d e.nm w ∧
      ∀ s : SpinConfig M N d, amplitude e.nm w s =
        actOn xs (matrixElement e.nm t) (amplitude e.nm v) s := by
  have hnm := he.inj
  have iin : Function.Injective (inName e.nm) := fun _ _ => inName_inj hnm
  have iout : Function.Injective (outName e.nm) := fun _ _ => outName_inj hnm
  have site_t : ∀ x : LatticeSite M N, leg t (physName e.nm (sitePos x)) = none := by
    intro x
    by_contra h
    obtain ⟨k, _, hk | hk⟩ := ht.only _ h
    · exact inName_ne_physName hnm k _ _ hk.symm
    · exact outName_ne_physName hnm k _ _ hk.symm
  -- the operator with its lower edges at the sites
  obtain ⟨a1, a2, a3⟩ := dense_rename ht.dense (d := siteEntries e.nm (inName e.nm) xs)
    (entries_nodup_fst iin xs) (entries_nodup_snd hnm hx) (by
      intro c hc
      obtain ⟨k, hk, rfl⟩ := mem_entries.1 hc
      exact site_t _)
  set t' := edgeRename t (OMap.ofList (siteEntries e.nm (inName e.nm) xs)) with ht'
  have l_in : ∀ x ∈ xs, leg t' (physName e.nm (sitePos x)) = some d := by
    intro x hm
    obtain ⟨k, hk, rfl⟩ := List.mem_iff_getElem.1 hm
    rw [a2, entries_find_snd hnm xs hx hk]
    exact ht.inp k hk
  have l_off : ∀ n, (∀ x ∈ xs, n ≠ physName e.nm (sitePos x)) →
      leg t' n = if n ∈ (siteEntries e.nm (inName e.nm) xs).map Prod.fst then none else leg t n := by
    intro n hn
    rw [a2, entries_find_snd_none xs hn]
  have l_out : ∀ k < xs.length, leg t' (outName e.nm k) = some d := by
    intro k hk
    rw [l_off _ fun x _ => outName_ne_physName hnm k _ _, if_neg, ht.out k hk]
    rw [entries_fst, List.mem_map]
    rintro ⟨k', _, h⟩
    exact inName_ne_outName hnm k' k h
  have l_not : ∀ x, x ∉ xs → leg t' (physName e.nm (sitePos x)) = none := by
    intro x hm
    rw [l_off _ fun y hy h => hm (by rw [siteName_inj hnm h]; exact hy), site_t, ite_self]
  have l_only : ∀ n, leg t' n ≠ none → (∃ x ∈ xs, n = physName e.nm (sitePos x)) ∨
      ∃ k < xs.length, n = outName e.nm k := by
    intro n hn
    by_cases h : ∀ x ∈ xs, n ≠ physName e.nm (sitePos x)
    · rw [l_off n h] at hn
      split at hn
      · exact absurd rfl hn
      · rename_i hni
        obtain ⟨k, hk, rfl | rfl⟩ := ht.only n hn
        · rw [entries_fst] at hni
          exact absurd (List.mem_map.2 ⟨k, by simpa using hk, rfl⟩) hni
        · exact Or.inr ⟨k, hk, rfl⟩
    · push Not at h
      exact Or.inl h
  have out_v : ∀ k, leg v (outName e.nm k) = none := by
    intro k
    by_contra h
    obtain ⟨x, hk⟩ := hv.only _ h
    exact outName_ne_physName hnm k _ _ hk
  -- the contraction
  obtain ⟨r, b1, b2, b3, b4⟩ := dense_all e.ce he.gemm he.names hv.dense a1
    (ns := xs.map fun x => physName e.nm (sitePos x)) (hx.map fun x y h => siteName_inj hnm h) (by
      intro n
      rw [List.mem_map]
      constructor
      · rintro ⟨x, hm, rfl⟩
        rw [hv.site, l_in x hm]
        simp
      · rintro ⟨h1, h2⟩
        obtain ⟨x, rfl⟩ := hv.only n h1
        by_cases hm : x ∈ xs
        · exact ⟨x, hm, rfl⟩
        · exact absurd (l_not x hm) h2) (by
      intro n hn
      obtain ⟨x, hm, rfl⟩ := List.mem_map.1 hn
      rw [hv.site, l_in x hm])
  -- the result with its edges at the sites
  obtain ⟨c1, c2, c3⟩ := dense_rename b2 (d := siteEntries e.nm (outName e.nm) xs)
    (entries_nodup_fst iout xs) (entries_nodup_snd hnm hx) (by
      intro c hc
      obtain ⟨k, hk, rfl⟩ := mem_entries.1 hc
      rw [b3, if_pos (List.mem_map.2 ⟨xs[k], List.getElem_mem hk, rfl⟩)])
  refine ⟨edgeRename r (OMap.ofList (siteEntries e.nm (outName e.nm) xs)), ?_, ⟨c1, ?_, ?_⟩, fun s => ?_⟩
  · rw [applyTerm, siteDictionary_eq, siteDictionary_eq, ← ht', b1]
    rfl
  · intro x
    rw [c2]
    by_cases hm : x ∈ xs
    · obtain ⟨k, hk, rfl⟩ := List.mem_iff_getElem.1 hm
      rw [entries_find_snd hnm xs hx hk]
      show leg r (outName e.nm k) = some d
      rw [b3, if_neg, out_v, l_out k hk]
      · rfl
      · rw [List.mem_map]
        rintro ⟨y, _, h⟩
        exact outName_ne_physName hnm k _ _ h.symm
    · rw [entries_find_snd_none xs fun y hy h => hm (by rw [siteName_inj hnm h]; exact hy)]
      show (if _ then none else leg r _) = some d
      rw [if_neg, b3, if_neg, hv.site, l_not x hm]
      · rfl
      · rw [List.mem_map]
        rintro ⟨y, hy, h⟩
        exact hm (by rw [← siteName_inj hnm h]; exact hy)
      · rw [entries_fst, List.mem_map]
        rintro ⟨k, _, h⟩
        exact outName_ne_physName hnm k _ _ h
  · intro n hn
    rw [c2] at hn
    by_cases h : ∀ x ∈ xs, n ≠ physName e.nm (sitePos x)
    · rw [entries_find_snd_none xs h] at hn
      have hn : (if n ∈ (siteEntries e.nm (outName e.nm) xs).map Prod.fst then none else leg r n) ≠ none := hn
      split at hn
      · exact absurd rfl hn
      · rename_i hni
        rw [b3] at hn
        split at hn
        · exact absurd rfl hn
        · by_cases hvn : leg v n = none
          · rw [hvn, Option.none_or] at hn
            rcases l_only n hn with ⟨x, -, rfl⟩ | ⟨k, hk, rfl⟩
            · exact ⟨x, rfl⟩
            · rw [entries_fst] at hni
              exact absurd (List.mem_map.2 ⟨k, by simpa using hk, rfl⟩) hni
          · exact hv.only n hvn
    · push Not at h
      obtain ⟨x, -, rfl⟩ := h
      exact ⟨x, rfl⟩
  · rw [amplitude, c3, b4, actOn]
    refine sumNames_configs hnm (fun x => by rw [legDim, hv.site]; rfl) xs hx _ s fun z' s' h1 h2 h3 => ?_
    congr 1
    · refine val_congr fun n hn => ?_
      obtain ⟨x, rfl⟩ := hv.only n hn
      rw [configIndex_site hnm]
      by_cases hm : x ∈ xs
      · exact h1 x hm
      · rw [h3 _ fun y hy h => hm (by rw [siteName_inj hnm h]; exact hy), entries_find_none (n := physName e.nm (sitePos x)) xs
          (fun k _ h => outName_ne_physName hnm k _ _ h.symm), h2 x hm]
        exact configIndex_site hnm s x
    · rw [a3, matrixElement]
      refine val_congr fun n hn => ?_
      obtain ⟨k, hk, rfl | rfl⟩ := ht.only n hn
      · rw [entries_find iin xs hk, spinIndex_in hnm _ _ (by simpa [spinsAt] using hk)]
        show z' (physName e.nm (sitePos xs[k])) = _
        rw [h1 _ (List.getElem_mem hk)]
        simp [spinsAt, hk]
      · rw [entries_find_none xs (fun k' _ h => inName_ne_outName hnm k' k h.symm),
          spinIndex_out hnm _ _ (by simpa [spinsAt] using hk)]
        show z' (outName e.nm k) = _
        rw [h3 _ fun x _ => outName_ne_physName hnm k _ _, entries_find iout xs hk]
        show configIndex e.nm s (physName e.nm (sitePos xs[k])) = _
        rw [configIndex_site hnm]
        simp [spinsAt, hk]

end TAT
