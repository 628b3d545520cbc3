import Verif.Square.DenseArith
import Verif.Square.ExactNames
import Verif.Square.Model
import Mathlib.Algebra.BigOperators.Fin
import Mathlib.Algebra.BigOperators.Ring.Finset
import Mathlib.Data.Fintype.Pi
import Mathlib.Data.Fintype.Prod

/-!
# A term of the Hamiltonian applied to the exact vector
-/

namespace TAT

set_option linter.unusedSectionVars false

variable {ν α ρ : Type} [LinearOrder ν] {M N d : ℕ}

/-! ## What the tensors stand for -/

/-- The position of a site as the code has it. -/
def sitePos (x : LatticeSite M N) : Pos := ((x.1.val : ℤ), (x.2.val : ℤ))

/-- The indices of the vector at a configuration. -/
def configIndex (nm : String → ν) (s : SpinConfig M N d) (n : ν) : ℕ :=
  match (latticeSites M N).find? fun x => decide (physName nm (sitePos x) = n) with
  | some x => (s x).val
  | none => 0

/-- The element of the vector which belongs to a configuration. -/
def amplitude [Zero α] (nm : String → ν) (v : Tensor ν NoSymmetry α) (s : SpinConfig M N d) : α :=
  val v (configIndex nm s)

/-- The indices of an operator at spins before and after. -/
def spinIndex (nm : String → ν) (a b : List ℕ) (n : ν) : ℕ :=
  match (List.range a.length).find? fun k => decide (inName nm k = n) with
  | some k => a.getD k 0
  | none =>
    match (List.range b.length).find? fun k => decide (outName nm k = n) with
    | some k => b.getD k 0
    | none => 0

/-- The element of an operator which belongs to spins before (`I0`, `I1`, …) and after (`O0`, `O1`, …). -/
def matrixElement [Zero α] (nm : String → ν) (t : Tensor ν NoSymmetry α) (a b : List ℕ) : α :=
  val t (spinIndex nm a b)

/-- The vector has an edge of dimension `d` for every site and no others. -/
structure VectorOn (M N d : ℕ) (nm : String → ν) (v : Tensor ν NoSymmetry α) : Prop where
  dense : Dense v
  site : ∀ x : LatticeSite M N, leg v (physName nm (sitePos x)) = some d
  only : ∀ n, leg v n ≠ none → ∃ x : LatticeSite M N, n = physName nm (sitePos x)

/-- An operator on `k` sites. -/
structure OperatorOn (d k : ℕ) (nm : String → ν) (t : Tensor ν NoSymmetry α) : Prop where
  dense : Dense t
  inp : ∀ i < k, leg t (inName nm i) = some d
  out : ∀ i < k, leg t (outName nm i) = some d
  only : ∀ n, leg t n ≠ none → ∃ i < k, n = inName nm i ∨ n = outName nm i

/-! ## Names -/

variable {nm : String → ν}

theorem siteName_inj (hnm : Function.Injective nm) {x y : LatticeSite M N}
    (h : physName nm (sitePos x) = physName nm (sitePos y)) : x = y := by
  obtain ⟨h1, h2⟩ := physName_inj hnm h
  exact Prod.ext (Fin.ext h1) (Fin.ext h2)

theorem mem_latticeSites (x : LatticeSite M N) : x ∈ latticeSites M N := by
  rw [latticeSites, List.mem_flatMap]
  exact ⟨x.1, List.mem_finRange _, List.mem_map.2 ⟨x.2, List.mem_finRange _, rfl⟩⟩

theorem configIndex_site (hnm : Function.Injective nm) (s : SpinConfig M N d) (x : LatticeSite M N) :
    configIndex nm s (physName nm (sitePos x)) = (s x).val := by
  unfold configIndex
  cases h : (latticeSites M N).find? fun y => decide (physName nm (sitePos y) = physName nm (sitePos x)) with
  | some y =>
    have e : y = x := siteName_inj hnm (by simpa using List.find?_some h)
    rw [e]
  | none =>
    have := List.find?_eq_none.1 h x (mem_latticeSites x)
    simp at this

theorem spinIndex_in (hnm : Function.Injective nm) (a b : List ℕ) {k : ℕ} (hk : k < a.length) :
    spinIndex nm a b (inName nm k) = a.getD k 0 := by
  unfold spinIndex
  cases h : (List.range a.length).find? fun k' => decide (inName nm k' = inName nm k) with
  | some k' =>
    have e : k' = k := inName_inj hnm (by simpa using List.find?_some h)
    rw [e]
  | none =>
    have := List.find?_eq_none.1 h k (by simpa using hk)
    simp at this

theorem spinIndex_out (hnm : Function.Injective nm) (a b : List ℕ) {k : ℕ} (hk : k < b.length) :
    spinIndex nm a b (outName nm k) = b.getD k 0 := by
  unfold spinIndex
  have : ((List.range a.length).find? fun k' => decide (inName nm k' = outName nm k)) = none := by
    rw [List.find?_eq_none]
    intro k' _
    simpa using inName_ne_outName hnm k' k
  rw [this]
  cases h : (List.range b.length).find? fun k' => decide (outName nm k' = outName nm k) with
  | some k' =>
    have e : k' = k := outName_inj hnm (by simpa using List.find?_some h)
    rw [e]
  | none =>
    have := List.find?_eq_none.1 h k (by simpa using hk)
    simp at this

/-! ## Dictionaries -/

/-- The pairs of a dictionary. -/
def siteEntries (nm : String → ν) (side : ℕ → ν) (xs : List (LatticeSite M N)) : List (ν × ν) :=
  xs.zipIdx.map fun e => (side e.2, physName nm (sitePos e.1))

theorem siteDictionary_eq (side : ℕ → ν) (xs : List (LatticeSite M N)) :
    siteDictionary nm side (xs.map sitePos) = OMap.ofList (siteEntries nm side xs) := by
  rw [siteDictionary, siteEntries, List.zipIdx_map, List.map_map]
  rfl

theorem entries_fst (side : ℕ → ν) (xs : List (LatticeSite M N)) :
    (siteEntries nm side xs).map Prod.fst = (List.range xs.length).map side := by
  rw [siteEntries, List.map_map]
  have : (Prod.fst ∘ fun e : LatticeSite M N × ℕ => (side e.2, physName nm (sitePos e.1))) =
      side ∘ Prod.snd := rfl
  rw [this, ← List.map_map, List.zipIdx_map_snd, List.range_eq_range']

theorem entries_snd (side : ℕ → ν) (xs : List (LatticeSite M N)) :
    (siteEntries nm side xs).map Prod.snd = xs.map fun x => physName nm (sitePos x) := by
  rw [siteEntries, List.map_map]
  have : (Prod.snd ∘ fun e : LatticeSite M N × ℕ => (side e.2, physName nm (sitePos e.1))) =
      (fun x => physName nm (sitePos x)) ∘ Prod.fst := rfl
  rw [this, ← List.map_map, List.zipIdx_map_fst]

theorem mem_entries {side : ℕ → ν} {xs : List (LatticeSite M N)} {c : ν × ν} :
    c ∈ siteEntries nm side xs ↔ ∃ k, ∃ h : k < xs.length, c = (side k, physName nm (sitePos xs[k])) := by
  rw [siteEntries, List.mem_map]
  constructor
  · rintro ⟨⟨x, k⟩, hm, rfl⟩
    rw [List.mem_zipIdx_iff_getElem?] at hm
    dsimp only at hm ⊢
    obtain ⟨h, rfl⟩ := List.getElem?_eq_some_iff.1 hm
    exact ⟨k, h, rfl⟩
  · rintro ⟨k, h, rfl⟩
    refine ⟨(xs[k], k), ?_, rfl⟩
    rw [List.mem_zipIdx_iff_getElem?]
    exact List.getElem?_eq_getElem h

theorem entries_nodup_fst {side : ℕ → ν} (hs : Function.Injective side) (xs : List (LatticeSite M N)) :
    ((siteEntries nm side xs).map Prod.fst).Nodup := by
  rw [entries_fst]
  exact List.nodup_range.map hs

theorem entries_nodup_snd (hnm : Function.Injective nm) {side : ℕ → ν} {xs : List (LatticeSite M N)}
    (hx : xs.Nodup) : ((siteEntries nm side xs).map Prod.snd).Nodup := by
  rw [entries_snd]
  exact hx.map fun x y h => siteName_inj hnm h

theorem entries_find {side : ℕ → ν} (hs : Function.Injective side) (xs : List (LatticeSite M N)) {k : ℕ}
    (hk : k < xs.length) : OMap.find? (siteEntries nm side xs) (side k) = some (physName nm (sitePos xs[k])) :=
  OMap.find?_of_mem (entries_nodup_fst hs xs) (mem_entries.2 ⟨k, hk, rfl⟩)

theorem entries_find_none {side : ℕ → ν} (xs : List (LatticeSite M N)) {n : ν}
    (hn : ∀ k < xs.length, n ≠ side k) : OMap.find? (siteEntries nm side xs) n = none := by
  rw [OMap.find?_eq_none]
  intro h
  have h : n ∈ (siteEntries nm side xs).map Prod.fst := h
  rw [entries_fst] at h
  obtain ⟨k, hk, rfl⟩ := List.mem_map.1 h
  exact hn k (by simpa using hk) rfl

theorem entries_find_snd (hnm : Function.Injective nm) {side : ℕ → ν} (xs : List (LatticeSite M N))
    (hx : xs.Nodup) {k : ℕ} (hk : k < xs.length) :
    ((siteEntries nm side xs).find? fun c => decide (c.2 = physName nm (sitePos xs[k]))) =
      some (side k, physName nm (sitePos xs[k])) := by
  cases h : (siteEntries nm side xs).find? fun c => decide (c.2 = physName nm (sitePos xs[k])) with
  | some c =>
    obtain ⟨k', hk', rfl⟩ := mem_entries.1 (List.mem_of_find?_eq_some h)
    have := List.find?_some h
    have := siteName_inj hnm (by simpa using this)
    have : k' = k := (hx.getElem_inj_iff).1 this
    subst this
    rfl
  | none =>
    have := List.find?_eq_none.1 h _ (mem_entries.2 ⟨k, hk, rfl⟩)
    simp at this

theorem entries_find_snd_none {side : ℕ → ν} (xs : List (LatticeSite M N)) {n : ν}
    (hn : ∀ x ∈ xs, n ≠ physName nm (sitePos x)) :
    ((siteEntries nm side xs).find? fun c => decide (c.2 = n)) = none := by
  rw [List.find?_eq_none]
  intro c hc
  obtain ⟨k, hk, rfl⟩ := mem_entries.1 hc
  simpa using fun h => hn xs[k] (List.getElem_mem hk) h.symm

/-! ## Sums over configurations -/

theorem sumNames_configs [AddCommMonoid α] (hnm : Function.Injective nm) {dims : ν → ℕ}
    (hd : ∀ x : LatticeSite M N, dims (physName nm (sitePos x)) = d) {F : (ν → ℕ) → α}
    {G : SpinConfig M N d → α} (xs : List (LatticeSite M N)) (hx : xs.Nodup) (z : ν → ℕ)
    (s : SpinConfig M N d)
    (hF : ∀ z' s', (∀ x ∈ xs, z' (physName nm (sitePos x)) = (s' x).val) → (∀ x, x ∉ xs → s' x = s x) →
      (∀ n, (∀ x ∈ xs, n ≠ physName nm (sitePos x)) → z' n = z n) → F z' = G s') :
    sumNames dims F (xs.map fun x => physName nm (sitePos x)) z =
      ∑ s', if ∀ x, x ∉ xs → s' x = s x then G s' else 0 := by
  induction xs generalizing z s with
  | nil =>
    rw [List.map_nil, sumNames, hF z s (by simp) (fun _ _ => rfl) (fun _ _ => rfl), Finset.sum_eq_single s]
    · rw [if_pos fun _ _ => rfl]
    · intro s' _ hs
      rw [if_neg]
      intro h
      exact hs (funext fun x => h x (by simp))
    · intro h
      exact absurd (Finset.mem_univ _) h
  | cons x xs ih =>
    rw [List.nodup_cons] at hx
    rw [List.map_cons, sumNames, hd, Finset.sum_range]
    have step : ∀ k : Fin d, sumNames dims F (xs.map fun x => physName nm (sitePos x))
        (Function.update z (physName nm (sitePos x)) k.val) =
        ∑ s', if ∀ y, y ∉ xs → s' y = Function.update s x k y then G s' else 0 := by
      intro k
      refine ih hx.2 _ _ fun z' s' h1 h2 h3 => hF z' s' ?_ ?_ ?_
      · intro y hy
        rcases List.mem_cons.1 hy with rfl | hy
        · rw [h3 _ fun y' hy' h => hx.1 (by rw [siteName_inj hnm h]; exact hy'), Function.update_self,
            h2 _ hx.1, Function.update_self]
        · exact h1 y hy
      · intro y hy
        rw [List.mem_cons, not_or] at hy
        rw [h2 y hy.2, Function.update_of_ne hy.1]
      · intro n hn
        rw [h3 n fun y hy => hn y (List.mem_cons_of_mem _ hy), Function.update_of_ne (hn x (by simp))]
    rw [Finset.sum_congr rfl fun k _ => step k, Finset.sum_comm]
    refine Finset.sum_congr rfl fun s' _ => ?_
    rw [Finset.sum_eq_single (s' x)]
    · congr 1
      apply propext
      constructor
      · intro h y hy
        rw [List.mem_cons, not_or] at hy
        rw [h y hy.2, Function.update_of_ne hy.1]
      · intro h y hy
        by_cases e : y = x
        · rw [e, Function.update_self]
        · rw [Function.update_of_ne e, h y (by simp [e, hy])]
    · intro k _ hk
      rw [if_neg]
      intro h
      have := h x hx.1
      rw [Function.update_self] at this
      exact hk this.symm
    · intro h
      exact absurd (Finset.mem_univ _) h

end TAT
