import Verif.Tensor.Model

/-!
# Loops over the blocks of a tensor

Many functions of TAT have the shape
`for (const auto& [symmetries, block] : core->blocks) { auto& destination = result.core->blocks.at(f(symmetries)); … }`.
-/

namespace TAT

variable {σ α β : Type}

/-- One round: look the destination block up with `at` and let `body` change it. -/
def forBlocksStep [TatSym σ] (key : List σ → List σ)
    (body : List σ → List α → List β → Outcome (List β)) (dst : List (List σ × List β))
    (c : List σ × List α) : Outcome (List (List σ × List β)) :=
  match OMap.find? dst (key c.1) with
  | none => .error "map::at"
  | some d => (body c.1 c.2 d).bind fun d' => .ok (OMap.set dst (key c.1) d')

/-- The loop over all source blocks in order. -/
def forBlocks [TatSym σ] (key : List σ → List σ)
    (body : List σ → List α → List β → Outcome (List β)) (src : List (List σ × List α))
    (dst : List (List σ × List β)) : Outcome (List (List σ × List β)) :=
  src.foldlM (forBlocksStep key body) dst

/-- What the loop does when every source block has its own destination block. -/
theorem forBlocks_spec [TatSym σ] {key : List σ → List σ}
    {body : List σ → List α → List β → Outcome (List β)} {src : List (List σ × List α)}
    (val : List σ × List α → List β) {dst : List (List σ × List β)} (hs : OMap.Sorted dst)
    (hn : (src.map fun c => key c.1).Nodup)
    (hb : ∀ c ∈ src, ∃ d, OMap.find? dst (key c.1) = some d ∧ body c.1 c.2 d = .ok (val c)) :
    ∃ m, forBlocks key body src dst = .ok m ∧ OMap.Sorted m ∧
      (∀ k, k ∈ OMap.keys m ↔ k ∈ OMap.keys dst) ∧
      (∀ c ∈ src, OMap.find? m (key c.1) = some (val c)) ∧
      ∀ k, (∀ c ∈ src, key c.1 ≠ k) → OMap.find? m k = OMap.find? dst k := by
  induction src generalizing dst with
  | nil => exact ⟨dst, rfl, hs, fun _ => Iff.rfl, by simp, fun _ _ => rfl⟩
  | cons c src ih =>
    rw [List.map_cons, List.nodup_cons] at hn
    obtain ⟨d, hd, hbd⟩ := hb c (by simp)
    have hne : ∀ c' ∈ src, key c'.1 ≠ key c.1 := fun c' hc' he =>
      hn.1 (he ▸ List.mem_map_of_mem (f := fun c : List σ × List α => key c.1) hc')
    obtain ⟨m, h1, h2, h3, h4, h5⟩ := ih (dst := OMap.set dst (key c.1) (val c)) (hs.set _ _) hn.2
      fun c' hc' => by
        obtain ⟨d', hd', hbd'⟩ := hb c' (by simp [hc'])
        exact ⟨d', by rw [OMap.find?_set, if_neg (hne c' hc')]; exact hd', hbd'⟩
    refine ⟨m, ?_, h2, fun k => ?_, fun c' hc' => ?_, fun k hk => ?_⟩
    · unfold forBlocks at h1 ⊢
      rw [List.foldlM_cons]
      have : forBlocksStep key body dst c = .ok (OMap.set dst (key c.1) (val c)) := by
        unfold forBlocksStep
        simp only [hd, hbd]
        rfl
      rw [this]
      exact h1
    · rw [h3, OMap.mem_keys_set]
      constructor
      · rintro (rfl | h)
        · exact OMap.find?_isSome.1 (by rw [hd]; rfl)
        · exact h
      · exact Or.inr
    · rcases List.mem_cons.1 hc' with rfl | hc'
      · rw [h5 _ hne, OMap.find?_set, if_pos rfl]
      · exact h4 c' hc'
    · rw [h5 k fun c' hc' => hk c' (by simp [hc']), OMap.find?_set,
        if_neg (Ne.symm (hk c (by simp)))]

/-- A failing body ends the loop; `P` describes the shape of the destination blocks. -/
theorem forBlocks_error [TatSym σ] {key : List σ → List σ}
    {body : List σ → List α → List β → Outcome (List β)} {src : List (List σ × List α)}
    (P : List σ → List β → Prop) {dst : List (List σ × List β)}
    (hP : ∀ k d, OMap.find? dst k = some d → P k d)
    (hs : ∀ c ∈ src, ∀ d, P (key c.1) d →
      (∃ d', body c.1 c.2 d = .ok d' ∧ P (key c.1) d') ∨ (body c.1 c.2 d).isError = true)
    {c : List σ × List α} (hc : c ∈ src)
    (hb : ∀ d, P (key c.1) d → (body c.1 c.2 d).isError = true) :
    (forBlocks key body src dst).isError = true := by
  induction src generalizing dst with
  | nil => simp at hc
  | cons x src ih =>
    unfold forBlocks
    rw [List.foldlM_cons]
    cases hd : OMap.find? dst (key x.1) with
    | none =>
      have : forBlocksStep key body dst x = .error "map::at" := by
        unfold forBlocksStep; rw [hd]
      rw [this]; rfl
    | some d =>
      have hstep : forBlocksStep key body dst x =
          (body x.1 x.2 d).bind fun d' => .ok (OMap.set dst (key x.1) d') := by
        unfold forBlocksStep; rw [hd]
      rw [hstep]
      have herr : (body x.1 x.2 d).isError = true →
          (((body x.1 x.2 d).bind fun d' => .ok (OMap.set dst (key x.1) d')) >>=
            fun s' => List.foldlM (forBlocksStep key body) s' src).isError = true := by
        cases body x.1 x.2 d <;> simp [Outcome.isError, Outcome.bind]
      rcases List.mem_cons.1 hc with rfl | hc
      · exact herr (hb d (hP _ _ hd))
      · rcases hs x (by simp) d (hP _ _ hd) with ⟨d', h, hd'⟩ | h
        · rw [h]
          refine ih (dst := OMap.set dst (key x.1) d') (fun k v hk => ?_)
            (fun c' h' => hs c' (by simp [h'])) hc
          rw [OMap.find?_set] at hk
          split at hk
          · rename_i he
            rw [he, ← Option.some.inj hk]; exact hd'
          · exact hP k v hk
        · exact herr h

/-- A loop of writes to an array; `W` gives the value written to each place. -/
theorem foldlM_writes {ι : Type} {N : ℕ} {step : List α → ι → Outcome (List α)} {l : List ι}
    (pos : ι → ℕ) (W : ℕ → Option α)
    (hstep : ∀ x ∈ l, pos x < N ∧ ∃ v, W (pos x) = some v ∧
      ∀ d : List α, d.length = N → step d x = .ok (d.set (pos x) v))
    {d : List α} (hd : d.length = N) :
    ∃ d', l.foldlM step d = .ok d' ∧ d'.length = N ∧
      (∀ x ∈ l, d'[pos x]? = W (pos x)) ∧ ∀ i, (∀ x ∈ l, pos x ≠ i) → d'[i]? = d[i]? := by
  induction l generalizing d with
  | nil => exact ⟨d, rfl, hd, by simp, fun _ _ => rfl⟩
  | cons x l ih =>
    obtain ⟨hx, v, hv, hs⟩ := hstep x (by simp)
    obtain ⟨d', h1, h2, h3, h4⟩ := ih (fun y hy => hstep y (by simp [hy]))
      (d := d.set (pos x) v) (by simpa using hd)
    refine ⟨d', ?_, h2, fun y hy => ?_, fun i hi => ?_⟩
    · rw [List.foldlM_cons, hs d hd]
      exact h1
    · rcases List.mem_cons.1 hy with rfl | hy
      · by_cases hex : ∃ z ∈ l, pos z = pos y
        · obtain ⟨z, hz, he⟩ := hex
          rw [← he, h3 z hz]
        · rw [h4 _ fun z hz he => hex ⟨z, hz, he⟩, List.getElem?_set_self (by rw [hd]; exact hx), hv]
      · exact h3 y hy
    · rw [h4 i fun y hy => hi y (by simp [hy]), List.getElem?_set_ne (hi x (by simp))]

theorem foldlM_congr {S ι : Type} {f g : S → ι → Outcome S} {l : List ι}
    (h : ∀ x ∈ l, ∀ s, f s x = g s x) (s : S) : l.foldlM f s = l.foldlM g s := by
  induction l generalizing s with
  | nil => rfl
  | cons x l ih =>
    rw [List.foldlM_cons, List.foldlM_cons, h x (by simp)]
    congr 1
    funext s'
    exact ih (fun y hy => h y (by simp [hy])) s'

end TAT
