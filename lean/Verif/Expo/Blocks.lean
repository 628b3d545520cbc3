import Verif.Expo.Run
import Verif.Expo.Model
import Verif.Decomp.Factor

/-!
# All blocks of the merged matrix
-/

set_option linter.unusedSectionVars false

namespace TAT

variable {ν σ α ρ : Type} [LinearOrder ν] [TatSym σ]

theorem expFold {f : List (List σ × List α) → List σ × List α → Outcome (List (List σ × List α))}
    {P : List σ × List α → List α → Prop} {l : List (List σ × List α)}
    (hn : (l.map Prod.fst).Nodup)
    (hstep : ∀ b ∈ l, ∀ m dst, OMap.find? m b.1 = some dst → dst.length = b.2.length →
      ∃ r, f m b = .ok (OMap.set m b.1 r) ∧ r.length = b.2.length ∧ P b r)
    {m : List (List σ × List α)} (hs : OMap.Sorted m)
    (hm : ∀ b ∈ l, ∃ dst, OMap.find? m b.1 = some dst ∧ dst.length = b.2.length) :
    ∃ m', l.foldlM f m = .ok m' ∧
      m'.map (fun b => (b.1, b.2.length)) = m.map (fun b => (b.1, b.2.length)) ∧
      (∀ k, k ∉ l.map Prod.fst → OMap.find? m' k = OMap.find? m k) ∧
      ∀ b ∈ l, ∃ r, OMap.find? m' b.1 = some r ∧ P b r := by
  induction l generalizing m with
  | nil => exact ⟨m, rfl, rfl, fun _ _ => rfl, by simp⟩
  | cons b l ih =>
    rw [List.map_cons, List.nodup_cons] at hn
    have hne : ∀ c ∈ l, c.1 ≠ b.1 := fun c hc hbc => hn.1 (hbc ▸ List.mem_map_of_mem hc)
    obtain ⟨dst, d1, d2⟩ := hm b List.mem_cons_self
    obtain ⟨r, r1, r2, r3⟩ := hstep b List.mem_cons_self m dst d1 d2
    obtain ⟨m', a1, a2, a3, a4⟩ := ih hn.2 (fun c hc => hstep c (List.mem_cons_of_mem _ hc))
      (hs.set b.1 r) (fun c hc => by
        rw [OMap.find?_set, if_neg (hne c hc)]
        exact hm c (List.mem_cons_of_mem _ hc))
    refine ⟨m', ?_, ?_, fun k hk => ?_, fun c hc => ?_⟩
    · rw [List.foldlM_cons, r1]
      exact a1
    · rw [a2]
      exact set_shapes hs d1 (by rw [r2, d2])
    · rw [List.map_cons, List.mem_cons, not_or] at hk
      rw [a3 k hk.2, OMap.find?_set, if_neg hk.1]
    · rcases List.mem_cons.1 hc with e | hc
      · refine ⟨r, ?_, e ▸ r3⟩
        rw [e, a3 b.1 hn.1, OMap.find?_set, if_pos rfl]
      · exact a4 c hc

/-- The blocks of a matrix with equal row and column dimensions. -/
theorem expBlocks_spec [Field α] [Zero ρ] [LT ρ] [DecidableLT ρ] {lib : ExpoLib α ρ}
    (junk : ℕ → α) (shape : List σ → ℕ → α) (step : ℕ) {M : Tensor ν σ α} {F C : Edge σ} (h : WF M)
    (he : M.core.edges = [F, C]) {P : σ → List α → List α → Prop}
    (hd : ∀ s ∈ OMap.keys F.map, dimOf C (-s) = dimOf F s)
    (hP : ∀ s ∈ OMap.keys F.map, ∀ d f, OMap.find? M.core.blocks [s, -s] = some d →
      d.length = dimOf F s * dimOf F s → f.length = dimOf F s * dimOf F s →
      ∃ r, matrixExponential lib junk (dimOf F s) d f step = .ok r ∧
        r.length = dimOf F s * dimOf F s ∧ P s d r) :
    ∃ R blocks, sameShape shape M = .ok R ∧ R.names = M.names ∧ R.core.edges = M.core.edges ∧
      M.core.blocks.foldlM (expBlock lib junk step M.core.edges) R.core.blocks = .ok blocks ∧
      WF (⟨M.names, ⟨M.core.edges, blocks⟩⟩ : Tensor ν σ α) ∧
      ∀ s ∈ OMap.keys F.map, ∃ d r, OMap.find? M.core.blocks [s, -s] = some d ∧
        OMap.find? blocks [s, -s] = some r ∧ P s d r := by
  have hF : ∀ s ∈ OMap.keys F.map, OMap.find? F.map s = some (dimOf F s) := by
    intro s hs
    obtain ⟨u, hu⟩ := Option.isSome_iff_exists.1 (OMap.find?_isSome.2 hs)
    rw [dimOf, hu]; rfl
  have hFC : ∀ s, s ∈ OMap.keys F.map → -s ∈ OMap.keys C.map := fun s => two_keys h (r := true) he
  have hblock : ∀ s ∈ OMap.keys F.map, ∃ d, OMap.find? M.core.blocks [s, -s] = some d ∧
      d.length = dimOf F s * dimOf F s := by
    intro s hs
    obtain ⟨d, d1, d2, -⟩ := two_block h (r := true) he hs (hFC s hs) (add_neg_cancel s)
    exact ⟨d, d1, by rw [d2, hd s hs]⟩
  have hfs := freshBlocks_sorted shape h.sortedMaps
  have hsh : (freshBlocks shape (M.core.edges.map Edge.map)).map (fun b => (b.1, b.2.length)) =
      blockShapes (M.core.edges.map Edge.map) := by
    simp [freshBlocks, Function.comp_def]
  have hshM := h.blocks
  have hsM := h.blocksSorted
  obtain ⟨blocks, b1, b2, -, b4⟩ := expFold (f := expBlock lib junk step M.core.edges)
    (P := fun b r => ∃ s ∈ OMap.keys F.map, b.1 = [s, -s] ∧ P s b.2 r) (l := M.core.blocks)
    (m := freshBlocks shape (M.core.edges.map Edge.map)) hsM.nodup (by
      intro b hb m dst h1 h2
      obtain ⟨s, hk, hs⟩ := (two_key_iff h he b.1).1 (List.mem_map_of_mem hb)
      have hfind := OMap.find?_of_mem hsM.nodup hb
      obtain ⟨d, d1, d2⟩ := hblock s hs
      rw [hk, d1, Option.some.injEq] at hfind
      rw [← hfind] at h2 ⊢
      obtain ⟨r, r1, r2, r3⟩ := hP s hs d dst d1 d2 (by rw [h2, d2])
      refine ⟨r, ?_, by rw [r2, d2], s, hs, hk, r3⟩
      unfold expBlock
      rw [h1, he]
      dsimp only
      rw [hk]
      dsimp only
      rw [hF s hs]
      dsimp only
      rw [← hfind, r1]
      rfl) hfs (by
      intro b hb
      have : (b.1, b.2.length) ∈ (freshBlocks shape (M.core.edges.map Edge.map)).map
          (fun b => (b.1, b.2.length)) := by
        rw [hsh, ← hshM]
        exact List.mem_map.2 ⟨b, hb, rfl⟩
      obtain ⟨c, hc, e⟩ := List.mem_map.1 this
      rw [Prod.mk.injEq] at e
      exact ⟨c.2, by rw [← e.1]; exact OMap.find?_of_mem hfs.nodup hc, e.2⟩)
  refine ⟨_, blocks, sameShape_eq shape h, rfl, rfl, b1, ?_, fun s hs => ?_⟩
  · exact ⟨h.rank, h.nodup, h.sorted, by rw [b2, hsh], h.pruned⟩
  · obtain ⟨d, d1, d2⟩ := hblock s hs
    obtain ⟨r, r1, s', _, r3, r4⟩ := b4 ([s, -s], d) (OMap.mem_of_find? d1)
    obtain rfl : s = s' := by simpa using r3
    exact ⟨d, r, d1, r1, r4⟩

end TAT
