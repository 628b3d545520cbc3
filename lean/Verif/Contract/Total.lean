import Verif.Contract.Laws

/-!
# Helper lemmas: the sum over all positions of a tensor is the sum over all of its blocks
-/

set_option linter.unusedSectionVars false

namespace TAT

variable {ν σ α β γ : Type}

theorem overlayAll_map [DecidableEq ν] {ns : List ν} (hn : ns.Nodup) {x : List β}
    (hl : x.length = ns.length) (w : ν → β) : ns.map (overlayAll ns x w) = x := by
  induction ns generalizing x w with
  | nil => rw [List.length_nil, List.length_eq_zero_iff] at hl; rw [hl]; rfl
  | cons n ns ih =>
    rw [List.nodup_cons] at hn
    cases x with
    | nil => simp at hl
    | cons y x =>
      rw [List.map_cons, overlayAll, overlayAll_free hn.1, Function.update_self,
        ih hn.2 (by simpa using hl)]

theorem choices_length {ms : List (List β)} {x : List β} (h : x ∈ choices ms) :
    x.length = ms.length :=
  (mem_choices.1 h).length_eq.symm

section
variable [AddCommMonoid γ]

theorem sum_flatMap {δ : Type} (l : List δ) (k : δ → List β) (f : β → γ) :
    ((l.flatMap k).map f).sum = (l.map fun x => ((k x).map f).sum).sum := by
  rw [List.map_flatMap, List.flatMap_def, List.sum_flatten, List.map_map]
  rfl

/-- Choosing a position of every edge is choosing a symmetry of every edge and an index tuple. -/
theorem sum_choices (g : List σ → List ℕ → γ) (ms : List (List (σ × ℕ))) :
    ((choices (ms.map edgePositions)).map fun x => g (x.map Prod.fst) (x.map Prod.snd)).sum =
      ((choices ms).map fun c =>
        ((tuples (c.map Prod.snd)).map fun idx => g (c.map Prod.fst) idx).sum).sum := by
  induction ms generalizing g with
  | nil => simp [choices, tuples]
  | cons m ms ih =>
    rw [List.map_cons, choices, choices, sum_flatMap, sum_flatMap]
    unfold edgePositions
    rw [sum_flatMap]
    congr 1
    refine List.map_congr_left fun e _ => ?_
    rw [List.map_map, List.map_map]
    have := fun i => ih fun k idx => g (e.1 :: k) (i :: idx)
    simp only [Function.comp_def, List.map_map, List.map_cons, tuples] at this ⊢
    change ((List.range e.2).map fun i => ((choices (ms.map edgePositions)).map fun x =>
      g (e.1 :: x.map Prod.fst) (i :: x.map Prod.snd)).sum).sum = _
    rw [List.map_congr_left fun i _ => this i, sum_map_comm]
    congr 1
    refine List.map_congr_left fun c _ => ?_
    rw [sum_flatMap]
    simp only [List.map_map, Function.comp_def]

end

section
variable [LinearOrder ν] [TatSym σ]

theorem choices_dims {edges : List (Edge σ)} (hs : ∀ e ∈ edges, OMap.Sorted e.map)
    {c : List (σ × ℕ)} (hc : c ∈ choices (edges.map Edge.map)) :
    c.map Prod.snd = dimsOf edges (c.map Prod.fst) := by
  rw [mem_choices, List.forall₂_map_left_iff] at hc
  induction hc with
  | nil => rfl
  | @cons e x es c h _ ih =>
    rw [List.map_cons, List.map_cons, dimsOf, List.zipWith_cons_cons,
      ih fun e he => hs e (List.mem_cons_of_mem _ he), dimsOf]
    congr 1
    unfold dimOf
    rw [OMap.find?_of_mem (hs e List.mem_cons_self).nodup h]
    rfl

/-- The sum over all positions, zero where there is no element. -/
theorem total_sum [Zero α] [AddCommMonoid γ] {t : Tensor ν σ α} (h : Shaped t)
    (f : List σ → α → γ) (hf : ∀ k, f k 0 = 0) (w0 : ν → σ × ℕ) :
    sumOver (fun n => edgePositions (mapOf t n)) (fun w => f (keyOf t.names w) (amp t w)) t.names w0 =
      (t.core.blocks.map fun b => (b.2.map (f b.1)).sum).sum := by
  let g : List σ → List ℕ → γ := fun k idx =>
    if k.sum = 0 then f k ((elemAt t.core k idx).getD 0) else 0
  rw [sumOver_congr (F' := fun w => g (keyOf t.names w) (idxOf t.names w)) h.nodup fun w hw _ => ?_]
  swap
  · show _ = if (keyOf t.names w).sum = 0 then _ else _
    have hd : ∀ x ∈ t.names.zip t.core.edges, (w x.1).2 < dimOf x.2 (w x.1).1 := by
      intro x hx
      rw [zip_named' h] at hx
      obtain ⟨n, hn, rfl⟩ := List.mem_map.1 hx
      exact (mem_edgePositions (mapOf_sorted' h n hn)).1 (hw n hn)
    unfold amp
    by_cases h0 : (keyOf t.names w).sum = 0
    · rw [if_pos h0, if_pos ⟨hd, h0⟩]
      rfl
    · rw [if_neg h0, if_neg fun hc => h0 hc.2, hf]
  rw [sumOver_choices]
  have e1 : ((choices (t.names.map fun n => edgePositions (mapOf t n))).map fun x =>
      g (keyOf t.names (overlayAll t.names x w0)) (idxOf t.names (overlayAll t.names x w0))).sum =
      ((choices ((t.core.edges.map Edge.map).map edgePositions)).map fun x =>
        g (x.map Prod.fst) (x.map Prod.snd)).sum := by
    have he : (t.core.edges.map Edge.map).map edgePositions =
        t.names.map fun n => edgePositions (mapOf t n) := by
      rw [edges_named' h, List.map_map, List.map_map]
      rfl
    rw [he]
    congr 1
    refine List.map_congr_left fun x hx => ?_
    have hm := overlayAll_map h.nodup (x := x) (by simpa using choices_length hx) w0
    have k1 : keyOf t.names (overlayAll t.names x w0) = x.map Prod.fst := by
      conv_rhs => rw [← hm]
      rw [List.map_map]
      rfl
    have k2 : idxOf t.names (overlayAll t.names x w0) = x.map Prod.snd := by
      conv_rhs => rw [← hm]
      rw [List.map_map]
      rfl
    rw [k1, k2]
  rw [e1, sum_choices]
  let K : List σ → γ := fun k => (((OMap.find? t.core.blocks k).getD []).map (f k)).sum
  have e2 : ∀ c ∈ choices (t.core.edges.map Edge.map),
      ((tuples (c.map Prod.snd)).map fun idx => g (c.map Prod.fst) idx).sum =
        if (c.map Prod.fst).sum = 0 then K (c.map Prod.fst) else 0 := by
    intro c hc
    by_cases h0 : (c.map Prod.fst).sum = 0
    swap
    · rw [if_neg h0]
      refine List.sum_eq_zero fun x hx => ?_
      obtain ⟨idx, -, rfl⟩ := List.mem_map.1 hx
      exact if_neg h0
    rw [if_pos h0]
    have hdims := choices_dims h.sorted hc
    have hmem : (c.map Prod.fst, (c.map Prod.snd).prod) ∈
        t.core.blocks.map fun b => (b.1, b.2.length) := by
      rw [h.blocks]
      exact List.mem_map.2 ⟨c, List.mem_filter.2 ⟨hc, decide_eq_true h0⟩, rfl⟩
    obtain ⟨b, hb, hbe⟩ := List.mem_map.1 hmem
    rw [Prod.mk.injEq] at hbe
    have hfind : OMap.find? t.core.blocks (c.map Prod.fst) = some b.2 := by
      rw [← hbe.1]
      exact OMap.find?_of_mem h.blocksSorted.nodup hb
    show _ = (((OMap.find? t.core.blocks (c.map Prod.fst)).getD []).map _).sum
    rw [hfind, Option.getD_some, tuples_eq, List.map_map, ← hbe.2]
    congr 1
    refine List.ext_getElem (by simp) fun i hi hi' => ?_
    rw [List.length_map, List.length_range] at hi
    simp only [List.getElem_map, List.getElem_range, Function.comp_apply]
    show (if _ then f _ ((elemAt t.core (c.map Prod.fst) _).getD 0) else 0) = _
    rw [if_pos h0]
    unfold elemAt
    rw [hfind, Option.bind_some, ← hdims, rowMajor_unravel (by rw [← hbe.2]; exact hi),
      List.getElem?_eq_getElem hi, Option.getD_some]
  rw [List.map_congr_left e2]
  have e3 : (t.core.blocks.map fun b => (b.2.map (f b.1)).sum) =
      (blockShapes (t.core.edges.map Edge.map)).map fun b => K b.1 := by
    rw [← h.blocks, List.map_map]
    refine List.map_congr_left fun b hb => ?_
    show _ = (((OMap.find? t.core.blocks b.1).getD []).map _).sum
    rw [OMap.find?_of_mem h.blocksSorted.nodup hb, Option.getD_some]
  rw [e3]
  unfold blockShapes
  rw [List.map_map]
  generalize choices (t.core.edges.map Edge.map) = L
  induction L with
  | nil => rfl
  | cons c L ih =>
    rw [List.map_cons, List.sum_cons, ih, List.filter_cons]
    by_cases h0 : (c.map Prod.fst).sum = 0
    · rw [if_pos h0, if_pos (decide_eq_true h0), List.map_cons, List.sum_cons]
      rfl
    · rw [if_neg h0, if_neg (by simpa using h0), zero_add]

end

end TAT
