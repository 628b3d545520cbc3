import Verif.Core.Lemmas

/-!
# What the constructor of `Core` produces
-/

namespace TAT

variable {σ α : Type}

/-- marks described by a predicate -/
def marksOf [TatSym σ] (maps : List (List (σ × ℕ))) (f : ℕ → σ → Bool) : List (List (σ × Bool)) :=
  (List.range maps.length).map fun i => (maps.getD i []).map fun p => (p.1, f i p.1)

theorem marksOf_getD [TatSym σ] (maps : List (List (σ × ℕ))) (f : ℕ → σ → Bool) {i : ℕ}
    (h : i < maps.length) :
    (marksOf maps f).getD i [] = (maps.getD i []).map fun p => (p.1, f i p.1) := by
  rw [List.getD_eq_getElem _ _ (by simpa [marksOf] using h)]
  simp [marksOf]

theorem sorted_mapVal [TatSym σ] {β γ : Type} {m : List (σ × β)} (h : OMap.Sorted m)
    (f : σ × β → γ) : OMap.Sorted (m.map fun p => (p.1, f p)) := by
  unfold OMap.Sorted at *
  rw [List.map_map]
  exact h

theorem sorted_getD [TatSym σ] {maps : List (List (σ × ℕ))} (h : ∀ m ∈ maps, OMap.Sorted m)
    (i : ℕ) : OMap.Sorted (maps.getD i []) := by
  by_cases hi : i < maps.length
  · rw [List.getD_eq_getElem _ _ hi]
    exact h _ (List.getElem_mem hi)
  · rw [List.getD_eq_default _ _ (by omega)]
    exact List.Pairwise.nil

theorem set_marks [TatSym σ] {m : List (σ × ℕ)} (hm : OMap.Sorted m) (g : σ → Bool) {k : σ}
    (hk : k ∈ OMap.keys m) :
    OMap.set (m.map fun p => (p.1, g p.1)) k false =
      m.map fun p => (p.1, g p.1 && !decide (p.1 = k)) := by
  apply OMap.ext
  · exact (sorted_mapVal hm (fun p => g p.1)).set _ _
  · exact sorted_mapVal hm (fun p => g p.1 && !decide (p.1 = k))
  · intro k'
    rw [OMap.find?_set, OMap.find?_map_val m (fun s _ => g s), OMap.find?_map_val m
      (fun s _ => g s && !decide (s = k))]
    by_cases h : k' = k
    · subst h
      have : (OMap.find? m k').isSome := OMap.find?_isSome.2 hk
      obtain ⟨v, hv⟩ := Option.isSome_iff_exists.1 this
      simp [hv]
    · simp [h]

theorem clearMarks_aux [TatSym σ] {maps : List (List (σ × ℕ))} (hs : ∀ m ∈ maps, OMap.Sorted m)
    (c : List σ) (hc : ∀ i, i < maps.length → c.getD i 0 ∈ OMap.keys (maps.getD i []))
    (L : List ℕ) (hL : ∀ i ∈ L, i < maps.length) (f : ℕ → σ → Bool) :
    L.foldlM (clearMark c) (marksOf maps f) =
    .ok (marksOf maps fun i s => f i s && !(decide (i ∈ L) && decide (s = c.getD i 0))) := by
  induction L generalizing f with
  | nil => simp
  | cons j L ih =>
    have hj := hL j (by simp)
    rw [List.foldlM_cons, clearMark, marksOf_getD _ _ hj]
    have hfind : (OMap.find? ((maps.getD j []).map fun p => (p.1, f j p.1)) (c.getD j 0)).isSome := by
      rw [OMap.find?_map_val _ (fun s _ => f j s), Option.isSome_map]
      exact OMap.find?_isSome.2 (hc j hj)
    obtain ⟨v, hv⟩ := Option.isSome_iff_exists.1 hfind
    rw [hv]
    dsimp only
    rw [set_marks (sorted_getD hs j) _ (hc j hj)]
    have hset : (marksOf maps f).set j ((maps.getD j []).map
        fun p => (p.1, f j p.1 && !decide (p.1 = c.getD j 0))) =
        marksOf maps fun i s => f i s && !(decide (i = j) && decide (s = c.getD i 0)) := by
      apply List.ext_getElem
      · simp [marksOf]
      · intro i h1 h2
        have hi : i < maps.length := by simpa [marksOf] using h2
        rw [List.getElem_set]
        by_cases hij : j = i
        · subst hij
          simp [marksOf]
        · rw [if_neg hij]
          simp [marksOf, Ne.symm hij]
    rw [hset, Outcome.ok_bind, ih (fun i hi => hL i (by simp [hi]))]
    congr 2
    funext i s
    rw [Bool.and_assoc]
    congr 1
    by_cases hij : i = j <;> by_cases hiL : i ∈ L <;> cases h : decide (s = c.getD i 0) <;>
      simp_all

theorem clearMarks_spec [TatSym σ] {maps : List (List (σ × ℕ))} (hs : ∀ m ∈ maps, OMap.Sorted m)
    (c : List σ) (hc : ∀ i, i < maps.length → c.getD i 0 ∈ OMap.keys (maps.getD i []))
    (f : ℕ → σ → Bool) :
    clearMarks (marksOf maps f) c =
      .ok (marksOf maps fun i s => f i s && !decide (s = c.getD i 0)) := by
  unfold clearMarks
  rw [clearMarks_aux hs c hc _ (by simp [marksOf])]
  congr 1
  apply List.map_congr_left
  intro i hi
  apply List.map_congr_left
  intro p _
  simp [marksOf, List.mem_range.1 hi]

theorem clearAll_spec [TatSym σ] {β : Type} {maps : List (List (σ × ℕ))}
    (hs : ∀ m ∈ maps, OMap.Sorted m) (bs : List (List σ × β))
    (hc : ∀ b ∈ bs, ∀ i, i < maps.length → b.1.getD i 0 ∈ OMap.keys (maps.getD i []))
    (f : ℕ → σ → Bool) :
    bs.foldlM (fun marks p => clearMarks marks p.1) (marksOf maps f) =
      .ok (marksOf maps fun i s => f i s && !bs.any fun b => decide (s = b.1.getD i 0)) := by
  induction bs generalizing f with
  | nil => simp
  | cons b bs ih =>
    rw [List.foldlM_cons, clearMarks_spec hs b.1 (hc b (by simp)), Outcome.ok_bind,
      ih (fun b' hb' => hc b' (by simp [hb']))]
    congr 2
    funext i s
    simp [Bool.and_assoc]

theorem initialMark_eq [TatSym σ] {e : Edge σ} (h : OMap.Sorted e.map) :
    initialMark e = e.map.map fun p => (p.1, true) := by
  unfold initialMark
  have := OMap.ofList_sorted (l := e.map.map fun p => (p.1, true)) (sorted_mapVal h fun _ => true)
  unfold OMap.ofList at this
  rw [List.foldl_map] at this
  exact this

theorem foldl_erase [TatSym σ] (l : List (σ × Bool)) (m : List (σ × ℕ)) :
    l.foldl (fun m p => if p.2 then OMap.erase m p.1 else m) m =
      m.filter fun e => !l.any fun p => p.2 && decide (e.1 = p.1) := by
  induction l generalizing m with
  | nil => simp
  | cons p l ih =>
    rw [List.foldl_cons, ih]
    by_cases hp : p.2
    · simp only [hp, if_true, OMap.erase, List.filter_filter, List.any_cons, Bool.true_and,
        Bool.not_or]
      congr 1
      funext e
      rw [Bool.and_comm]
    · simp [hp]

theorem pruneEdge_eq [TatSym σ] (e : Edge σ) (g : σ → Bool) :
    pruneEdge e (e.map.map fun p => (p.1, g p.1)) =
      { e with map := e.map.filter fun p => !g p.1 } := by
  unfold pruneEdge
  rw [foldl_erase]
  congr 1
  apply List.filter_congr
  intro p hp
  congr 1
  rw [Bool.eq_iff_iff]
  simp only [List.any_map, List.any_eq_true, Function.comp, Bool.and_eq_true, decide_eq_true_eq]
  constructor
  · rintro ⟨q, _, h1, h2⟩; rw [h2]; exact h1
  · intro h; exact ⟨p, hp, h, rfl⟩

theorem getD_map_edge (edges : List (Edge σ)) (i : ℕ) :
    (edges.map Edge.map).getD i [] = (edges.getD i {}).map := by
  simp only [List.getD_eq_getElem?_getD, List.getElem?_map]
  cases edges[i]? <;> rfl

theorem mem_keys_of_block [TatSym σ] {maps : List (List (σ × ℕ))} {b : List σ × ℕ}
    (hb : b ∈ blockShapes maps) :
    b.1.length = maps.length ∧
      ∀ i, i < maps.length → b.1.getD i 0 ∈ OMap.keys (maps.getD i []) := by
  obtain ⟨c, h1, _, rfl⟩ := mem_blockShapes.1 hb
  have hl := h1.length_eq
  refine ⟨by simp [hl], ?_⟩
  intro i hi
  have := List.Forall₂.get h1 hi (by omega)
  simp only [List.get_eq_getElem] at this
  rw [List.getD_eq_getElem _ _ hi, List.getD_eq_getElem _ _ (by rw [List.length_map]; omega)]
  simp only [List.getElem_map]
  exact List.mem_map_of_mem this

/-- The edges after the optional arrow reversal (core.hpp 141-147). -/
def arrowed [TatSym σ] (edges : List (Edge σ)) (autoReverse : Bool) : List (Edge σ) :=
  if TatSym.isFermi σ && autoReverse then edges.map possibleReverse else edges

theorem possibleReverse_map [TatSym σ] (e : Edge σ) : (possibleReverse e).map = e.map := by
  unfold possibleReverse; split <;> rfl

theorem arrowed_maps [TatSym σ] (edges : List (Edge σ)) (r : Bool) :
    (arrowed edges r).map Edge.map = edges.map Edge.map := by
  unfold arrowed
  split
  · rw [List.map_map]; apply List.map_congr_left; intro e _; exact possibleReverse_map e
  · rfl

/-- The blocks of a fresh core. -/
def freshBlocks [TatSym σ] (junk : List σ → ℕ → α) (maps : List (List (σ × ℕ))) :
    List (List σ × List α) :=
  (blockShapes maps).map fun p => (p.1, (List.range p.2).map (junk p.1))

theorem freshBlocks_sorted [TatSym σ] (junk : List σ → ℕ → α) {maps : List (List (σ × ℕ))}
    (h : ∀ m ∈ maps, OMap.Sorted m) : OMap.Sorted (freshBlocks junk maps) := by
  have := blockShapes_sorted h
  unfold OMap.Sorted at *
  unfold freshBlocks
  rw [List.map_map]
  exact this

/-- The edges of a fresh core. -/
def prunedEdges [TatSym σ] (edges : List (Edge σ)) : List (Edge σ) :=
  edges.mapIdx fun i e =>
    { e with map := e.map.filter fun p => usedAt (edges.map Edge.map) i p.1 }

theorem newCore_eq [TatSym σ] (junk : List σ → ℕ → α) (edges : List (Edge σ)) (r : Bool)
    (hs : ∀ e ∈ edges, OMap.Sorted e.map) :
    newCore junk edges r =
      .ok ⟨prunedEdges (arrowed edges r), freshBlocks junk (edges.map Edge.map)⟩ := by
  unfold newCore
  have hA : (if TatSym.isFermi σ && r then edges.map possibleReverse else edges) =
    arrowed edges r := rfl
  simp only [hA]
  have hmaps := arrowed_maps edges r
  have hs' : ∀ e ∈ arrowed edges r, OMap.Sorted e.map := by
    intro e he
    have : e.map ∈ (arrowed edges r).map Edge.map := List.mem_map_of_mem he
    rw [hmaps] at this
    obtain ⟨e', he', heq⟩ := List.mem_map.1 this
    rw [← heq]; exact hs e' he'
  generalize arrowed edges r = E at *
  rw [← hmaps]
  clear hmaps hs
  have hsm : ∀ m ∈ E.map Edge.map, OMap.Sorted m := by
    intro m hm
    obtain ⟨e, he, rfl⟩ := List.mem_map.1 hm
    exact hs' e he
  have hblocks : (initBlocks E).foldl
      (fun m p => OMap.set m p.1 ((List.range p.2).map (junk p.1))) [] =
      freshBlocks junk (E.map Edge.map) := by
    rw [initBlocks_eq]
    have := OMap.ofList_sorted (freshBlocks_sorted junk hsm)
    unfold OMap.ofList freshBlocks at this
    rw [List.foldl_map] at this
    exact this
  have hmarks : E.map initialMark = marksOf (E.map Edge.map) (fun _ _ => true) := by
    unfold marksOf
    apply List.ext_getElem
    · simp
    · intro i h1 h2
      have hi : i < E.length := by simpa using h1
      simp only [List.getElem_map, List.getElem_range]
      rw [initialMark_eq (hs' _ (List.getElem_mem hi)), getD_map_edge, List.getD_eq_getElem _ _ hi]
  rw [hblocks, hmarks, clearAll_spec hsm]
  · simp only [Outcome.bind]
    congr 2
    unfold prunedEdges
    apply List.ext_getElem
    · simp
    · intro i h1 h2
      have hi : i < E.length := by simpa using h1
      simp only [List.getElem_map, List.getElem_range, List.getElem_mapIdx]
      rw [marksOf_getD _ _ (by simpa using hi), getD_map_edge, List.getD_eq_getElem _ _ hi,
        pruneEdge_eq E[i] (fun s => true && !(freshBlocks junk (List.map Edge.map E)).any
          fun b => decide (s = b.1.getD i 0))]
      congr 1
      apply List.filter_congr
      intro p _
      simp only [Bool.true_and, Bool.not_not, usedAt, freshBlocks, List.any_map]
      rw [Bool.eq_iff_iff]
      simp only [List.any_eq_true, Function.comp, decide_eq_true_eq]
      constructor
      · rintro ⟨b, hb, h⟩
        refine ⟨b, hb, ?_⟩
        have hl := (mem_keys_of_block hb).1
        rw [List.getD_eq_getElem _ _ (by rw [hl]; simpa using hi)] at h
        rw [List.getElem?_eq_getElem (by rw [hl]; simpa using hi), h]
      · rintro ⟨b, hb, h⟩
        refine ⟨b, hb, ?_⟩
        rw [List.getD_eq_getElem?_getD, h]; rfl
  · intro b hb i hi
    obtain ⟨b', hb', rfl⟩ := List.mem_map.1 hb
    exact (mem_keys_of_block hb').2 i hi

end TAT
