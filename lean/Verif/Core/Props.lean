import Verif.Core.NewCore
import Mathlib.Algebra.BigOperators.Ring.List

/-!
# Properties C06, C07, C08, C49
-/

namespace TAT

variable {σ α : Type}

/-! ## C06 enumeration -/

/-- C06: `loop_edge` is the fold of the visitor over all combinations in row-major order; before
each visit the hint is lowered to the length of the prefix shared with the previous combination. -/
theorem C06_loop_edge {S : Type} (maps : List (List (σ × ℕ))) (rank0 dims0 : S → S)
    (operate : List ℕ → ℕ → S → ℕ × S) (s : S) (h0 : maps ≠ []) (h1 : [] ∉ maps) :
    loopEdge maps rank0 dims0 operate s =
      ((tuples (maps.map List.length)).foldl (visitStep operate) ([], 0, s)).2.2 :=
  loopEdge_eq _ _ _ _ h0 (fun _ hm hm0 => h1 (hm0 ▸ hm))

/-- C06 for rank 0 and for an edge without symmetries: the dedicated callbacks are called and
nothing else. -/
theorem C06_degenerate {S : Type} (maps : List (List (σ × ℕ))) (rank0 dims0 : S → S)
    (operate : List ℕ → ℕ → S → ℕ × S) (s : S) :
    loopEdge ([] : List (List (σ × ℕ))) rank0 dims0 operate s = rank0 s ∧
    ([] ∈ maps → loopEdge maps rank0 dims0 operate s = dims0 s) := by
  refine ⟨by simp [loopEdge], fun h => ?_⟩
  unfold loopEdge
  rw [if_neg (by simpa using List.ne_nil_of_mem h), if_pos]
  rw [List.any_eq_true]
  exact ⟨[], h, rfl⟩

/-- C06: the number of loop iterations the model allows is never the reason to stop. -/
theorem C06_fuel_irrelevant {S : Type} (maps : List (List (σ × ℕ)))
    (operate : List ℕ → ℕ → S → ℕ × S) (s : S) (h0 : maps ≠ []) (h1 : [] ∉ maps) (extra : ℕ) :
    loopFrom (maps.map List.length) operate ((maps.map List.length).prod + extra)
      (List.replicate maps.length 0) 0 s = loopEdge maps id id operate s := by
  rw [loopEdge_eq _ _ _ _ h0 (fun m hm hm0 => h1 (hm0 ▸ hm))]
  have := loopFrom_tuples (dims := maps.map List.length) operate
    (by simpa using List.length_pos_iff.2 h0)
    (prod_lengths_pos (fun m hm hm0 => h1 (hm0 ▸ hm))) ((maps.map List.length).prod + extra)
    (by omega) s
  simpa using this

/-- A visitor that records what it is given; it refreshes its cache at the combinations selected by
`refresh` (and then asks for nothing to be refreshed by returning the rank). -/
def recorder (rank : ℕ) (refresh : List ℕ → Bool) (it : List ℕ) (mc : ℕ)
    (tr : List (List ℕ × ℕ)) : ℕ × List (List ℕ × ℕ) :=
  (if refresh it then rank else mc, tr ++ [(it, mc)])

theorem recorder_fold (rank : ℕ) (refresh : List ℕ → Bool) (l : List (List ℕ)) (prev : List ℕ)
    (mc : ℕ) (tr : List (List ℕ × ℕ)) :
    (l.foldl (visitStep (recorder rank refresh)) (prev, mc, tr)).2.2.map Prod.fst =
      tr.map Prod.fst ++ l := by
  induction l generalizing prev mc tr with
  | nil => simp
  | cons it l ih =>
    rw [List.foldl_cons]
    simp only [visitStep, recorder]
    rw [ih]
    simp

/-- C06: every combination of positions is visited exactly once, in lexicographic order with the
last edge fastest. -/
theorem C06_visits (maps : List (List (σ × ℕ))) (refresh : List ℕ → Bool) (h0 : maps ≠ []) :
    let visited := (loopEdge maps id id (recorder maps.length refresh) []).map Prod.fst
    (∀ it, it ∈ visited ↔ it.length = maps.length ∧
      ∀ i (h : i < maps.length), it.getD i 0 < maps[i].length) ∧
    visited.Pairwise (· < ·) := by
  dsimp only
  have key : (loopEdge maps id id (recorder maps.length refresh) []).map Prod.fst =
      tuples (maps.map List.length) := by
    by_cases h1 : [] ∈ maps
    · rw [(C06_degenerate maps _ _ _ _).2 h1]
      have : (maps.map List.length).prod = 0 := by
        rw [List.prod_eq_zero_iff]
        exact List.mem_map.2 ⟨[], h1, rfl⟩
      have hl := tuples_length (maps.map List.length)
      rw [this, List.length_eq_zero_iff] at hl
      rw [hl]; rfl
    · rw [C06_loop_edge _ _ _ _ _ h0 h1, recorder_fold]; simp
  rw [key]
  constructor
  · intro it
    rw [mem_tuples, inBox_iff]
    simp only [List.length_map]
    constructor
    · rintro ⟨h1, h2⟩
      refine ⟨h1.symm, fun i h => ?_⟩
      have := h2 i h
      rwa [List.getD_eq_getElem (List.map List.length maps) _ (by simpa using h),
        List.getElem_map] at this
    · rintro ⟨h1, h2⟩
      refine ⟨h1.symm, fun i h => ?_⟩
      rw [List.getD_eq_getElem (List.map List.length maps) _ (by simpa using h),
        List.getElem_map]
      exact h2 i h
  · generalize maps.map List.length = dims
    induction dims with
    | nil => simp [tuples]
    | cons d ds ih =>
      rw [tuples, List.pairwise_flatMap]
      constructor
      · intro i _
        rw [List.pairwise_map]
        exact ih.imp (fun h => List.Lex.cons h)
      · refine List.Pairwise.imp ?_ (List.pairwise_lt_range)
        intro i j hij a ha b hb
        obtain ⟨a', _, rfl⟩ := List.mem_map.1 ha
        obtain ⟨b', _, rfl⟩ := List.mem_map.1 hb
        exact List.Lex.rel hij

/-- Soundness of the hints in a tr: if at visit `k` the hint exceeds a position `i`, then there
was an earlier refresh, and since the last one (visit `j`) position `i` has not changed. -/
def HintSound (refresh : List ℕ → Bool) (r : List (List ℕ × ℕ)) : Prop :=
  ∀ k (hk : k < r.length), ∀ i, i < r[k].2 → ∃ j, ∃ hj : j < k, refresh r[j].1 = true ∧
    (∀ j' (hj' : j' < k), j < j' → refresh r[j'].1 = false) ∧
    r[k].1.getD i 0 = r[j].1.getD i 0

theorem hint_fold (rank : ℕ) (refresh : List ℕ → Bool) (l : List (List ℕ)) (prev : List ℕ)
    (mc : ℕ) (tr : List (List ℕ × ℕ))
    (hprev : ∀ i, i < mc → ∃ j, ∃ hj : j < tr.length, refresh tr[j].1 = true ∧
      (∀ j' (hj' : j' < tr.length), j < j' → refresh tr[j'].1 = false) ∧
      prev.getD i 0 = tr[j].1.getD i 0)
    (htr : HintSound refresh tr) :
    HintSound refresh (l.foldl (visitStep (recorder rank refresh)) (prev, mc, tr)).2.2 := by
  induction l generalizing prev mc tr with
  | nil => exact htr
  | cons it l ih =>
    rw [List.foldl_cons]
    simp only [visitStep, recorder]
    apply ih
    · intro i hi
      by_cases hr : refresh it = true
      · refine ⟨tr.length, by simp, by simpa using hr, ?_, by simp⟩
        intro j' hj' hlt
        simp at hj'; omega
      · simp only [hr] at hi
        simp only [Bool.false_eq_true, if_false] at hi
        obtain ⟨j, hj, h1, h2, h3⟩ := hprev i (by omega)
        refine ⟨j, by simp; omega, ?_, ?_, ?_⟩
        · rw [List.getElem_append_left hj]; exact h1
        · intro j' hj' hlt
          by_cases hj'' : j' < tr.length
          · rw [List.getElem_append_left hj'']; exact h2 j' hj'' hlt
          · have : j' = tr.length := by simp at hj'; omega
            subst this
            simpa using hr
        · rw [List.getElem_append_left hj, ← h3]
          exact (getD_commonPrefix (by omega)).symm
    · intro k hk i hi
      by_cases hk' : k < tr.length
      · have hik : i < tr[k].2 := by
          rw [List.getElem_append_left hk'] at hi; exact hi
        obtain ⟨j, hj, h1, h2, h3⟩ := htr k hk' i hik
        refine ⟨j, hj, ?_, ?_, ?_⟩
        · rw [List.getElem_append_left (by omega)]; exact h1
        · intro j' hj' hlt
          rw [List.getElem_append_left (by omega)]; exact h2 j' hj' hlt
        · rw [List.getElem_append_left hk', List.getElem_append_left (by omega)]; exact h3
      · have hkeq : k = tr.length := by simp at hk; omega
        subst hkeq
        simp only [List.getElem_append_right (Nat.le_refl _), Nat.sub_self,
          List.getElem_cons_zero] at hi ⊢
        obtain ⟨j, hj, h1, h2, h3⟩ := hprev i (by omega)
        refine ⟨j, hj, ?_, ?_, ?_⟩
        · rw [List.getElem_append_left hj]; exact h1
        · intro j' hj' hlt
          rw [List.getElem_append_left hj']; exact h2 j' hj' hlt
        · rw [List.getElem_append_left hj, ← h3]
          exact (getD_commonPrefix (by omega)).symm

/-- C06: the hint never skips a position that changed since the visitor last refreshed. -/
theorem C06_hint_sound (maps : List (List (σ × ℕ))) (refresh : List ℕ → Bool) (h0 : maps ≠ [])
    (h1 : [] ∉ maps) :
    HintSound refresh (loopEdge maps id id (recorder maps.length refresh) []) := by
  rw [C06_loop_edge _ _ _ _ _ h0 h1]
  exact hint_fold maps.length refresh _ [] 0 [] (by simp) (by intro k hk; simp at hk)

-- two edges with 2 and 3 symmetries; caches refreshed at (0,1) and (1,0)
example : loopEdge (σ := Z2Symmetry) [[(⟨false⟩, 1), (⟨true⟩, 2)], [(⟨false⟩, 1), (⟨true⟩, 2)]]
    id id (recorder 2 fun it => it = [0, 1] || it = [1, 0]) [] =
    [([0, 0], 0), ([0, 1], 0), ([1, 0], 0), ([1, 1], 1)] := by decide

/-! ## C07 blocks of a new tensor -/

/-- The dimension an edge gives to a symmetry. -/
def dimOf [TatSym σ] (e : Edge σ) (s : σ) : ℕ := (OMap.find? e.map s).getD 0

theorem forall2_keys [TatSym σ] {edges : List (Edge σ)} {k : List σ} :
    List.Forall₂ (fun e s => s ∈ OMap.keys e.map) edges k ↔
      ∃ c, List.Forall₂ (fun m x => x ∈ m) (edges.map Edge.map) c ∧ c.map Prod.fst = k := by
  induction edges generalizing k with
  | nil =>
    constructor
    · intro h; cases h; exact ⟨[], List.Forall₂.nil, rfl⟩
    · rintro ⟨c, h, rfl⟩; cases h; exact List.Forall₂.nil
  | cons e es ih =>
    constructor
    · intro h
      cases h with
      | cons h1 h2 =>
        obtain ⟨c, hc, rfl⟩ := ih.1 h2
        obtain ⟨x, hx, rfl⟩ := List.mem_map.1 h1
        exact ⟨x :: c, List.Forall₂.cons hx hc, rfl⟩
    · rintro ⟨c, h, rfl⟩
      cases h with
      | cons h1 h2 =>
        exact List.Forall₂.cons (List.mem_map_of_mem h1) (ih.2 ⟨_, h2, rfl⟩)

theorem prod_dims [TatSym σ] {edges : List (Edge σ)} (hs : ∀ e ∈ edges, OMap.Sorted e.map)
    {c : List (σ × ℕ)} (h : List.Forall₂ (fun m x => x ∈ m) (edges.map Edge.map) c) :
    (c.map Prod.snd).prod = (List.zipWith dimOf edges (c.map Prod.fst)).prod := by
  induction edges generalizing c with
  | nil => cases h; rfl
  | cons e es ih =>
    cases h with
    | @cons _ x _ c' h1 h2 =>
      have : dimOf e x.1 = x.2 := by
        unfold dimOf
        rw [OMap.find?_of_mem (hs e (by simp)).nodup (v := x.2) h1]; rfl
      simp only [List.map_cons, List.zipWith_cons_cons, List.prod_cons, this]
      rw [ih (fun e' he' => hs e' (by simp [he'])) h2]

/-- C07: construction never throws, and afterwards there is a block for a tuple of symmetries
exactly when each belongs to its edge and they add up to zero; a block holds the product of the
dimensions of its symmetries. -/
theorem C07_blocks [TatSym σ] (junk : List σ → ℕ → α) (edges : List (Edge σ)) (r : Bool)
    (hs : ∀ e ∈ edges, OMap.Sorted e.map) :
    ∃ c, newCore junk edges r = .ok c ∧ OMap.Sorted c.blocks ∧
      (∀ k, k ∈ OMap.keys c.blocks ↔
        List.Forall₂ (fun e s => s ∈ OMap.keys e.map) edges k ∧ k.sum = 0) ∧
      (∀ k data, (k, data) ∈ c.blocks → data.length = (List.zipWith dimOf edges k).prod) := by
  refine ⟨_, newCore_eq junk edges r hs, ?_, ?_, ?_⟩
  · apply freshBlocks_sorted
    intro m hm
    obtain ⟨e, he, rfl⟩ := List.mem_map.1 hm
    exact hs e he
  · intro k
    have : OMap.keys (freshBlocks junk (edges.map Edge.map)) =
        (blockShapes (edges.map Edge.map)).map Prod.fst := by
      unfold OMap.keys freshBlocks; rw [List.map_map]; rfl
    simp only [this, List.mem_map, mem_blockShapes]
    rw [forall2_keys]
    constructor
    · rintro ⟨b, ⟨c, h1, h2, rfl⟩, rfl⟩
      exact ⟨⟨c, h1, rfl⟩, h2⟩
    · rintro ⟨⟨c, h1, rfl⟩, h2⟩
      exact ⟨_, ⟨c, h1, h2, rfl⟩, rfl⟩
  · intro k data hmem
    obtain ⟨b, hb, heq⟩ := List.mem_map.1 hmem
    obtain ⟨c, h1, h2, rfl⟩ := mem_blockShapes.1 hb
    simp only [Prod.mk.injEq] at heq
    obtain ⟨rfl, rfl⟩ := heq
    simp [prod_dims hs h1]

/-- C07: in particular the list of blocks is the filtered Cartesian product, in order. -/
theorem C07_block_list [TatSym σ] (edges : List (Edge σ)) :
    initBlocks edges = blockShapes (edges.map Edge.map) := initBlocks_eq edges

-- a U1 tensor with two edges: three of the nine combinations have total zero
example : initBlocks (σ := U1Symmetry)
    [⟨false, [(⟨-1⟩, 1), (⟨0⟩, 2), (⟨1⟩, 3)]⟩, ⟨false, [(⟨-1⟩, 4), (⟨0⟩, 5), (⟨1⟩, 6)]⟩] =
    [([⟨-1⟩, ⟨1⟩], 6), ([⟨0⟩, ⟨0⟩], 10), ([⟨1⟩, ⟨-1⟩], 12)] := by decide

/-! ## C08 pruning -/

/-- C08: an edge of the new core lists a symmetry exactly when some block uses it, with the
original dimension; the number of edges and (for construction without automatic reversal) the arrows
are kept. -/
theorem C08_pruned [TatSym σ] (junk : List σ → ℕ → α) (edges : List (Edge σ)) (r : Bool)
    (hs : ∀ e ∈ edges, OMap.Sorted e.map) (c : Core σ α) (hc : newCore junk edges r = .ok c) :
    c.edges.length = edges.length ∧
    ∀ (i : ℕ) (e e' : Edge σ), edges[i]? = some e → c.edges[i]? = some e' →
      (r = false → e'.arrow = e.arrow) ∧ OMap.Sorted e'.map ∧
      ∀ s, ((∃ b ∈ c.blocks, b.1[i]? = some s) →
          OMap.find? e'.map s = OMap.find? e.map s ∧ (OMap.find? e.map s).isSome) ∧
        ((¬ ∃ b ∈ c.blocks, b.1[i]? = some s) → OMap.find? e'.map s = none) := by
  rw [newCore_eq junk edges r hs, Outcome.ok.injEq] at hc
  subst hc
  have hlen : (arrowed edges r).length = edges.length := by
    have := congrArg List.length (arrowed_maps edges r)
    simpa using this
  refine ⟨by simp [prunedEdges, hlen], ?_⟩
  intro i e e' he he'
  obtain ⟨h, rfl⟩ := List.getElem?_eq_some_iff.1 he
  obtain ⟨h', rfl⟩ := List.getElem?_eq_some_iff.1 he'
  have hmapi : ((arrowed edges r)[i]'(by omega)).map = (edges[i]).map := by
    have := arrowed_maps edges r
    have h1 : ((arrowed edges r).map Edge.map)[i]'(by simp; omega) =
        (edges.map Edge.map)[i]'(by simpa using h) := by
      simp only [this]
    simpa using h1
  have h'' : i < (prunedEdges (arrowed edges r)).length := h'
  have hedge : (prunedEdges (arrowed edges r))[i] = ⟨((arrowed edges r)[i]'(by omega)).arrow,
      (edges[i]).map.filter fun p => usedAt (edges.map Edge.map) i p.1⟩ := by
    simp only [prunedEdges, List.getElem_mapIdx, arrowed_maps, hmapi]
  dsimp only
  rw [hedge]
  refine ⟨fun hr => by subst hr; simp [arrowed], (hs _ (List.getElem_mem h)).filter _, fun s => ?_⟩
  have hused : (∃ b ∈ freshBlocks junk (edges.map Edge.map), b.1[i]? = some s) ↔
      usedAt (edges.map Edge.map) i s = true := by
    unfold freshBlocks usedAt
    simp only [List.mem_map, List.any_eq_true, decide_eq_true_eq]
    constructor
    · rintro ⟨b, ⟨b', hb', rfl⟩, h⟩; exact ⟨b', hb', h⟩
    · rintro ⟨b', hb', h⟩; exact ⟨_, ⟨b', hb', rfl⟩, h⟩
  have hfilter : ∀ (m : List (σ × ℕ)) (p : σ → Bool),
      OMap.find? (m.filter fun q => p q.1) s = if p s then OMap.find? m s else none := by
    intro m p
    induction m with
    | nil => simp [OMap.find?]
    | cons q m ih =>
      obtain ⟨k, v⟩ := q
      by_cases hp : p k
      · by_cases hk : s = k
        · subst hk; simp [hp, OMap.find?]
        · simp [hp, OMap.find?, hk, ih]
      · by_cases hk : s = k
        · subst hk; simp [hp, ih]
        · simp [hp, OMap.find?, hk, ih]
  rw [hfilter, hused]
  refine ⟨fun hu => ?_, fun hu => ?_⟩
  · rw [if_pos hu]
    refine ⟨rfl, ?_⟩
    obtain ⟨b, hb, hbi⟩ := hused.2 hu
    obtain ⟨b', hb', rfl⟩ := List.mem_map.1 hb
    have := (mem_keys_of_block hb').2 i (by simpa using h)
    have hbi' : b'.1[i]? = some s := hbi
    rw [List.getD_eq_getElem?_getD (l := b'.1), hbi'] at this
    rw [OMap.find?_isSome]
    rw [List.getD_eq_getElem _ _ (by simpa using h), List.getElem_map] at this
    exact this
  · rw [if_neg hu]

theorem eq_of_mem_iff_sorted {κ : Type} [LinearOrder κ] {l l' : List κ}
    (h1 : l.Pairwise (· < ·)) (h2 : l'.Pairwise (· < ·)) (h : ∀ x, x ∈ l ↔ x ∈ l') : l = l' := by
  induction l generalizing l' with
  | nil =>
    cases l' with
    | nil => rfl
    | cons x l' => have := (h x).2 (by simp); simp at this
  | cons x l ih =>
    cases l' with
    | nil => have := (h x).1 (by simp); simp at this
    | cons y l' =>
      rw [List.pairwise_cons] at h1 h2
      have hxy : x = y := by
        rcases List.mem_cons.1 ((h x).1 (by simp)) with hx | hx
        · exact hx
        · rcases List.mem_cons.1 ((h y).2 (by simp)) with hy | hy
          · exact hy.symm
          · exact absurd (h1.1 y hy) (lt_asymm (h2.1 x hx))
      subst hxy
      congr 1
      apply ih h1.2 h2.2
      intro z
      constructor
      · intro hz
        rcases List.mem_cons.1 ((h z).1 (by simp [hz])) with hzx | hz'
        · subst hzx; exact absurd (h1.1 z hz) (lt_irrefl _)
        · exact hz'
      · intro hz
        rcases List.mem_cons.1 ((h z).2 (by simp [hz])) with hzx | hz'
        · subst hzx; exact absurd (h2.1 z hz) (lt_irrefl _)
        · exact hz'

theorem blockShapes_pruned [TatSym σ] (maps : List (List (σ × ℕ)))
    (hs : ∀ m ∈ maps, OMap.Sorted m) : blockShapes (pruned maps) = blockShapes maps := by
  have hsub : ∀ m ∈ pruned maps, OMap.Sorted m := by
    intro m hm
    obtain ⟨i, hi, rfl⟩ := List.mem_mapIdx.1 hm
    exact (hs _ (List.getElem_mem hi)).filter _
  have hch : (choices (pruned maps)).filter (fun c => (c.map Prod.fst).sum = 0) =
      (choices maps).filter (fun c => (c.map Prod.fst).sum = 0) := by
    have hinj : ∀ a ∈ choices maps, ∀ b ∈ choices maps,
        a.map Prod.fst = b.map Prod.fst → a = b := by
      intro a ha b hb hab
      have h1 := choices_sorted hs
      rw [List.pairwise_map] at h1
      by_contra hne
      have h2 : (choices maps).Pairwise fun a b => a ≠ b → a.map Prod.fst ≠ b.map Prod.fst :=
        by
          refine h1.imp ?_
          intro a b h _
          exact ne_of_lt h
      have h3 : (choices maps).Pairwise
          (flip fun a b => a ≠ b → a.map Prod.fst ≠ b.map Prod.fst) :=
        by
          refine h1.imp ?_
          intro a b h _
          exact ne_of_gt h
      exact List.Pairwise.forall_of_forall_of_flip (fun x _ h => absurd rfl h) h2 h3 ha hb hne hab
    have hmem : ∀ c, (c ∈ (choices (pruned maps)).filter (fun c => (c.map Prod.fst).sum = 0)) ↔
        c ∈ (choices maps).filter (fun c => (c.map Prod.fst).sum = 0) := by
      intro c
      simp only [List.mem_filter, decide_eq_true_eq]
      constructor
      · rintro ⟨h1, h2⟩
        refine ⟨?_, h2⟩
        rw [mem_choices, List.forall₂_iff_get] at h1 ⊢
        refine ⟨by simpa [pruned] using h1.1, ?_⟩
        intro i hi1 hi2
        have := h1.2 i (by simpa [pruned] using hi1) hi2
        simp only [pruned, List.get_eq_getElem, List.getElem_mapIdx, List.mem_filter] at this
        exact this.1
      · rintro ⟨h1, h2⟩
        refine ⟨?_, h2⟩
        have hb : (c.map Prod.fst, (c.map Prod.snd).prod) ∈ blockShapes maps :=
          mem_blockShapes.2 ⟨c, mem_choices.1 h1, h2, rfl⟩
        rw [mem_choices, List.forall₂_iff_get] at h1 ⊢
        refine ⟨by simpa [pruned] using h1.1, ?_⟩
        intro i hi1 hi2
        have := h1.2 i (by simpa [pruned] using hi1) hi2
        simp only [pruned, List.get_eq_getElem, List.getElem_mapIdx, List.mem_filter] at this ⊢
        refine ⟨this, ?_⟩
        unfold usedAt
        rw [List.any_eq_true]
        refine ⟨_, hb, ?_⟩
        simp [hi2]
    have hk : ((choices (pruned maps)).filter (fun c => (c.map Prod.fst).sum = 0)).map
        (List.map Prod.fst) =
        ((choices maps).filter (fun c => (c.map Prod.fst).sum = 0)).map (List.map Prod.fst) := by
      apply eq_of_mem_iff_sorted
      · have := choices_sorted hsub
        rw [List.pairwise_map] at this ⊢
        exact this.filter _
      · have := choices_sorted hs
        rw [List.pairwise_map] at this ⊢
        exact this.filter _
      · intro x
        simp only [List.mem_map]
        constructor
        · rintro ⟨c, hc, rfl⟩; exact ⟨c, (hmem c).1 hc, rfl⟩
        · rintro ⟨c, hc, rfl⟩; exact ⟨c, (hmem c).2 hc, rfl⟩
    apply List.ext_getElem
    · simpa using congrArg List.length hk
    · intro i h1 h2
      apply hinj
      · exact (List.mem_filter.1 ((hmem _).1 (List.getElem_mem h1))).1
      · exact (List.mem_filter.1 (List.getElem_mem h2)).1
      · have := List.getElem_of_eq hk (i := i) (by simpa using h1)
        simpa using this
  unfold blockShapes
  rw [hch]

theorem prunedEdges_maps [TatSym σ] (edges : List (Edge σ)) :
    (prunedEdges edges).map Edge.map = pruned (edges.map Edge.map) := by
  unfold prunedEdges pruned
  apply List.ext_getElem
  · simp
  · intro i h1 h2; simp

theorem prunedEdges_idem [TatSym σ] (edges : List (Edge σ)) (hs : ∀ e ∈ edges, OMap.Sorted e.map) :
    prunedEdges (prunedEdges edges) = prunedEdges edges := by
  have hsm : ∀ m ∈ edges.map Edge.map, OMap.Sorted m := by
    intro m hm
    obtain ⟨e, he, rfl⟩ := List.mem_map.1 hm
    exact hs e he
  have hu : ∀ i s, usedAt ((prunedEdges edges).map Edge.map) i s =
      usedAt (edges.map Edge.map) i s := by
    intro i s
    unfold usedAt
    rw [prunedEdges_maps, blockShapes_pruned _ hsm]
  conv_lhs => unfold prunedEdges
  apply List.ext_getElem
  · simp [prunedEdges]
  · intro i h1 h2
    have hi : i < edges.length := by simpa [prunedEdges] using h2
    simp only [List.getElem_mapIdx]
    have hu' : ∀ p : σ × ℕ, usedAt ((edges.mapIdx fun i e => ({ e with
        map := e.map.filter fun p => usedAt (edges.map Edge.map) i p.1 } : Edge σ)).map Edge.map)
        i p.1 = usedAt (edges.map Edge.map) i p.1 := fun p => hu i p.1
    simp only [prunedEdges, List.getElem_mapIdx, List.filter_filter, hu', Bool.and_self]

/-- C08: constructing again from the edges of a fresh core gives the same core. -/
theorem C08_idempotent [TatSym σ] (junk : List σ → ℕ → α) (edges : List (Edge σ)) (r : Bool)
    (hs : ∀ e ∈ edges, OMap.Sorted e.map) (c : Core σ α) (hc : newCore junk edges r = .ok c) :
    newCore junk c.edges false = .ok c := by
  rw [newCore_eq junk edges r hs, Outcome.ok.injEq] at hc
  subst hc
  have hs' : ∀ e ∈ arrowed edges r, OMap.Sorted e.map := by
    intro e he
    have : e.map ∈ (arrowed edges r).map Edge.map := List.mem_map_of_mem he
    rw [arrowed_maps] at this
    obtain ⟨e', he', heq⟩ := List.mem_map.1 this
    rw [← heq]; exact hs e' he'
  have hsp : ∀ e ∈ prunedEdges (arrowed edges r), OMap.Sorted e.map := by
    intro e he
    obtain ⟨i, hi, rfl⟩ := List.mem_mapIdx.1 he
    exact (hs' _ (List.getElem_mem hi)).filter _
  rw [newCore_eq junk _ false hsp]
  have h1 : arrowed (prunedEdges (arrowed edges r)) false = prunedEdges (arrowed edges r) := by
    simp [arrowed]
  have hsm : ∀ m ∈ edges.map Edge.map, OMap.Sorted m := by
    intro m hm
    obtain ⟨e, he, rfl⟩ := List.mem_map.1 hm
    exact hs e he
  rw [h1, prunedEdges_idem _ hs', prunedEdges_maps, arrowed_maps]
  unfold freshBlocks
  rw [blockShapes_pruned _ hsm]

-- the symmetry 5 of the third edge is never used and disappears
example : (newCore (σ := U1Symmetry) (α := ℕ) (fun _ _ => 7)
    [⟨false, [(⟨-1⟩, 1), (⟨0⟩, 2)]⟩, ⟨false, [(⟨0⟩, 1), (⟨1⟩, 1), (⟨5⟩, 9)]⟩]) =
    .ok ⟨[⟨false, [(⟨-1⟩, 1), (⟨0⟩, 2)]⟩, ⟨false, [(⟨0⟩, 1), (⟨1⟩, 1)]⟩],
      [([⟨-1⟩, ⟨1⟩], [7]), ([⟨0⟩, ⟨0⟩], [7, 7])]⟩ := by decide

/-! ## C49 automatic arrows -/

/-- C49: with automatic reversal a fermionic edge's arrow is flipped exactly when the edge (as given)
has a symmetry with negative fermion number; without it, or for bosonic types, arrows are kept. -/
theorem C49_auto_reverse [TatSym σ] (junk : List σ → ℕ → α) (edges : List (Edge σ)) (r : Bool)
    (hs : ∀ e ∈ edges, OMap.Sorted e.map) (c : Core σ α) (hc : newCore junk edges r = .ok c)
    (i : ℕ) (h : i < edges.length) (h' : i < c.edges.length) :
    (c.edges[i]).arrow = !(edges[i]).arrow ↔
      TatSym.isFermi σ = true ∧ r = true ∧
        ∃ s d, (s, d) ∈ (edges[i]).map ∧ TatSym.fermi s < 0 := by
  rw [newCore_eq junk edges r hs, Outcome.ok.injEq] at hc
  subst hc
  have hne : ∀ b : Bool, ¬ b = !b := by decide
  simp only [prunedEdges, List.getElem_mapIdx]
  by_cases hf : TatSym.isFermi σ = true ∧ r = true
  · have hb : (TatSym.isFermi σ && r) = true := by simp [hf.1, hf.2]
    simp only [arrowed, hb, if_true, List.getElem_map, possibleReverse]
    by_cases hn : ∃ s d, (s, d) ∈ (edges[i]).map ∧ TatSym.fermi s < 0
    · have hany : (edges[i]).map.any (fun p => TatSym.fermi p.1 < 0) = true := by
        obtain ⟨s, d, h1, h2⟩ := hn
        rw [List.any_eq_true]
        exact ⟨(s, d), h1, by simpa using h2⟩
      simp only [hany, if_true]
      exact ⟨fun _ => ⟨hf.1, hf.2, hn⟩, fun _ => by simp⟩
    · have hany : (edges[i]).map.any (fun p => TatSym.fermi p.1 < 0) = false := by
        rw [List.any_eq_false]
        intro p h1 h2
        exact hn ⟨p.1, p.2, h1, by simpa using h2⟩
      simp only [hany, Bool.false_eq_true, if_false]
      exact ⟨fun hh => absurd hh (hne _), fun hh => absurd hh.2.2 hn⟩
  · have hb : (TatSym.isFermi σ && r) = false := by
      rw [Bool.and_eq_false_iff]
      by_contra hcon
      push Not at hcon
      exact hf ⟨by simpa using hcon.1, by simpa using hcon.2⟩
    simp only [arrowed, hb, Bool.false_eq_true, if_false]
    exact ⟨fun hh => absurd hh (hne _), fun hh => absurd ⟨hh.1, hh.2.1⟩ hf⟩

/-- C49: `arrow_valid` says that some fermion number is not zero. -/
theorem C49_arrow_valid [TatSym σ] (e : Edge σ) :
    arrowValid e = true ↔ ∃ s ∈ OMap.keys e.map, TatSym.fermi s ≠ 0 := by
  unfold arrowValid OMap.keys
  simp [List.any_eq_true]

/-- C49: bosonic edges never have a meaningful arrow. -/
theorem C49_bose [TatSym σ] (h : TatSym.isFermi σ = false) (e : Edge σ) : arrowValid e = false := by
  unfold arrowValid
  rw [List.any_eq_false]
  intro p _
  simp [TatSym.fermi_bose h]

example : (newCore (σ := FermiSymmetry) (α := ℕ) (fun _ _ => 7)
    [⟨false, [(⟨-1⟩, 1), (⟨0⟩, 2)]⟩, ⟨false, [(⟨0⟩, 1), (⟨1⟩, 1)]⟩] true) =
    .ok ⟨[⟨true, [(⟨-1⟩, 1), (⟨0⟩, 2)]⟩, ⟨false, [(⟨0⟩, 1), (⟨1⟩, 1)]⟩],
      [([⟨-1⟩, ⟨1⟩], [7]), ([⟨0⟩, ⟨0⟩], [7, 7])]⟩ := by decide

end TAT
