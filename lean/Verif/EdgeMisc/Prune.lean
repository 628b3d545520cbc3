import Verif.EdgeMisc.Merge

/-!
# What dropping unused symmetries does to groups of edges
-/

set_option linter.unusedSectionVars false

namespace TAT

variable {ν σ α : Type} [LinearOrder ν] [TatSym σ]

/-- Choosing from filtered lists. -/
theorem choices_filter {β : Type} (P : ν → β → Bool) (m : ν → List β) (g : List ν) :
    choices (g.map fun n => (m n).filter (P n)) =
      (choices (g.map m)).filter fun c => (List.zipWith P g c).all id := by
  induction g with
  | nil => rfl
  | cons n g ih =>
    rw [List.map_cons, List.map_cons, choices, choices, ih, List.filter_flatMap]
    have aux : ∀ l : List β, (l.filter (P n)).flatMap (fun x =>
        ((choices (g.map m)).filter fun c => (List.zipWith P g c).all id).map (x :: ·)) =
        l.flatMap fun x => ((choices (g.map m)).map (x :: ·)).filter
          fun c => (List.zipWith P (n :: g) c).all id := by
      intro l
      induction l with
      | nil => rfl
      | cons x l ihl =>
        rw [List.flatMap_cons, ← ihl, List.filter_map]
        cases hP : P n x with
        | true =>
          rw [List.filter_cons_of_pos hP, List.flatMap_cons]
          congr 2
          apply List.filter_congr
          intro c _
          simp [hP]
        | false =>
          rw [List.filter_cons_of_neg (by simp [hP])]
          have : ((choices (g.map m)).filter ((fun c => (List.zipWith P (n :: g) c).all id) ∘
              (x :: ·))) = [] := by
            rw [List.filter_eq_nil_iff]
            intro c _
            simp [hP]
          rw [this]
          rfl
    exact aux (m n)

/-- The symmetries of a fine edge that take part in an allowed combination. -/
def Used (fm : ν → List (σ × ℕ)) (names : List ν) (n : ν) (s : σ) : Prop :=
  ∃ p, KeyOk fm names p ∧ (p n).1 = s

/-- When dropping symmetries keeps all combinations with total `s`, it does not change the merged
edge at `s`. -/
theorem sameTotal_filter (P : ν → σ → Bool) (fm : ν → List (σ × ℕ)) (g : List ν) (s : σ)
    (h : ∀ k, List.Forall₂ (fun m s => s ∈ OMap.keys m) (g.map fm) k → k.sum = s →
      List.Forall₂ (fun n s => P n s = true) g k) :
    sameTotal (g.map fun n => (fm n).filter fun x => P n x.1) s = sameTotal (g.map fm) s := by
  unfold sameTotal combos
  rw [choices_filter (fun n (x : σ × ℕ) => P n x.1) fm g, List.filter_map, List.filter_map,
    List.filter_filter]
  congr 1
  apply List.filter_congr
  intro c hc
  rw [mem_choices] at hc
  simp only [Function.comp]
  by_cases hs : (c.map Prod.fst).sum = s
  · have hk := h (c.map Prod.fst) (by
      rw [List.forall₂_map_right_iff]
      exact hc.imp fun m x hx => List.mem_map_of_mem (f := Prod.fst) hx) hs
    rw [List.forall₂_map_right_iff] at hk
    have : (List.zipWith (fun n (x : σ × ℕ) => P n x.1) g c).all id = true := by
      clear hc hs h
      induction hk with
      | nil => rfl
      | cons a _ ih => simp [a] at ih ⊢; exact ih
    simp [hs, this]
  · simp [hs]

/-- Every key of the groups comes from a fine key. -/
theorem key_surj {fm : ν → List (σ × ℕ)} {groups : List (List ν)} (hn : groups.flatten.Nodup)
    {k : List σ} (hk : List.Forall₂ (fun g s => ∃ kk,
      List.Forall₂ (fun m s => s ∈ OMap.keys m) (g.map fm) kk ∧ kk.sum = s) groups k) :
    ∃ q : ν → σ × ℕ, (∀ n ∈ groups.flatten, (q n).1 ∈ OMap.keys (fm n)) ∧
      coarseKey groups q = k := by
  induction hk with
  | nil => exact ⟨fun _ => (0, 0), by simp, rfl⟩
  | @cons g s gs k h _ ih =>
    rw [List.flatten_cons, List.nodup_append] at hn
    obtain ⟨hg, hgs, hdis⟩ := hn
    obtain ⟨q, q1, q2⟩ := ih hgs
    obtain ⟨kk, hkk, rfl⟩ := h
    have hl : kk.length = g.length := by simpa using hkk.length_eq.symm
    obtain ⟨r, hr⟩ := exists_pos hg hl
    have r1 : ∀ n ∈ g, (r n).1 ∈ OMap.keys (fm n) := by
      rw [← hr] at hkk
      unfold keyOf at hkk
      rw [forall2_map_self] at hkk
      exact hkk
    let u : ν → σ × ℕ := fun n => if n ∈ g then r n else q n
    have hu1 : ∀ n ∈ g, u n = r n := fun n hn => by simp only [u, if_pos hn]
    have hu2 : ∀ n ∈ gs.flatten, u n = q n := fun n hn => by
      have : n ∉ g := fun hg => hdis n hg n hn rfl
      simp only [u, if_neg this]
    refine ⟨u, ?_, ?_⟩
    · intro n hn
      rw [List.flatten_cons, List.mem_append] at hn
      rcases hn with hn | hn
      · rw [hu1 n hn]; exact r1 n hn
      · rw [hu2 n hn]; exact q1 n hn
    · unfold coarseKey at q2 ⊢
      rw [List.map_cons, keyOf_congr hu1, hr, ← q2]
      congr 1
      exact List.map_congr_left fun g' hg' => by
        rw [keyOf_congr fun n hn => hu2 n (List.mem_flatten.2 ⟨g', hg', hn⟩)]

/-- Replacing the symmetries of one group by others with the same total. -/
theorem used_of_total {fm : ν → List (σ × ℕ)} {groups : List (List ν)} (hn : groups.flatten.Nodup)
    {q : ν → σ × ℕ} (hq : KeyOk fm groups.flatten q) {g : List ν} (hg : g ∈ groups) {kk : List σ}
    (hkk : List.Forall₂ (fun m s => s ∈ OMap.keys m) (g.map fm) kk)
    (hs : kk.sum = (keyOf g q).sum) :
    List.Forall₂ (fun n s => Used fm groups.flatten n s) g kk := by
  obtain ⟨A, B, rfl⟩ := List.append_of_mem hg
  rw [List.flatten_append, List.flatten_cons] at hn hq ⊢
  have hgn : g.Nodup := by
    rw [List.nodup_append] at hn
    have := hn.2.1
    rw [List.nodup_append] at this
    exact this.1
  have hl : kk.length = g.length := by simpa using hkk.length_eq.symm
  obtain ⟨r, hr⟩ := exists_pos hgn hl
  rw [← hr] at hkk hs ⊢
  unfold keyOf at hkk
  rw [forall2_map_self] at hkk
  let u : ν → σ × ℕ := fun n => if n ∈ g then r n else q n
  have hu1 : ∀ n ∈ g, u n = r n := fun n hn => by simp only [u, if_pos hn]
  have hu2 : ∀ n, n ∉ g → u n = q n := fun n hn => by simp only [u, if_neg hn]
  have hA : ∀ n ∈ A.flatten, n ∉ g := by
    intro n h1 h2
    rw [List.nodup_append] at hn
    exact hn.2.2 n h1 n (List.mem_append_left _ h2) rfl
  have hB : ∀ n ∈ B.flatten, n ∉ g := by
    intro n h1 h2
    rw [List.nodup_append] at hn
    have := hn.2.1
    rw [List.nodup_append] at this
    exact this.2.2 n h2 n h1 rfl
  have hu : KeyOk fm (A.flatten ++ (g ++ B.flatten)) u := by
    refine ⟨fun n hn => ?_, ?_⟩
    · by_cases hng : n ∈ g
      · rw [hu1 n hng]; exact hkk n hng
      · rw [hu2 n hng]; exact hq.1 n hn
    · have := hq.2
      unfold keyOf at this hs ⊢
      rw [List.map_append, List.map_append, List.sum_append, List.sum_append] at this ⊢
      rw [List.map_congr_left fun n hn => congrArg Prod.fst (hu1 n hn), hs,
        List.map_congr_left fun n hn => congrArg Prod.fst (hu2 n (hA n hn)),
        List.map_congr_left fun n hn => congrArg Prod.fst (hu2 n (hB n hn))]
      exact this
  unfold keyOf
  have : ∀ l : List ν, (∀ n ∈ l, n ∈ g) → List.Forall₂
      (fun n s => Used fm (A.flatten ++ (g ++ B.flatten)) n s) l (l.map fun n => (r n).1) := by
    intro l
    induction l with
    | nil => intro _; exact .nil
    | cons n l ih =>
      intro h
      refine .cons ⟨u, hu, ?_⟩ (ih fun m hm => h m (List.mem_cons_of_mem _ hm))
      rw [hu1 n (h n (by simp))]
  exact this g fun _ h => h

/-- The symmetries of an edge of the result. -/
theorem OpOk.mem_keys_result {t : Tensor ν σ α} {a : EdgeArgs ν σ} (h : OpOk t a)
    (garbage : ℕ → Bool) (i : ℕ) (hi : i < (prunedEdges (opEdges garbage t a)).length)
    (hi' : i < (opM a).length) (s : σ) :
    s ∈ OMap.keys (prunedEdges (opEdges garbage t a))[i].map ↔
      ∃ q, KeyOk (opMap t a) (opM a).flatten q ∧ (keyOf (opM a)[i] q).sum = s := by
  constructor
  · intro hs
    simp only [prunedEdges, List.getElem_mapIdx] at hs
    obtain ⟨x, hx, rfl⟩ := List.mem_map.1 hs
    obtain ⟨hx1, hx2⟩ := List.mem_filter.1 hx
    unfold usedAt at hx2
    rw [List.any_eq_true] at hx2
    obtain ⟨b, hb, hb2⟩ := hx2
    rw [decide_eq_true_eq] at hb2
    obtain ⟨hk, h0⟩ := mem_blockShapes_keys.1 (List.mem_map_of_mem (f := Prod.fst) hb)
    have hk' := forall2_getElem.1 hk
    obtain ⟨q, q1, q2⟩ := key_surj (fm := opMap t a) (groups := opM a) (k := b.1)
      (h.perm.nodup_iff.1 h.nodup) (by
        refine forall2_getElem.2 ⟨by rw [← hk'.1, opEdges_length, opM_length], fun j j1 j2 => ?_⟩
        have := hk'.2 j (by rw [hk'.1]; exact j2) j2
        rw [opEdges_getElem, (groupEdge_map (h.sortedM (List.getElem_mem j1))).2.1] at this
        obtain ⟨kk, k1, k2⟩ := this
        refine ⟨kk, ?_, k2⟩
        rw [← opGroup_maps, List.forall₂_map_left_iff]
        exact k1)
    refine ⟨q, ⟨q1, by rw [← coarseKey_sum, q2]; exact h0⟩, ?_⟩
    have := congrArg (fun l => l[i]?) q2
    simp only [coarseKey, List.getElem?_map, List.getElem?_eq_getElem hi', Option.map_some, hb2,
      Option.some.injEq] at this
    exact this
  · rintro ⟨q, hq, rfl⟩
    have h1 := h.destKey garbage (p := q) hq.1
    have h2 := pruned_keys (h.edgesSorted garbage) h1 (by rw [coarseKey_sum]; exact hq.2)
    have := (forall2_getElem.1 h2.1).2 i hi (by simpa [coarseKey] using hi')
    simpa only [coarseKey, List.getElem_map] using this

/-- An edge of the result. -/
theorem OpOk.find_result {t : Tensor ν σ α} {a : EdgeArgs ν σ} (h : OpOk t a)
    (garbage : ℕ → Bool) (i : ℕ) (hi : i < (prunedEdges (opEdges garbage t a)).length)
    (hi' : i < (opM a).length) {q : ν → σ × ℕ} (hq : KeyOk (opMap t a) (opM a).flatten q) :
    OMap.find? (prunedEdges (opEdges garbage t a))[i].map (keyOf (opM a)[i] q).sum =
      some (mergedDim ((opM a)[i].map (opMap t a)) (keyOf (opM a)[i] q).sum) := by
  have hk := (h.mem_keys_result garbage i hi hi' _).2 ⟨q, hq, rfl⟩
  have hd := dims_pruned (h.edgesSorted garbage) hi hk
  rw [opEdges_getElem, (groupEdge_map (h.sortedM (List.getElem_mem hi'))).2.2, opGroup_maps] at hd
  obtain ⟨v, hv⟩ := Option.isSome_iff_exists.1 (OMap.find?_isSome.2 hk)
  unfold dimOf at hd
  rw [hv] at hd ⊢
  rw [← hd]; rfl

end TAT
