import Verif.Decomp.Model
import Verif.Contract.Main

/-!
# The merge to a matrix
-/

set_option linter.unusedSectionVars false

namespace TAT

variable {ν σ α : Type} [LinearOrder ν] [TatSym σ]

/-- The sign of bringing the edges into the order of the matrix. -/
def orderSign (A B : List ν) (p : ν → σ × ℕ) : ℤ :=
  if TatSym.isFermi σ then exchangeOf (oddAt p) A B else 1

/-- What is known of the matrix. -/
structure Halves [Neg α] (t : Tensor ν σ α) (G1 G2 : List ν) (F C : Edge σ) (M : Tensor ν σ α) :
    Prop where
  wf : WF M
  edges : M.core.edges = [F, C]
  keysF : ∀ s, s ∈ OMap.keys F.map ↔
    ∃ q, KeyOk (mapOf t) (G1 ++ G2) q ∧ (keyOf G1 q).sum = s
  keysC : ∀ s, s ∈ OMap.keys C.map ↔
    ∃ q, KeyOk (mapOf t) (G1 ++ G2) q ∧ (keyOf G2 q).sum = s
  dimF : ∀ s ∈ OMap.keys F.map, dimOf F s = mergedDim (G1.map (mapOf t)) s
  dimC : ∀ s ∈ OMap.keys C.map, dimOf C s = mergedDim (G2.map (mapOf t)) s
  elem : ∀ p, ValidPos t p →
    elemAt M.core [(keyOf G1 p).sum, (keyOf G2 p).sum]
      [groupIdx (mapOf t) G1 p, groupIdx (mapOf t) G2 p] =
    (elem t p).map (applySign (orderSign t.names (G1 ++ G2) p))
  arrowF : TatSym.isFermi σ = true → ∀ n ∈ G1, arrowValid (edgeOf t n) = true → F.arrow = false
  arrowC : TatSym.isFermi σ = true → ∀ n ∈ G2, arrowValid (edgeOf t n) = true → C.arrow = false

theorem reversedFree_all {t : Tensor ν σ α} (h : WF t) (hf : TatSym.isFermi σ = true) {n : ν}
    (hn : n ∈ t.names) :
    (reversedEdge (reversedFree t.names t) (edgeOf t) n).arrow = false := by
  unfold reversedEdge
  rw [if_pos hf]
  unfold reverseOne
  have := mem_reversedFree h.shaped (free := t.names) (n := n)
  split
  · rename_i hr
    rw [this] at hr
    dsimp only
    rw [hr.2.2.2]; rfl
  · rename_i hr
    rw [this] at hr
    by_contra ha
    exact hr ⟨hf, hn, hn, by simpa using ha⟩

theorem groupOut {t : Tensor ν σ α} (h : WF t) (hf : TatSym.isFermi σ = true) {g : List ν}
    (hsub : ∀ n ∈ g, n ∈ t.names) (b : Bool) {n : ν} (hn : n ∈ g)
    (hv : arrowValid (edgeOf t n) = true) :
    (groupEdge b (g.map (reversedEdge (reversedFree t.names t) (edgeOf t)))).arrow = false := by
  have := (groupEdge_arrow (e := reversedEdge (reversedFree t.names t) (edgeOf t)) hf (g := g)
    (fun m hm m' hm' _ _ => by
      rw [reversedFree_all h hf (hsub m hm), reversedFree_all h hf (hsub m' hm')]) b hn
    (by rw [arrowValid_reversed]; exact hv)).2
  rw [this, reversedFree_all h hf (hsub n hn)]

theorem plainMergeSign {t : Tensor ν σ α} {a : EdgeArgs ν σ} (hg : Gather t a)
    (h1 : a.applyParity = false) (h2 : a.excludeReverse = []) (h3 : a.excludeReverseMerge = [])
    (h4 : a.excludeMerge = []) (p : ν → σ × ℕ) :
    opSign t a p = orderSign t.names (opM a).flatten p := by
  unfold opSign orderSign
  split
  · rw [hg.opS, flatten_singletons, groupsOf_short _ _ _ (by simp)]
    have e1 : (fun n => decide (n ∈ a.reversed) && marked a.applyParity a.excludeReverse n) =
        fun _ => false := by
      funext n; simp [h1, h2, marked]
    have e2 := prod_reverseOf_false (oddAt p) (opM a) (fun g n =>
      flipped (opReversed t a) g n && marked a.applyParity a.excludeReverseMerge n) (by
        intro g n; simp [h1, h3, marked])
    have e3 : groupsOf (oddAt p) (opM a) (a.newNames.map (marked a.applyParity a.excludeMerge)) =
        1 := by
      unfold groupsOf
      apply List.prod_eq_one
      intro x hx
      obtain ⟨i, hi, rfl⟩ := List.mem_iff_getElem.1 hx
      simp [h1, h4, marked]
    rw [e1, e2, e3, reverseOf_false]
    simp
  · rfl

/-- A list of symmetries of the edges `A ++ B` as a position. -/
theorem pos_of_keys {fm : ν → List (σ × ℕ)} {A B : List ν} (hn : (A ++ B).Nodup) {k k' : List σ}
    (h : List.Forall₂ (fun (m : List (σ × ℕ)) s => s ∈ OMap.keys m) (A.map fm) k)
    (h' : List.Forall₂ (fun (m : List (σ × ℕ)) s => s ∈ OMap.keys m) (B.map fm) k') :
    ∃ q : ν → σ × ℕ, keyOf A q = k ∧ keyOf B q = k' ∧ ∀ n ∈ A ++ B, (q n).1 ∈ OMap.keys (fm n) := by
  have l1 := h.length_eq
  have l2 := h'.length_eq
  rw [List.length_map] at l1 l2
  obtain ⟨q, hq⟩ := exists_pos hn (k := k ++ k') (by rw [List.length_append, List.length_append]; omega)
  unfold keyOf at hq
  rw [List.map_append] at hq
  obtain ⟨e1, e2⟩ := List.append_inj hq (by rw [List.length_map, l1])
  refine ⟨q, e1, e2, fun n hn => ?_⟩
  rw [← e1, forall2_map_self] at h
  rw [← e2, forall2_map_self] at h'
  rcases List.mem_append.1 hn with hn | hn
  · exact h n hn
  · exact h' n hn

theorem halves_spec [Neg α] [Zero α] (env : Env σ α) {t : Tensor ν σ α} (h : WF t)
    {merge : List (ν × List ν)} {x1 x2 : ν} (hx : x1 ≠ x2) {G1 G2 : List ν}
    (hp : t.names.Perm (G1 ++ G2))
    (hM : opM (mergeArgsOf t merge [x1, x2]) = [G1, G2]) :
    ∃ M F C, edgeOperator env t (mergeArgsOf t merge [x1, x2]) = .ok M ∧ Halves t G1 G2 F C M := by
  set a := mergeArgsOf t merge [x1, x2] with ha
  have hflat : (opM a).flatten = G1 ++ G2 := by rw [hM]; simp
  have hg : Gather t a :=
    { rename := rfl
      split := rfl
      cut := rfl
      wf := h.shaped
      pruned := fun _ => h.pruned
      newNodup := by simp [ha, mergeArgsOf, hx]
      perm := by rw [hflat]; exact hp }
  obtain ⟨r, h1, h2, h3, h4, h5⟩ := gather_spec env hg
  have hE := hg.edgeAt env.garbage h4
  have hk := fun p hp => hg.coarse_keys env.garbage (p := p) hp
  rw [← h4] at hk
  have hl : r.core.edges.length = 2 := by
    rw [h4, pruned_length, opEdges_length, ← opM_length, hM]; rfl
  match hed : r.core.edges, hl with
  | [F, C], _ =>
  have hsub1 : ∀ n ∈ G1, n ∈ t.names := fun n hn => hp.mem_iff.2 (List.mem_append_left _ hn)
  have hsub2 : ∀ n ∈ G2, n ∈ t.names := fun n hn => hp.mem_iff.2 (List.mem_append_right _ hn)
  have hnd : (G1 ++ G2).Nodup := hp.nodup_iff.1 h.nodup
  have hks : ∀ p, KeyOk (mapOf t) (G1 ++ G2) p →
      (keyOf G1 p).sum ∈ OMap.keys F.map ∧ (keyOf G2 p).sum ∈ OMap.keys C.map := by
    intro p hq
    have := hk p (by rw [hflat]; exact hq)
    rw [hed, hM] at this
    simpa [coarseKey] using this
  have hopE : opEdges env.garbage t a = [groupEdge (env.garbage 0) (G1.map (opReversed t a)),
      groupEdge (env.garbage 1) (G2.map (opReversed t a))] := by
    unfold opEdges; rw [hM]; rfl
  rw [hopE, hed] at h4
  have hsubE : (∀ s ∈ OMap.keys F.map,
        s ∈ OMap.keys (groupEdge (env.garbage 0) (G1.map (opReversed t a))).map) ∧
      ∀ s ∈ OMap.keys C.map,
        s ∈ OMap.keys (groupEdge (env.garbage 1) (G2.map (opReversed t a))).map := by
    unfold prunedEdges at h4
    simp only [List.mapIdx_cons, List.mapIdx_nil, List.cons.injEq, and_true] at h4
    obtain ⟨rfl, rfl⟩ := h4
    constructor <;>
    · intro s hs
      obtain ⟨x, hx, rfl⟩ := List.mem_map.1 hs
      exact List.mem_map_of_mem (List.mem_of_mem_filter hx)
  have hgk : ∀ (b : Bool) (g : List ν), g ∈ opM a → ∀ s,
      s ∈ OMap.keys (groupEdge b (g.map (opReversed t a))).map →
      ∃ k, List.Forall₂ (fun (m : List (σ × ℕ)) s => s ∈ OMap.keys m) (g.map (mapOf t)) k ∧
        k.sum = s := by
    intro b g hgM s hs
    obtain ⟨k, k1, k2⟩ := ((groupEdge_map (hg.ok.sortedM hgM)).2.1 s).1 hs
    refine ⟨k, ?_, k2⟩
    rw [← hg.opMap, ← opGroup_maps, List.forall₂_map_left_iff]
    exact k1
  have hpair : ∀ s ∈ OMap.keys F.map, -s ∈ OMap.keys C.map →
      ∃ q, KeyOk (mapOf t) (G1 ++ G2) q ∧ (keyOf G1 q).sum = s ∧ (keyOf G2 q).sum = -s := by
    intro s hs hs'
    obtain ⟨k, k1, k2⟩ := hgk _ G1 (by rw [hM]; simp) s (hsubE.1 s hs)
    obtain ⟨k', k1', k2'⟩ := hgk _ G2 (by rw [hM]; simp) _ (hsubE.2 _ hs')
    obtain ⟨q, q1, q2, q3⟩ := pos_of_keys hnd k1 k1'
    refine ⟨q, ⟨q3, ?_⟩, by rw [q1, k2], by rw [q2, k2']⟩
    rw [sum_split (List.Perm.refl _) q, q1, q2, k2, k2', add_neg_cancel]
  have hed' : r.core.edges = pairOf true F C := hed
  have hed'' : r.core.edges = pairOf false C F := hed
  refine ⟨r, F, C, h1, ⟨h3, hed, fun s => ⟨fun hs => ?_, ?_⟩, fun s => ⟨fun hs => ?_, ?_⟩,
    fun s hs => ?_, fun s hs => ?_, fun p hv => ?_, fun hf n hn hv => ?_, fun hf n hn hv => ?_⟩⟩
  · obtain ⟨q, q1, q2, _⟩ := hpair s hs (two_keys h3 hed' hs)
    exact ⟨q, q1, q2⟩
  · rintro ⟨q, q1, rfl⟩
    exact (hks q q1).1
  · obtain ⟨q, q1, _, q2⟩ := hpair (-s) (two_keys h3 hed'' hs) (by rw [neg_neg]; exact hs)
    exact ⟨q, q1, by rw [q2, neg_neg]⟩
  · rintro ⟨q, q1, rfl⟩
    exact (hks q q1).2
  · have := (hE 0 (by simp [hed]) (by simp [hM])).1
    simp only [hed, hM] at this
    exact this s hs
  · have := (hE 1 (by simp [hed]) (by simp [hM])).1
    simp only [hed, hM] at this
    exact this s hs
  · have := h5 p hv
    rw [plainMergeSign hg rfl rfl rfl rfl, hflat, hM] at this
    exact this
  · have := (hE 0 (by simp [hed]) (by simp [hM])).2
    simp only [hed, hM] at this
    change F.arrow = _ at this
    rw [this]
    unfold opReversed
    rw [hg.opFine]
    exact groupOut h hf hsub1 _ hn hv
  · have := (hE 1 (by simp [hed]) (by simp [hM])).2
    simp only [hed, hM] at this
    change C.arrow = _ at this
    rw [this]
    unfold opReversed
    rw [hg.opFine]
    exact groupOut h hf hsub2 _ hn hv

end TAT
