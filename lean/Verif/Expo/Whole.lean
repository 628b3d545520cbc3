import Verif.Expo.Blocks
import Verif.Expo.Pairs
import Verif.Expo.Scatter
import Verif.Contract.Elements
import Verif.Decomp.Sides

/-!
# The exponential of a tensor
-/

set_option linter.unusedSectionVars false

namespace TAT

variable {ν σ α ρ : Type} [LinearOrder ν] [TatSym σ]

/-- The pairs as they are used: all edges occur, once, and partners fit. -/
structure SquarePairs (t : Tensor ν σ α) (cs : List (ν × ν)) : Prop where
  wf : WF t
  perm : t.names.Perm (cs.map Prod.fst ++ cs.map Prod.snd)
  matched : Matched t t cs
  labels : Separated t (cs.map Prod.fst) ∨ ∀ s : σ, -s = s

namespace SquarePairs

variable {t : Tensor ν σ α} {cs : List (ν × ν)}

theorem nodup (h : SquarePairs t cs) : (cs.map Prod.fst ++ cs.map Prod.snd).Nodup :=
  h.perm.nodup_iff.1 h.wf.nodup

theorem pairs (h : SquarePairs t cs) : Pairs t.names t.names cs := by
  have hn := List.nodup_append.1 h.nodup
  exact ⟨hn.1, hn.2.1,
    fun c hc => h.perm.mem_iff.2 (List.mem_append_left _ (List.mem_map_of_mem hc)),
    fun c hc => h.perm.mem_iff.2 (List.mem_append_right _ (List.mem_map_of_mem hc))⟩

theorem disjoint (h : SquarePairs t cs) {n : ν} (hn : n ∈ cs.map Prod.fst) :
    n ∉ cs.map Prod.snd := fun hn' => (List.nodup_append.1 h.nodup).2.2 n hn n hn' rfl

theorem fst_swap (cs : List (ν × ν)) : (cs.map Prod.swap).map Prod.fst = cs.map Prod.snd := by
  rw [List.map_map]; rfl

theorem snd_swap (cs : List (ν × ν)) : (cs.map Prod.swap).map Prod.snd = cs.map Prod.fst := by
  rw [List.map_map]; rfl

theorem swap (h : SquarePairs t cs) : SquarePairs t (cs.map Prod.swap) where
  wf := h.wf
  perm := by rw [fst_swap, snd_swap]; exact h.perm.trans List.perm_append_comm
  matched := {
    arrows := by
      intro hf c hc
      obtain ⟨d, hd, rfl⟩ := List.mem_map.1 hc
      exact (h.matched.arrows hf d hd).symm
    maps := by
      intro c hc s
      obtain ⟨d, hd, rfl⟩ := List.mem_map.1 hc
      have := h.matched.maps d hd (-s)
      rw [neg_neg] at this
      exact this.symm }
  labels := by
    rw [fst_swap]
    exact h.labels.imp (fun hl => hl.flip h.pairs h.matched) id

theorem aligned (h : SquarePairs t cs) : Aligned t t cs :=
  aligned_of h.wf.shaped h.wf.shaped h.pairs h.matched h.labels

/-- The number of a column is the number of the row it belongs to. -/
theorem groupIdx_col (h : SquarePairs t cs) (p : ν → σ × ℕ) :
    groupIdx (mapOf t) (cs.map Prod.snd) p = groupIdx (mapOf t) (cs.map Prod.fst) (colRow cs p) := by
  have := h.swap.aligned.2 p p
  rw [fst_swap, snd_swap] at this
  exact this

theorem sorted (h : SquarePairs t cs) : ∀ n ∈ cs.map Prod.fst, OMap.Sorted (mapOf t n) :=
  fun n hn => mapOf_sorted h.wf n (h.perm.mem_iff.2 (List.mem_append_left _ hn))

theorem rowOrder (h : SquarePairs t cs) (s : σ) : RowOrder t (cs.map Prod.fst) s
    (mergedDim ((cs.map Prod.fst).map (mapOf t)) s) (groupIdx (mapOf t) (cs.map Prod.fst)) where
  congr := fun _ _ hpq => groupIdx_congr hpq
  lt := fun p hp => by
    have := groupIdx_lt h.sorted hp.1
    rwa [hp.2] at this
  inj := fun p q hp hq he => groupIdx_inj h.sorted hp.1 hq.1 (by rw [hp.2, hq.2]) he
  surj := fun i hi => by
    obtain ⟨q, q1, q2, q3⟩ := group_surj_names (List.nodup_append.1 h.nodup).1 h.sorted hi
    exact ⟨q, ⟨q1, q2⟩, q3⟩

/-- Every choice for the rows occurs together with a choice for the columns. -/
theorem extend (h : SquarePairs t cs) {s : σ} {p : ν → σ × ℕ} (hp : RowPos t (cs.map Prod.fst) s p) :
    KeyOk (mapOf t) (cs.map Prod.fst ++ cs.map Prod.snd) (partner cs p p) ∧
      (keyOf (cs.map Prod.fst) (partner cs p p)).sum = s := by
  have h1 : ∀ n ∈ cs.map Prod.fst, partner cs p p n = p n := fun n hn =>
    partner_free p p (h.disjoint hn)
  have h2 : (keyOf (cs.map Prod.fst) (partner cs p p)).sum = s := by
    rw [keyOf_congr h1]; exact hp.2
  have hk : ∀ n ∈ cs.map Prod.fst, (p n).1 ∈ OMap.keys (mapOf t n) := fun n hn =>
    dimM_pos (lt_of_le_of_lt (Nat.zero_le _) (hp.1 n hn))
  refine ⟨⟨fun n hn => ?_, ?_⟩, h2⟩
  · rcases List.mem_append.1 hn with hn | hn
    · rw [h1 n hn]; exact hk n hn
    · obtain ⟨c, hc, rfl⟩ := List.mem_map.1 hn
      rw [partner_common h.pairs.nodup2 p p hc]
      exact (matched_key h.matched hc _).1 (hk _ (List.mem_map_of_mem hc))
  · rw [sum_split (List.Perm.refl _), h2, partner_sum h.pairs.nodup2, hp.2, add_neg_cancel]

end SquarePairs

/-- What is known of the result; `Rel` relates the matrices. -/
structure ExpResult [Neg α] (t u : Tensor ν σ α) (cs : List (ν × ν))
    (Rel : ∀ n, Matrix (Fin n) (Fin n) α → Matrix (Fin n) (Fin n) α → Prop) : Prop where
  wf : WF u
  names : u.names = cs.map Prod.fst ++ cs.map Prod.snd
  maps : ∀ n ∈ u.names, mapOf u n = mapOf t n
  arrows : TatSym.isFermi σ = true → ∀ n ∈ u.names, arrowValid (edgeOf t n) = true →
    (edgeOf u n).arrow = (edgeOf t n).arrow
  sectors : ∀ s, (∃ p, RowPos t (cs.map Prod.fst) s p) → ∃ n num X Y,
    RowOrder t (cs.map Prod.fst) s n num ∧ SectorMatrix t cs s num X ∧ SectorMatrix u cs s num Y ∧
      Rel n X Y

/-- A block as a matrix. -/
theorem sector_of_block [Neg α] [Zero α] {T : Tensor ν σ α} (hT : WF T) {F C : Edge σ}
    (he : T.core.edges = [F, C]) {s : σ} (hs : s ∈ OMap.keys F.map)
    (hd : dimOf C (-s) = dimOf F s) {d : List α} (hb : OMap.find? T.core.blocks [s, -s] = some d)
    (i j : Fin (dimOf F s)) :
    elemAt T.core [s, -s] [i.val, j.val] = some (matOf (dimOf F s) d i j) := by
  obtain ⟨d', d1, -, d3⟩ := two_block hT (r := true) he hs (two_keys hT (r := true) he hs)
    (add_neg_cancel s)
  obtain rfl : d = d' := Option.some.inj (hb.symm.trans d1)
  have := d3 i.val i.isLt j.val (by rw [hd]; exact j.isLt)
  rw [hd] at this
  exact this

theorem exp_middle [Field α] [Zero ρ] [LT ρ] [DecidableLT ρ] {lib : ExpoLib α ρ}
    (env : ExpEnv σ α) (step : ℕ) {t : Tensor ν σ α} {cs : List (ν × ν)} (h : SquarePairs t cs)
    {x1 x2 : ν} (hx : x1 ≠ x2) {merge : List (ν × List ν)}
    (hM : opM (mergeArgsOf t merge [x1, x2]) = [cs.map Prod.fst, cs.map Prod.snd])
    {S : List (ν × List (ν × List (σ × ℕ)))}
    (h1 : OMap.find? S x1 = some ((cs.map Prod.fst).map fun n => (n, mapOf t n)))
    (h2 : OMap.find? S x2 = some ((cs.map Prod.snd).map fun n => (n, mapOf t n)))
    (hS : ∀ x ∈ S, ∀ y ∈ x.2, OMap.Sorted y.2)
    {Rel : ∀ n, Matrix (Fin n) (Fin n) α → Matrix (Fin n) (Fin n) α → Prop}
    (hgood : ∀ s, (∃ q, KeyOk (mapOf t) (cs.map Prod.fst ++ cs.map Prod.snd) q ∧
        (keyOf (cs.map Prod.fst) q).sum = s) → ∀ n num X,
      n = mergedDim ((cs.map Prod.fst).map (mapOf t)) s → RowOrder t (cs.map Prod.fst) s n num →
      SectorMatrix t cs s num X → ∀ d f : List α, d.length = n * n → matOf n d = X →
      f.length = n * n → ∃ r, matrixExponential lib env.junk n d f step = .ok r ∧
        r.length = n * n ∧ Rel n X (matOf n r)) :
    ∃ M R blocks u, edgeOperator env.merge t (mergeArgsOf t merge [x1, x2]) = .ok M ∧
      sameShape env.shape M = .ok R ∧
      M.core.blocks.foldlM (expBlock lib env.junk step M.core.edges) R.core.blocks = .ok blocks ∧
      edgeOperator env.split ⟨R.names, ⟨R.core.edges, blocks⟩⟩ {
        split := S, reversed := reversedFree t.names t,
        newNames := cs.map Prod.fst ++ cs.map Prod.snd } = .ok u ∧
      ExpResult t u cs Rel := by
  set A := cs.map Prod.fst with hA
  set B := cs.map Prod.snd with hB
  obtain ⟨M, F, C, m1, hh⟩ := halves_spec env.merge h.wf hx h.perm hM
  have hMn : M.names = [x1, x2] := by
    have hflat : (opM (mergeArgsOf t merge [x1, x2])).flatten = A ++ B := by rw [hM]; simp
    have hg : Gather t (mergeArgsOf t merge [x1, x2]) :=
      { rename := rfl
        split := rfl
        cut := rfl
        wf := h.wf.shaped
        pruned := fun _ => h.wf.pruned
        newNodup := by simp [mergeArgsOf, hx]
        perm := by rw [hflat]; exact h.perm }
    obtain ⟨r, r1, r2, -⟩ := gather_spec env.merge hg
    rw [m1] at r1
    rw [Outcome.ok.inj r1, r2]
    rfl
  have hFC : ∀ s ∈ OMap.keys F.map, -s ∈ OMap.keys C.map := fun s =>
    two_keys hh.wf (r := true) hh.edges
  have hdim : ∀ s ∈ OMap.keys F.map, dimOf C (-s) = dimOf F s := by
    intro s hs
    rw [hh.dimF s hs, hh.dimC _ (hFC s hs)]
    exact (h.aligned.1 s).symm
  have hval : ∀ p, ValidPos t p → ∀ n ∈ A, (p n).2 < dimM (mapOf t n) (p n).1 := fun p hp n hn =>
    ((validPos_iff h.wf).1 hp).1 n (h.perm.mem_iff.2 (List.mem_append_left _ hn))
  have hkeyB : ∀ p : ν → σ × ℕ, (keyOf (A ++ B) p).sum = 0 →
      (keyOf B p).sum = -(keyOf A p).sum := by
    intro p hp
    rw [sum_split (List.Perm.refl _)] at hp
    exact (neg_eq_of_add_eq_zero_right hp).symm
  -- the matrix of a block
  have hX : ∀ s ∈ OMap.keys F.map, ∀ d, OMap.find? M.core.blocks [s, -s] = some d →
      SectorMatrix t cs s (groupIdx (mapOf t) A) (matOf (dimOf F s) d) := by
    intro s hs d hd p hp hps i j hi hj
    have h0 : (keyOf (A ++ B) p).sum = 0 := by
      have := hp.2
      rw [show (keyOf t.names p).sum = (keyOf (A ++ B) p).sum from (h.perm.map _).sum_eq] at this
      exact this
    have e := hh.elem p hp
    rw [hkeyB p h0, hps, h.groupIdx_col p, ← hA, ← hi, ← hj,
      sector_of_block hh.wf hh.edges hs (hdim s hs) hd] at e
    exact e.symm
  obtain ⟨R, blocks, r1, r2, r3, r4, r5, r6⟩ := expBlocks_spec (lib := lib) env.junk env.shape step
    hh.wf hh.edges (P := fun s d r => Rel (dimOf F s) (matOf (dimOf F s) d) (matOf (dimOf F s) r))
    hdim (by
      intro s hs d f hd hl hf
      exact hgood s ((hh.keysF s).1 hs) (dimOf F s) _ _ (hh.dimF s hs)
        (by rw [hh.dimF s hs]; exact h.rowOrder s) (hX s hs d hd) d f hl rfl hf)
  have hsAB : ∀ n ∈ A ++ B, OMap.Sorted (mapOf t n) := fun n hn =>
    mapOf_sorted h.wf n (h.perm.mem_iff.2 hn)
  obtain ⟨u, u1, u2, u3, u4, u5⟩ := scatter_both env.split (t := t)
    (T := ⟨M.names, ⟨M.core.edges, blocks⟩⟩) r5 (A := A) (B := B) h.nodup hsAB hMn hh.edges h1 h2 hS
    (R := reversedFree t.names t)
    (fun q hq => (hh.keysF _).2 ⟨q, hq, rfl⟩) (fun q hq => (hh.keysC _).2 ⟨q, hq, rfl⟩)
    hh.dimF hh.dimC
  have hsmap : ∀ n, (scatterEdge t F C A (reversedFree t.names t) n).map = mapOf t n := by
    intro n
    unfold scatterEdge reversedEdge reverseOne
    by_cases hnA : n ∈ A
    · simp only [if_pos hnA]
      split
      · split <;> rfl
      · rfl
    · simp only [if_neg hnA]
      split
      · split <;> rfl
      · rfl
  have hpr : prunedEdges ((A ++ B).map (scatterEdge t F C A (reversedFree t.names t))) =
      (A ++ B).map (scatterEdge t F C A (reversedFree t.names t)) := by
    refine prunedEdges_perm h.wf.nodup h.perm (e := edgeOf t) (fun n _ => (hsmap n).symm) ?_
    rw [← edges_named h.wf]
    exact h.wf.pruned
  rw [hpr, ← u2] at u4
  have hedge := edgeOf_unique u3 u4
  have hmap : ∀ n ∈ u.names, mapOf u n = mapOf t n := by
    intro n hn
    have := hedge n hn
    unfold mapOf at hsmap ⊢
    rw [this]; exact hsmap n
  refine ⟨M, R, blocks, u, m1, r1, r4, by rw [r2, r3]; exact u1, u3, u2, hmap, ?_, ?_⟩
  · intro hf n hn hv
    rw [hedge n hn]
    rw [u2] at hn
    have hnt := h.perm.mem_iff.2 hn
    have hmem := mem_reversedFree h.wf.shaped (free := t.names) (n := n)
    have harrow : (if n ∈ A then (⟨F.arrow, mapOf t n⟩ : Edge σ) else ⟨C.arrow, mapOf t n⟩).arrow =
        false := by
      by_cases hnA : n ∈ A
      · rw [if_pos hnA]; exact hh.arrowF hf n hnA hv
      · rw [if_neg hnA]
        exact hh.arrowC hf n ((List.mem_append.1 hn).resolve_left hnA) hv
    unfold scatterEdge reversedEdge
    rw [if_pos hf]
    unfold reverseOne
    by_cases hr : n ∈ reversedFree t.names t
    · have := (hmem.1 hr).2.2.2
      rw [this]
      simp only [hr]
      simp [harrow]
    · have : (edgeOf t n).arrow = false := by
        by_contra hc
        exact hr (hmem.2 ⟨hf, hnt, hnt, by simpa using hc⟩)
      rw [this]
      simp only [hr]
      simp [harrow]
  · rintro s ⟨p, hp⟩
    have hs : s ∈ OMap.keys F.map := (hh.keysF s).2 ⟨_, h.extend hp⟩
    obtain ⟨d, r, b1, b2, b3⟩ := r6 s hs
    refine ⟨dimOf F s, _, _, _, by rw [hh.dimF s hs]; exact h.rowOrder s, hX s hs d b1, ?_, b3⟩
    intro q hq hqs i j hi hj
    have hq' : FineOk (mapOf t) (A ++ B) q := by
      rw [← u2]
      exact (fineOk_congr hmap).1 ((validPos_iff u3).1 hq)
    have e := u5 q hq'
    rw [hkeyB q hq'.2, hqs, h.groupIdx_col q, ← hA, ← hi, ← hj,
      sector_of_block (T := ⟨M.names, ⟨M.core.edges, blocks⟩⟩) r5 hh.edges hs (hdim s hs) b2] at e
    rw [e, u2]
    unfold orderSign
    split
    · rw [← hA, ← hB, exchangeOf_refl, applySign_one, Option.map_id, id]
    · rw [applySign_one, Option.map_id, id]

theorem pairNames_halves (pairs : List (ν × ν)) :
    (pairNames pairs).Perm (pairs.map Prod.fst ++ pairs.map Prod.snd) := by
  induction pairs with
  | nil => exact List.Perm.refl _
  | cons c l ih =>
    rw [pairNames_cons, List.map_cons, List.map_cons, List.cons_append]
    refine List.Perm.cons _ ?_
    exact (ih.cons _).trans List.perm_middle.symm

theorem exponential_spec [Field α] [Zero ρ] [LT ρ] [DecidableLT ρ] {lib : ExpoLib α ρ}
    (env : ExpEnv σ α) {en : ExpNames ν} (hen : en.e1 ≠ en.e2) (noName : ν) (step : ℕ)
    {t : Tensor ν σ α} (ht : WF t) {pairs : List (ν × ν)} (hp : t.names.Perm (pairNames pairs))
    (hm : Matched t t pairs) (hl : Separated t (pairs.map Prod.fst) ∨ ∀ s : σ, -s = s)
    {Rel : ∀ n, Matrix (Fin n) (Fin n) α → Matrix (Fin n) (Fin n) α → Prop}
    (hgood : ∀ cs : List (ν × ν), cs.Perm pairs ∨ cs.Perm (pairs.map Prod.swap) →
      SquarePairs t cs →
      ∀ s, (∃ q, KeyOk (mapOf t) (cs.map Prod.fst ++ cs.map Prod.snd) q ∧
        (keyOf (cs.map Prod.fst) q).sum = s) → ∀ n num X,
      n = mergedDim ((cs.map Prod.fst).map (mapOf t)) s → RowOrder t (cs.map Prod.fst) s n num →
      SectorMatrix t cs s num X → ∀ d f : List α, d.length = n * n → matOf n d = X →
      f.length = n * n → ∃ r, matrixExponential lib env.junk n d f step = .ok r ∧
        r.length = n * n ∧ Rel n X (matOf n r)) :
    ∃ cs u, (cs.Perm pairs ∨ cs.Perm (pairs.map Prod.swap)) ∧
      exponential lib env en noName t pairs step = .ok u ∧ ExpResult t u cs Rel := by
  have ok_bind : ∀ {β δ : Type} (x : β) (f : β → Outcome δ), (Outcome.ok x).bind f = f x :=
    fun _ _ => rfl
  have hn : (pairNames pairs).Nodup := hp.nodup_iff.1 ht.nodup
  have hs : ∀ n ∈ pairNames pairs, n ∈ t.names := fun n hn => hp.mem_iff.2 hn
  set l := t.names.filterMap (expPair t.names pairs) with hl0
  have hlp : l.Perm pairs := expPairs_perm ht.nodup hn hs
  have hsq : SquarePairs t l := {
    wf := ht
    perm := (hp.trans (pairNames_halves pairs)).trans
      ((hlp.map Prod.fst).append (hlp.map Prod.snd)).symm
    matched := hm.perm hlp
    labels := hl.imp (fun h => h.perm (hlp.map Prod.fst)) id }
  have e1 : (l.map (withMaps t)).map Prod.fst = (l.map Prod.fst).map fun n => (n, mapOf t n) := by
    rw [List.map_map, List.map_map]; rfl
  have e2 : (l.map (withMaps t)).map Prod.snd = (l.map Prod.snd).map fun n => (n, mapOf t n) := by
    rw [List.map_map, List.map_map]; rfl
  have p1 : ∀ G : List ν, (G.map fun n => (n, mapOf t n)).map Prod.fst = G := map_fst_parts t
  set S := OMap.ofList [(en.e1, (l.map Prod.fst).map fun n => (n, mapOf t n)),
    (en.e2, (l.map Prod.snd).map fun n => (n, mapOf t n))] with hS
  have f1 : OMap.find? S en.e1 = some ((l.map Prod.fst).map fun n => (n, mapOf t n)) := by
    rw [hS]; unfold OMap.ofList
    simp only [List.foldl_cons, List.foldl_nil, OMap.find?_set, if_neg hen, if_true]
  have f2 : OMap.find? S en.e2 = some ((l.map Prod.snd).map fun n => (n, mapOf t n)) := by
    rw [hS]; unfold OMap.ofList
    simp only [List.foldl_cons, List.foldl_nil, OMap.find?_set, if_true]
  have hss : ∀ x ∈ S, ∀ y ∈ x.2, OMap.Sorted y.2 := by
    intro x hx y hy
    have hxs : OMap.Sorted S := by
      rw [hS]; unfold OMap.ofList
      exact ((show OMap.Sorted ([] : List (ν × List (ν × List (σ × ℕ)))) from List.Pairwise.nil).set _ _).set _ _
    have hfx := OMap.find?_of_mem hxs.nodup hx
    have hfx' : some x.2 = some ((l.map Prod.snd).map fun n => (n, mapOf t n)) ∨
        some x.2 = some ((l.map Prod.fst).map fun n => (n, mapOf t n)) := by
      rw [hS] at hfx; unfold OMap.ofList at hfx
      simp only [List.foldl_cons, List.foldl_nil, OMap.find?_set] at hfx
      split at hfx
      · exact Or.inl hfx.symm
      · split at hfx
        · exact Or.inr hfx.symm
        · simp [OMap.find?] at hfx
    have hin : ∀ (G : List ν), (∀ n ∈ G, n ∈ t.names) → some x.2 = some (G.map fun n => (n, mapOf t n)) →
        OMap.Sorted y.2 := by
      intro G hG he
      rw [Option.some.inj he] at hy
      obtain ⟨n, hn, rfl⟩ := List.mem_map.1 hy
      exact mapOf_sorted ht n (hG n hn)
    rcases hfx' with he | he
    · exact hin _ (fun n hn => hsq.perm.mem_iff.2 (List.mem_append_right _ hn)) he
    · exact hin _ (fun n hn => hsq.perm.mem_iff.2 (List.mem_append_left _ hn)) he
  have hne : ¬ (t.names ≠ [] ∧ l.map Prod.fst = []) := by
    rintro ⟨h1, h2⟩
    rw [List.map_eq_nil_iff] at h2
    have := hsq.perm.length_eq
    rw [h2] at this
    exact h1 (List.eq_nil_of_length_eq_zero this)
  unfold exponential
  rw [expLoop_all ht hp, ok_bind]
  dsimp only
  rw [List.replicate_zero, List.nil_append, List.nil_append, ← hl0, e1, e2, p1, p1, if_neg hne, ← hS]
  cases hsw : (decide (t.names = []) || decide (t.names.getLast? = (l.map Prod.fst).getLast?)) with
  | true =>
    simp only [if_true]
    have hM := opM_mergeArgsOf t hen (l.map Prod.fst) (l.map Prod.snd) false
    simp only [Bool.false_eq_true, if_false] at hM
    have hor : (l.map Prod.swap).Perm pairs ∨ (l.map Prod.swap).Perm (pairs.map Prod.swap) :=
      Or.inr (hlp.map _)
    have hmid := exp_middle (lib := lib) env step hsq.swap hen.symm
      (merge := [(en.e1, l.map Prod.fst), (en.e2, l.map Prod.snd)]) (S := S) (Rel := Rel)
    rw [SquarePairs.fst_swap, SquarePairs.snd_swap] at hmid
    have hg := hgood _ hor hsq.swap
    rw [SquarePairs.fst_swap, SquarePairs.snd_swap] at hg
    obtain ⟨M, R, blocks, u, a1, a2, a3, a4, a5⟩ := hmid hM f2 f1 hss hg
    refine ⟨_, u, hor, ?_, a5⟩
    rw [a1, ok_bind, a2, ok_bind, a3, ok_bind, a4]
  | false =>
    simp only [Bool.false_eq_true, if_false]
    have hM := opM_mergeArgsOf t hen (l.map Prod.fst) (l.map Prod.snd) true
    simp only [if_true] at hM
    have hor : l.Perm pairs ∨ l.Perm (pairs.map Prod.swap) := Or.inl hlp
    obtain ⟨M, R, blocks, u, a1, a2, a3, a4, a5⟩ := exp_middle (lib := lib) env step hsq hen
      (merge := [(en.e1, l.map Prod.fst), (en.e2, l.map Prod.snd)]) (S := S) (Rel := Rel)
      hM f1 f2 hss (hgood _ hor hsq)
    refine ⟨_, u, hor, ?_, a5⟩
    rw [a1, ok_bind, a2, ok_bind, a3, ok_bind, a4]

end TAT
