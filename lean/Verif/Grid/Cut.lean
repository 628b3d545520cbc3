import Verif.Grid.Exact
import Verif.Square.DenseCut

/-!
# Helper lemmas: `two_line_to_one_line` of the examples with any cut
-/

namespace TAT.Grid

set_option linter.unusedSectionVars false
set_option linter.unusedSimpArgs false

variable {ν α β : Type} [LinearOrder ν] [Field α] [LinearOrder β] [Zero β] {e : AuxEnv ν α β} {s : Side → String}

/-- The decomposition with any cut, the singular values are put into U. -/
theorem svd_any (he : AuxEnvOk e) (hs : Dirs s) {t : Tensor ν NoSymmetry α} {T : Leg → Option ℕ}
    (ht : HasLegs (legName e.nm s) t T) {set : List Leg} {commonU commonV : Leg}
    (hU : commonU ∈ set → T commonU = none) (hV : commonV ∉ set → T commonV = none) {D : ℕ} (hD : D ≠ 0) :
    ∃ K u S v w, svd e.gesvd e.svdEnv e.svdJunk e.sn t (set.map (legName e.nm s))
        (legName e.nm s commonU) (legName e.nm s commonV) D = .ok (u, S, v) ∧
      multiple e.junk (fun x y => x * e.c y) e.inv u S (legName e.nm s commonU) 'u' false = .ok w ∧
      HasLegs (legName e.nm s) w (fun g => if g = commonU then some K else if g ∈ set then T g else none) ∧
      HasLegs (legName e.nm s) v (fun g => if g = commonV then some K else if g ∈ set then none else T g) ∧
      (D ≠ 2 ^ 64 - 1 → K ≤ D) := by
  have hι : Function.Injective (legName e.nm s) := he.inj.comp hs.inj
  have l : ∀ g, leg t (legName e.nm s g) = T g := ht.legs
  have off : ∀ n, (∀ g, n ≠ legName e.nm s g) → leg t n = none := fun n hn => by
    by_contra h
    obtain ⟨g, rfl⟩ := ht.only n h
    exact hn g rfl
  have cU : legName e.nm s commonU ∈ set.map (legName e.nm s) → leg t (legName e.nm s commonU) = none :=
    fun h => by rw [l]; exact hU ((mem_map_label hι).1 h)
  have cV : legName e.nm s commonV ∉ set.map (legName e.nm s) → leg t (legName e.nm s commonV) = none :=
    fun h => by rw [l]; exact hV fun h' => h ((mem_map_label hι).2 h')
  obtain ⟨u, S, v, w, K, e1, e2, -, e4, -, e6, e7, e8, e9, e10, L, rfl, hL⟩ := dense_svd_parts e.ce he.gemm
    he.names he.svd e.svdEnv e.svdJunk e.junk e.inv he.sn ht.dense
    (set.map (legName e.nm s)) (hs.ne he.u commonU) (hs.ne he.v commonV) cU cV
  have lu : ∀ n, leg u n = if n = legName e.nm s commonU then some K else
      if n ∈ set.map (legName e.nm s) then leg t n else none := fun n => by rw [e10, e6]
  have key : ∀ (K' : ℕ) (u' v' : Tensor ν NoSymmetry α) (L' : List β), L'.length = K' → Dense u' → Dense v' →
      (∀ n, leg u' n = if n = legName e.nm s commonU then some K' else leg u n) →
      (∀ n, leg v' n = if n = legName e.nm s commonV then some K' else leg v n) →
      ∃ w', multiple e.junk (fun x y => x * e.c y) e.inv u' [(0, L')] (legName e.nm s commonU) 'u' false =
        .ok w' ∧
        HasLegs (legName e.nm s) w' (fun g => if g = commonU then some K' else if g ∈ set then T g else none) ∧
        HasLegs (legName e.nm s) v' (fun g => if g = commonV then some K' else if g ∈ set then none else T g) := by
    intro K' u' v' L' hL' hu hv lu' lv'
    obtain ⟨z, z1, z2, z3, -⟩ := dense_multiple e.junk e.c e.inv hu (S := L')
      (n := legName e.nm s commonU) (direction := 'u') (by simp [IsDirection]) false
      (by rw [lu', if_pos rfl, hL'])
    refine ⟨z, z1, ⟨z2, fun n hn => ?_, fun g => ?_⟩, ⟨hv, fun n hn => ?_, fun g => ?_⟩⟩
    · by_contra h
      push Not at h
      rw [z3, lu', if_neg (h _), lu, if_neg (h _), off n h, ite_self] at hn
      exact hn rfl
    · rw [gleg, z3, lu', lu, l]
      by_cases hg : g = commonU
      · rw [if_pos (congrArg _ hg), if_pos hg]
      · rw [if_neg (fun h => hg (hι h)), if_neg (fun h => hg (hι h)), if_neg hg]
        exact if_congr (mem_map_label hι) rfl rfl
    · by_contra h
      push Not at h
      rw [lv', if_neg (h _), e7, if_neg (h _), off n h, ite_self] at hn
      exact hn rfl
    · rw [gleg, lv', e7, l]
      by_cases hg : g = commonV
      · rw [if_pos (congrArg _ hg), if_pos hg]
      · rw [if_neg (fun h => hg (hι h)), if_neg (fun h => hg (hι h)), if_neg hg]
        exact if_congr (mem_map_label hι) rfl rfl
  by_cases hk : Keeps K D
  · obtain ⟨z, z1, z2, z3⟩ := key K u v L hL e9 e4 (fun n => by
      rw [lu]
      split <;> rfl) (fun n => by
      rw [e7]
      split <;> rfl)
    refine ⟨K, u, [(0, L)], v, z, ?_, z1, z2, z3, fun h => hk.resolve_right h⟩
    rcases hk with hk | rfl
    · exact C35_large_cut e.svdEnv e.svdJunk e.sn t _ _ _ e1 (by simpa [hL] using hk)
    · exact e1
  · have h1 : D ≠ 2 ^ 64 - 1 := fun h => hk (Or.inr h)
    have h2 : D < L.length := by
      rw [hL]
      exact not_le.1 fun h => hk (Or.inl h)
    obtain ⟨u', v', c1, c2, c3⟩ := dense_svd_cut he.svd e.svdEnv e.svdJunk he.sn ht.dense
      (set.map (legName e.nm s)) (hs.ne he.u commonU) (hs.ne he.v commonV) cU cV e1 e9 e4 hD h1 h2
    obtain ⟨z, z1, z2, z3⟩ := key D u' v' (L.take D) (by rw [List.length_take]; omega) c2.dense c3.dense c2.legs c3.legs
    exact ⟨D, u', _, v', z, c1, z1, z2, z3, fun _ => le_rfl⟩

/-- One step with any cut. -/
theorem site_any (he : AuxEnvOk e) (hs : Dirs s)
    {t t' : Tensor ν NoSymmetry α} {a b c u u' d d' : Option ℕ} (h : SiteOn e s t a b u d)
    (h' : SiteOn e s t' b c u' d') {D : ℕ} (hD : D ≠ 0) :
    ∃ x w v K U S, e.join (e.rename t [(s .up, s .up ++ "1"), (s .down, s .down ++ "1")])
        (e.rename t' [(s .up, s .up ++ "2"), (s .down, s .down ++ "2")]) [(s .right, s .left)] = .ok x ∧
      svd e.gesvd e.svdEnv e.svdJunk e.sn x [e.nm (s .left), e.nm (s .up ++ "1"), e.nm (s .down ++ "1")]
          (e.nm (s .right)) (e.nm (s .left)) D = .ok (U, S, v) ∧
      multiple e.junk (fun x y => x * e.c y) e.inv U S (e.nm (s .right)) 'u' false = .ok w ∧
      SiteOn e s (e.rename w [(s .up ++ "1", s .up), (s .down ++ "1", s .down)]) a (some K) u d ∧
      SiteOn e s (e.rename v [(s .up ++ "2", s .up), (s .down ++ "2", s .down)]) (some K) c u' d' ∧
      (D ≠ 2 ^ 64 - 1 → K ≤ D) := by
  have hι : Function.Injective (legName e.nm s) := he.inj.comp hs.inj
  obtain ⟨a1, a2⟩ := rename_ok he hs h [((.up, .plain), (.up, .one)), ((.down, .plain), (.down, .one))]
    (by decide) (by decide) (by simp [siteLegs])
  obtain ⟨b1, b2⟩ := rename_ok he hs h' [((.up, .plain), (.up, .two)), ((.down, .plain), (.down, .two))]
    (by decide) (by decide) (by simp [siteLegs])
  obtain ⟨x, c1, c2, c3⟩ := join_ok he hs a1 b1 [((.right, .plain), (.left, .plain))] (by decide) (by decide)
    (by simp [renameLegs, siteLegs]) (by
      rintro ⟨x, y⟩
      cases x <;> cases y <;> simp [renameLegs, siteLegs])
  have c2 : HasLegs (legName e.nm s) x (pairLegs a c u u' d d') := c2.cast (by
    rintro ⟨x, y⟩
    cases x <;> cases y <;> simp [contractLegs, renameLegs, siteLegs, pairLegs])
  obtain ⟨K, U, S, v, w, g1, g2, g3, g4, g5⟩ := svd_any he hs c2
    (set := [(.left, .plain), (.up, .one), (.down, .one)])
    (commonU := (.right, .plain)) (commonV := (.left, .plain)) (by simp) (by simp) hD
  obtain ⟨w1, w2⟩ := rename_ok he hs g3 [((.up, .one), (.up, .plain)), ((.down, .one), (.down, .plain))]
    (by decide) (by decide) (by simp)
  obtain ⟨v1, v2⟩ := rename_ok he hs g4 [((.up, .two), (.up, .plain)), ((.down, .two), (.down, .plain))]
    (by decide) (by decide) (by simp [pairLegs])
  refine ⟨x, w, v, K, U, S, c1, g1, g2, w1.cast ?_, v1.cast ?_, g5⟩
  · rintro ⟨x, y⟩
    cases x <;> cases y <;> simp [renameLegs, siteLegs, pairLegs]
  · rintro ⟨x, y⟩
    cases x <;> cases y <;> simp [renameLegs, siteLegs, pairLegs]

theorem truncated_any (he : AuxEnvOk e) (hs : Dirs s) {D : ℕ} (hD : D ≠ 0)
    {l : List (Tensor ν NoSymmetry α)} {a : Option ℕ} {us ds : List (Option ℕ)} (hl : TAT.IsRow e s l a us ds) :
    ∃ r, truncated e (labelled s) D l = .ok r ∧ TAT.IsRow e s r a us ds ∧
      (D ≠ 2 ^ 64 - 1 → ∀ t ∈ r, bondDim (gleg (legName e.nm s) t (.right, .plain)) ≤ D) := by
  induction hl with
  | nil => exact ⟨[], rfl, .nil, by simp⟩
  | @cons t a b u d l us ds h hl ih =>
    obtain ⟨r, g1, g2, g3⟩ := ih
    cases g2 with
    | nil =>
      refine ⟨[t], by rw [truncated, g1, Outcome.bind], .cons h .nil, fun _ t' ht' => ?_⟩
      rw [List.mem_singleton] at ht'
      rw [ht', h.right, bondDim, Option.getD_none]
      omega
    | @cons t' _ c u' d' l' us' ds' h' hl' =>
      obtain ⟨x, w, v, K, U, S, f1, f2, f3, f4, f5, f6⟩ := site_any he hs h h' hD
      refine ⟨_, ?_, .cons f4 (.cons f5 hl'), fun hne t'' ht'' => ?_⟩
      · rw [← svd_set e.gesvd e.svdEnv e.svdJunk e.sn x (freeNames_mem he hs h h' f1)] at f2
        rw [truncated, g1, Outcome.bind]
        simp only [labelled] at f2 ⊢
        rw [f1, Outcome.bind, f2, Outcome.bind]
        dsimp only
        rw [f3, Outcome.bind]
      · rcases List.mem_cons.1 ht'' with rfl | ht''
        · rw [f4.right]
          exact f6 hne
        · rcases List.mem_cons.1 ht'' with rfl | ht''
          · rw [f5.right]
            have := g3 hne t' (by simp)
            rwa [h'.right] at this
          · exact g3 hne t'' (by simp [ht''])

theorem twoLines_any (he : GridEnvOk e s) {D : ℕ} (hD : D ≠ 0) {N : ℕ} {t1 t2 : ℕ → Tensor ν NoSymmetry α}
    {h1 h2 v d : ℕ → Option ℕ} (r1 : RowOn (aliased e s) sideString N t1 h1 (fun _ => none) v)
    (r2 : RowOn (aliased e s) sideString N t2 h2 v d) :
    ∃ t h, twoLineToOneLine e (s .up) (s .down) (s .left) (s .right)
        ((List.range N).map t1) ((List.range N).map t2) D = .ok ((List.range N).map t) ∧
      RowOn (aliased e s) sideString N t h (fun _ => none) d ∧
      (D ≠ 2 ^ 64 - 1 → ∀ j ≤ N, (h j).getD 1 ≤ D) := by
  obtain ⟨l1, -⟩ := r1.isRow
  obtain ⟨k1, -⟩ := r2.isRow
  have l1 : IsLine (aliased e s) sideString ((List.range N).map t1) none ((List.range N).map v) := by
    rw [IsLine, List.map_map]
    exact l1
  have ha := aliased_ok he
  obtain ⟨l, d1, d2, d3, -⟩ := doubleLine_ok ha sideString_dirs l1 (by simp) k1
  have key : ∃ r, oneLine (aliased e s) (labelled sideString) ((List.range N).map t1) ((List.range N).map t2) D =
      .ok r ∧ IsLine (aliased e s) sideString r none ((List.range N).map d) ∧
      (D ≠ 2 ^ 64 - 1 → ∀ t ∈ r, bondDim (gleg (legName (aliased e s).nm sideString) t (.right, .plain)) ≤ D) := by
    generalize (List.range N).map d = ds at d2
    cases d2 with
    | nil =>
      refine ⟨[], ?_, .nil, by simp⟩
      rw [oneLine, if_neg (by simp), products_double, d1]
      rfl
    | @cons t _ _ b1 b2 d l ds ht hl =>
      have ht' : HasLegs (legName (aliased e s).nm sideString) t (halfLegs none b1 b2 d) := ht.cast (by
        rintro ⟨x, y⟩
        cases x <;> cases y <;> simp [doubleLegs, halfLegs])
      obtain ⟨q, q1, q2, -⟩ := canonical_ok ha sideString_dirs (t :: l).length ht' hl (by simp)
      obtain ⟨r, r1, r2, r3⟩ := truncated_any ha sideString_dirs hD q2
      refine ⟨r, ?_, r2, r3⟩
      rw [oneLine, if_neg (by simp), products_double, d1, Outcome.bind, q1, Outcome.bind, r1]
  obtain ⟨r, f1, f2, f3⟩ := key
  obtain ⟨t, h, q1, q2, -⟩ := f2.index
  refine ⟨t, h, by rw [oneLine_aliased, f1, q1], q2, fun hne j hj => ?_⟩
  cases j with
  | zero =>
    rw [q2.left, Option.getD_none]
    omega
  | succ j =>
    have := f3 hne (t j) (by rw [q1]; exact List.mem_map.2 ⟨j, List.mem_range.2 (by omega), rfl⟩)
    rwa [(q2.site j (by omega)).right] at this

theorem lines_any (he : GridEnvOk e sides) {D : ℕ} (hD : D ≠ 0) {L : ℕ} {site : ℕ → ℕ → Tensor ν NoSymmetry α}
    {h v : ℕ → ℕ → Option ℕ} (hg : IsGrid e.nm L site h v) (k : ℕ) (hk : k < L) :
    ∃ t g, lines e L site D k = .ok ((List.range L).map t) ∧
      RowOn (aliased e sides) sideString L t g (fun _ => none) (v (k + 1)) ∧
      (k ≠ 0 → D ≠ 2 ^ 64 - 1 → ∀ j ≤ L, (g j).getD 1 ≤ D) := by
  induction k with
  | zero =>
    have hv : v 0 = fun _ => none := funext hg.top
    have h0 := (hg.row 0 hk).on he
    rw [hv] at h0
    exact ⟨site 0, h 0, rfl, h0, fun h => absurd rfl h⟩
  | succ k ih =>
    obtain ⟨t, g, e1, e2, -⟩ := ih (by omega)
    obtain ⟨t', g', f1, f2, f3⟩ := twoLines_any he hD e2 ((hg.row (k + 1) hk).on he)
    refine ⟨t', g', ?_, f2, fun _ => f3⟩
    rw [lines, e1, Outcome.bind]
    exact f1

theorem contractLines_any (he : GridEnvOk e sides) {D : ℕ} (hD : D ≠ 0) {L : ℕ}
    {site : ℕ → ℕ → Tensor ν NoSymmetry α} {h v : ℕ → ℕ → Option ℕ} (hg : IsGrid e.nm L site h v) :
    ∃ x, contractLines e L site D = .ok x := by
  have h1 : SiteOn (aliased e sides) sideString (oneTensor : Tensor ν NoSymmetry α) none none none none := one_site _
  cases L with
  | zero => exact ⟨1, rfl⟩
  | succ L =>
    obtain ⟨t, g, e1, e2, -⟩ := lines_any he hD hg L (by omega)
    have hv : v (L + 1) = fun _ => none := funext hg.bottom
    rw [hv] at e2
    obtain ⟨r, f1, f2, f3⟩ := joinLine_ok he e2 (L + 1) 0 (by omega) (r := oneTensor) (by rw [e2.left]; exact h1)
    refine ⟨gval (legName (aliased e sides).nm sideString) r fun _ => 0, ?_⟩
    rw [contractLines, Nat.add_sub_cancel, e1, Outcome.bind, List.range_eq_range', f1, Outcome.bind,
      only_ok f2 (fun _ => 0)]

end TAT.Grid
