import Verif.Torus.Ring

/-!
# Helper lemmas: the decompositions in the contraction of two lines on a torus
-/

namespace TAT.Torus

open TAT.Grid (IsSite sides GridEnvOk freeNames namesOf Names)

set_option linter.unusedSectionVars false
set_option linter.unusedSimpArgs false

variable {ν α β : Type} [LinearOrder ν] [Field α] [LinearOrder β] [Zero β] {e : AuxEnv ν α β}

theorem LinesEnvOk.u (he : LinesEnvOk e) (g : Leg) : e.sn.u ≠ ringName e g := by
  obtain ⟨x, m⟩ := g
  cases m
  · exact he.grid.u (x, .plain)
  · exact he.grid.u (x, .one)
  · exact he.grid.u (x, .two)
  · exact (he.one x).1
  · exact (he.two x).1

theorem LinesEnvOk.v (he : LinesEnvOk e) (g : Leg) : e.sn.v ≠ ringName e g := by
  obtain ⟨x, m⟩ := g
  cases m
  · exact he.grid.v (x, .plain)
  · exact he.grid.v (x, .one)
  · exact he.grid.v (x, .two)
  · exact (he.one x).2
  · exact (he.two x).2

/-- The names of tools.hpp. -/
def nn : Names := namesOf "up" "down" "left" "right"

/-- One step of the sweep of decompositions from the left. -/
theorem ring_canonical (he : LinesEnvOk e)
    {t t' : Tensor ν NoSymmetry α} {a a1 a2 b1 b2 c1 c2 u u' d d' : Option ℕ}
    (h : HasLegs (ringName e) t (full a a1 a2 none b1 b2 u d))
    (h' : HasLegs (ringName e) t' (full none b1 b2 none c1 c2 u' d')) :
    ∃ U S v x t'' K, ∃ R : ℕ → ℕ → ℕ → α,
      svd e.gesvd e.svdEnv e.svdJunk e.sn t [e.nm nn.right1, e.nm nn.right2] (e.nm nn.left)
        (e.nm nn.right) (2 ^ 64 - 1) = .ok (U, S, v) ∧
      e.join t' U [(nn.left1, nn.right1), (nn.left2, nn.right2)] = .ok x ∧
      multiple e.junk (fun x y => x * e.c y) e.inv x S (e.nm nn.left) 'u' false = .ok t'' ∧
      HasLegs (ringName e) v (full a a1 a2 (some K) none none u d) ∧
      HasLegs (ringName e) t'' (full (some K) none none none c1 c2 u' d') ∧
      (∀ x x1 x2 y1 y2 z y, fval e t x x1 x2 0 y1 y2 z y =
        ∑ k ∈ Finset.range K, fval e v x x1 x2 k 0 0 z y * R k y1 y2) ∧
      ∀ k w1 w2 z y, fval e t'' k 0 0 0 w1 w2 z y =
        ∑ y1 ∈ Finset.range (bondDim b1), ∑ y2 ∈ Finset.range (bondDim b2),
          fval e t' 0 y1 y2 0 w1 w2 z y * R k y1 y2 := by
  have hι : Function.Injective (ringName e) := ringName_inj he.grid
  have l : ∀ g, leg t (ringName e g) = full a a1 a2 none b1 b2 u d g := h.legs
  have off : ∀ n, (∀ g, n ≠ ringName e g) → leg t n = none := fun n hn => by
    by_contra h0
    obtain ⟨g, rfl⟩ := h.only n h0
    exact hn g rfl
  have cU : ringName e (.left, .plain) ∈ ([(.right, .one), (.right, .two)] : List Leg).map (ringName e) →
      leg t (ringName e (.left, .plain)) = none := fun h => by
    rw [mem_map_label hι] at h
    simp at h
  have cV : ringName e (.right, .plain) ∉ ([(.right, .one), (.right, .two)] : List Leg).map (ringName e) →
      leg t (ringName e (.right, .plain)) = none := fun h => by rw [l]; rfl
  obtain ⟨U, S, v, w, K, e1, e2, -, e4, -, e6, e7, e8, e9, e10, Λ, rfl, hL⟩ := dense_svd_parts e.ce he.grid.gemm
    he.grid.names he.grid.svd e.svdEnv e.svdJunk e.junk e.inv he.grid.sn h.dense
    (([(.right, .one), (.right, .two)] : List Leg).map (ringName e)) (he.u (.left, .plain))
    (he.v (.right, .plain)) cU cV
  have lu : ∀ n, leg U n = if n = ringName e (.left, .plain) then some K else
      if n ∈ ([(.right, .one), (.right, .two)] : List Leg).map (ringName e) then leg t n else none :=
    fun n => by rw [e10, e6]
  obtain ⟨w', m1, m2, m3, m4⟩ := dense_multiple e.junk e.c e.inv e9 (S := Λ)
    (n := ringName e (.left, .plain)) (direction := 'u') (by simp [IsDirection]) false
    (by rw [lu, if_pos rfl, hL])
  rw [e2, Outcome.ok.injEq] at m1
  subst m1
  have hu : HasLegs (ringName e) U (full (some K) none none none b1 b2 none none) := by
    refine ⟨e9, fun n hn => ?_, fun g => ?_⟩
    · by_contra h0
      push Not at h0
      rw [lu, if_neg (h0 _), off n h0, ite_self] at hn
      exact hn rfl
    · rw [gleg, lu, l, if_congr hι.eq_iff rfl (if_congr (mem_map_label hι) rfl rfl)]
      obtain ⟨x, y⟩ := g
      cases x <;> cases y <;> simp [full]
  have hv : HasLegs (ringName e) v (full a a1 a2 (some K) none none u d) := by
    refine ⟨e4, fun n hn => ?_, fun g => ?_⟩
    · by_contra h0
      push Not at h0
      rw [e7, if_neg (h0 _), off n h0, ite_self] at hn
      exact hn rfl
    · rw [gleg, e7, l, if_congr hι.eq_iff rfl (if_congr (mem_map_label hι) rfl rfl)]
      obtain ⟨x, y⟩ := g
      cases x <;> cases y <;> simp [full]
  obtain ⟨x, j1, j2, j3⟩ := ring_join he.grid h' hu [((.left, .one), (.right, .one)), ((.left, .two), (.right, .two))]
    (by decide) (by decide) (by simp [full]) (by
      rintro ⟨x, y⟩
      cases x <;> cases y <;> simp [full])
  have j2 : HasLegs (ringName e) x (full (some K) none none none c1 c2 u' d') := j2.cast (by
    rintro ⟨x, y⟩
    cases x <;> cases y <;> simp [contractLegs, full])
  obtain ⟨t'', z1, z2, z3, z4⟩ := dense_multiple e.junk e.c e.inv j2.dense (S := Λ)
    (n := ringName e (.left, .plain)) (direction := 'u') (by simp [IsDirection]) false (by
      have := j2.legs (.left, .plain)
      rw [gleg] at this
      rw [this, hL]
      rfl)
  have ht'' : HasLegs (ringName e) t'' (full (some K) none none none c1 c2 u' d') :=
    ⟨z2, fun n hn => j2.only n (by rwa [z3] at hn), fun g => by rw [gleg, z3]; exact j2.legs g⟩
  refine ⟨U, [(0, Λ)], v, x, t'', K,
    fun k y1 y2 => fval e U k 0 0 0 y1 y2 0 0 * e.c (Λ.getD k 0), e1, j1, z1, hv, ht'',
    fun i i1 i2 y1 y2 z y => ?_, fun k i1 i2 z y => ?_⟩
  · rw [fval, gval, e8]
    refine Finset.sum_congr rfl fun k _ => ?_
    have q1 : val U (Function.update (Function.extend (ringName e) (fidx i i1 i2 0 y1 y2 z y) fun _ => 0)
        (ringName e (.left, .plain)) k) = fval e U k 0 0 0 y1 y2 0 0 := by
      rw [extend_update hι]
      refine gval_congr hι hu ?_
      rintro ⟨x, y⟩
      cases x <;> cases y <;> simp [full, fidx, Function.update_apply]
    have q2 : val v (Function.update (Function.extend (ringName e) (fidx i i1 i2 0 y1 y2 z y) fun _ => 0)
        (ringName e (.right, .plain)) k) = fval e v i i1 i2 k 0 0 z y := by
      rw [extend_update hι]
      refine gval_congr hι hv ?_
      rintro ⟨x, y⟩
      cases x <;> cases y <;> simp [full, fidx, Function.update_apply]
    rw [m4, q1, q2]
    simp only [Bool.false_eq_true, if_false, Function.update_self]
    ring
  · have q3 : (Function.extend (ringName e) (fidx k 0 0 0 i1 i2 z y) fun _ => 0) (ringName e (.left, .plain)) = k :=
      hι.extend_apply _ _ _
    rw [fval, gval, z4, q3]
    simp only [Bool.false_eq_true, if_false]
    have := j3 (fidx k 0 0 0 i1 i2 z y)
    rw [gval] at this
    rw [this]
    simp only [sumPairs, Finset.sum_mul]
    refine Finset.sum_congr (by simp [full, bondDim]) fun y1 _ =>
      Finset.sum_congr (by simp [full, bondDim]) fun y2 _ => ?_
    rw [mul_assoc]
    congr 1
    · refine gval_congr hι h' ?_
      rintro ⟨x, y⟩
      cases x <;> cases y <;> simp [full, fidx, Function.update_apply]
    · congr 1
      refine gval_congr hι hu ?_
      rintro ⟨x, y⟩
      cases x <;> cases y <;> simp [full, fidx, Function.update_apply]

/-- The edges of two sites, with marks `m` and `m'` for the edges above and below of the first and of the second. -/
def two (m m' : Mark) (a a1 a2 c c1 c2 u u' d d' : Option ℕ) : Leg → Option ℕ
  | (.left, .plain) => a
  | (.left, .one) => a1
  | (.left, .two) => a2
  | (.right, .plain) => c
  | (.right, .one) => c1
  | (.right, .two) => c2
  | (.up, x) => if x = m then u else if x = m' then u' else none
  | (.down, x) => if x = m then d else if x = m' then d' else none
  | _ => none

/-- Indices of the edges of two sites. -/
def tidx (m m' : Mark) (a a1 a2 c c1 c2 u u' d d' : ℕ) : Leg → ℕ
  | (.left, .plain) => a
  | (.left, .one) => a1
  | (.left, .two) => a2
  | (.right, .plain) => c
  | (.right, .one) => c1
  | (.right, .two) => c2
  | (.up, x) => if x = m then u else if x = m' then u' else 0
  | (.down, x) => if x = m then d else if x = m' then d' else 0
  | _ => 0

/-- One step of the sweep of decompositions from the right. -/
theorem ring_truncated (he : LinesEnvOk e)
    {t t' : Tensor ν NoSymmetry α} {a a1 a2 b c c1 c2 u u' d d' : Option ℕ}
    (h : HasLegs (ringName e) t (full a a1 a2 b none none u d))
    (h' : HasLegs (ringName e) t' (full b none none c c1 c2 u' d')) :
    ∃ x w v K, e.join (e.rename t [(nn.up, nn.up1), (nn.down, nn.down1)])
        (e.rename t' [(nn.up, nn.up2), (nn.down, nn.down2)]) [(nn.right, nn.left)] = .ok x ∧
      (∀ cut, Keeps K cut → ∃ U S,
        svd e.gesvd e.svdEnv e.svdJunk e.sn x (freeNames e nn t) (e.nm nn.right) (e.nm nn.left) cut = .ok (U, S, v) ∧
        multiple e.junk (fun x y => x * e.c y) e.inv U S (e.nm nn.right) 'u' false = .ok w) ∧
      HasLegs (ringName e) (e.rename w [(nn.up1, nn.up), (nn.down1, nn.down)])
        (full a a1 a2 (some K) none none u d) ∧
      HasLegs (ringName e) (e.rename v [(nn.up2, nn.up), (nn.down2, nn.down)])
        (full (some K) none none c c1 c2 u' d') ∧
      ∀ i i1 i2 j j1 j2 z z' y y',
        ∑ k ∈ Finset.range (bondDim b), fval e t i i1 i2 k 0 0 z y * fval e t' k 0 0 j j1 j2 z' y' =
        ∑ k ∈ Finset.range K,
          fval e (e.rename w [(nn.up1, nn.up), (nn.down1, nn.down)]) i i1 i2 k 0 0 z y *
          fval e (e.rename v [(nn.up2, nn.up), (nn.down2, nn.down)]) k 0 0 j j1 j2 z' y' := by
  have hι : Function.Injective (ringName e) := ringName_inj he.grid
  obtain ⟨r1, r2⟩ := ring_rename he.grid h [((.up, .plain), (.up, .one)), ((.down, .plain), (.down, .one))]
    (by decide) (by decide) (by simp [full])
  obtain ⟨s1, s2⟩ := ring_rename he.grid h' [((.up, .plain), (.up, .two)), ((.down, .plain), (.down, .two))]
    (by decide) (by decide) (by simp [full])
  obtain ⟨x, x1, x2, x3⟩ := ring_join he.grid r1 s1 [((.right, .plain), (.left, .plain))] (by decide) (by decide)
    (by simp [renameLegs, full]) (by
      rintro ⟨x, y⟩
      cases x <;> cases y <;> simp [renameLegs, full])
  have x2 : HasLegs (ringName e) x (two .one .two a a1 a2 c c1 c2 u u' d d') := x2.cast (by
    rintro ⟨x, y⟩
    cases x <;> cases y <;> simp [contractLegs, renameLegs, full, two])
  obtain ⟨K, w, v, g1, g2, g3, g4⟩ := label_svd hι e.ce he.grid.gemm he.grid.names he.grid.svd e.svdEnv e.svdJunk
    e.junk e.inv he.grid.sn he.u he.v x2 [(.left, .plain), (.left, .one), (.left, .two), (.up, .one), (.down, .one)]
    (commonU := (.right, .plain)) (commonV := (.left, .plain)) (by simp) (by simp)
  obtain ⟨w1, w2⟩ := ring_rename he.grid g2 [((.up, .one), (.up, .plain)), ((.down, .one), (.down, .plain))]
    (by decide) (by decide) (by simp)
  obtain ⟨v1, v2⟩ := ring_rename he.grid g3 [((.up, .two), (.up, .plain)), ((.down, .two), (.down, .plain))]
    (by decide) (by decide) (by simp [two])
  refine ⟨x, w, v, K, x1, fun cut hc => ?_, w1.cast ?_, v1.cast ?_, fun i i1 i2 j j1 j2 z z' y y' => ?_⟩
  · obtain ⟨U, S, k1, k2⟩ := g1 cut hc
    refine ⟨U, S, ?_, k2⟩
    rw [← k1]
    refine Grid.svd_set _ _ _ _ _ (fun n hn => ?_) _ _ _
    have hn' : leg x n ≠ none := leg_ne_none.2 hn
    obtain ⟨g, rfl⟩ := x2.only n hn'
    have hg : two .one .two a a1 a2 c c1 c2 u u' d d' g ≠ none := by
      rw [← x2.legs g]
      exact hn'
    have ht : ∀ g, ringName e g ∈ t.names ↔ full a a1 a2 b none none u d g ≠ none := fun g => by
      rw [← h.legs g]
      exact leg_ne_none.symm
    have k1 : freeNames e nn t = (((t.names.filter fun x => decide (x ≠ ringName e (.right, .plain))).filter
        fun x => decide (x ≠ ringName e (.up, .plain))).filter fun x => decide (x ≠ ringName e (.down, .plain))) ++
        [ringName e (.up, .one), ringName e (.down, .one)] := rfl
    rw [k1]
    simp only [List.mem_append, List.mem_filter, decide_eq_true_eq, List.mem_cons, List.not_mem_nil, or_false, ht,
      ne_eq, hι.eq_iff, List.map_cons, List.map_nil]
    clear * - hg
    obtain ⟨x, y⟩ := g
    cases x <;> cases y <;> simp_all [full, two]
  · rintro ⟨x, y⟩
    cases x <;> cases y <;> simp [renameLegs, full, two]
  · rintro ⟨x, y⟩
    cases x <;> cases y <;> simp [renameLegs, full, two]
  · have q1 := x3 (tidx .one .two i i1 i2 j j1 j2 z z' y y')
    rw [g4] at q1
    simp only [sumPairs, r2, s2] at q1
    refine Eq.trans ?_ (q1.symm.trans ?_)
    · refine Finset.sum_congr (by simp [renameLegs, full, bondDim]) fun k _ => ?_
      congr 1
      · refine gval_congr hι h ?_
        rintro ⟨x, y⟩
        cases x <;> cases y <;> simp [full, renameTo, fidx, tidx, Function.update_apply]
      · refine gval_congr hι h' ?_
        rintro ⟨x, y⟩
        cases x <;> cases y <;> simp [full, renameTo, fidx, tidx, Function.update_apply]
    · refine Finset.sum_congr rfl fun k _ => ?_
      congr 1
      · refine Eq.trans ?_ (w2 _).symm
        refine gval_congr hι g2 ?_
        rintro ⟨x, y⟩
        cases x <;> cases y <;> simp [renameTo, fidx, tidx, Function.update_apply]
      · refine Eq.trans ?_ (v2 _).symm
        refine gval_congr hι g3 ?_
        rintro ⟨x, y⟩
        cases x <;> cases y <;> simp [renameTo, fidx, tidx, two, Function.update_apply]

/-- The last and the first site, with the edges between them made one: PBC.cpp 81-88. -/
theorem ring_close (he : LinesEnvOk e)
    {t t' : Tensor ν NoSymmetry α} {a b1 b2 c u u' d d' : Option ℕ}
    (h : HasLegs (ringName e) t (full a none none none b1 b2 u d))
    (h' : HasLegs (ringName e) t' (full none b1 b2 c none none u' d')) :
    ∃ x w v K, e.join (e.rename t [("up", "up1"), ("down", "down1")])
        (e.rename t' [("up", "up2"), ("down", "down2")]) [("right_1", "left_1"), ("right_2", "left_2")] = .ok x ∧
      (∀ cut, Keeps K cut → ∃ U S,
        svd e.gesvd e.svdEnv e.svdJunk e.sn x [e.nm "up1", e.nm "down1", e.nm "left"] (e.nm "right") (e.nm "left") cut =
          .ok (U, S, v) ∧
        multiple e.junk (fun x y => x * e.c y) e.inv U S (e.nm "right") 'u' false = .ok w) ∧
      HasLegs (ringName e) (e.rename w [("up1", "up"), ("down1", "down")])
        (full a none none (some K) none none u d) ∧
      HasLegs (ringName e) (e.rename v [("up2", "up"), ("down2", "down")])
        (full (some K) none none c none none u' d') ∧
      ∀ i j z z' y y',
        ∑ k1 ∈ Finset.range (bondDim b1), ∑ k2 ∈ Finset.range (bondDim b2),
          fval e t i 0 0 0 k1 k2 z y * fval e t' 0 k1 k2 j 0 0 z' y' =
        ∑ k ∈ Finset.range K,
          fval e (e.rename w [("up1", "up"), ("down1", "down")]) i 0 0 k 0 0 z y *
          fval e (e.rename v [("up2", "up"), ("down2", "down")]) k 0 0 j 0 0 z' y' := by
  have hι : Function.Injective (ringName e) := ringName_inj he.grid
  obtain ⟨r1, r2⟩ := ring_rename he.grid h [((.up, .plain), (.up, .three)), ((.down, .plain), (.down, .three))]
    (by decide) (by decide) (by simp [full])
  obtain ⟨s1, s2⟩ := ring_rename he.grid h' [((.up, .plain), (.up, .hole)), ((.down, .plain), (.down, .hole))]
    (by decide) (by decide) (by simp [full])
  obtain ⟨x, x1, x2, x3⟩ := ring_join he.grid r1 s1 [((.right, .one), (.left, .one)), ((.right, .two), (.left, .two))]
    (by decide) (by decide) (by simp [renameLegs, full]) (by
      rintro ⟨x, y⟩
      cases x <;> cases y <;> simp [renameLegs, full])
  have x2 : HasLegs (ringName e) x (two .three .hole a none none c none none u u' d d') := x2.cast (by
    rintro ⟨x, y⟩
    cases x <;> cases y <;> simp [contractLegs, renameLegs, full, two])
  obtain ⟨K, w, v, g1, g2, g3, g4⟩ := label_svd hι e.ce he.grid.gemm he.grid.names he.grid.svd e.svdEnv e.svdJunk
    e.junk e.inv he.grid.sn he.u he.v x2 [(.up, .three), (.down, .three), (.left, .plain)]
    (commonU := (.right, .plain)) (commonV := (.left, .plain)) (by simp) (by simp)
  obtain ⟨w1, w2⟩ := ring_rename he.grid g2 [((.up, .three), (.up, .plain)), ((.down, .three), (.down, .plain))]
    (by decide) (by decide) (by simp)
  obtain ⟨v1, v2⟩ := ring_rename he.grid g3 [((.up, .hole), (.up, .plain)), ((.down, .hole), (.down, .plain))]
    (by decide) (by decide) (by simp [two])
  refine ⟨x, w, v, K, x1, g1, w1.cast ?_, v1.cast ?_, fun i j z z' y y' => ?_⟩
  · rintro ⟨x, y⟩
    cases x <;> cases y <;> simp [renameLegs, full, two]
  · rintro ⟨x, y⟩
    cases x <;> cases y <;> simp [renameLegs, full, two]
  · have q1 := x3 (tidx .three .hole i 0 0 j 0 0 z z' y y')
    rw [g4] at q1
    simp only [sumPairs, r2, s2] at q1
    refine Eq.trans ?_ (q1.symm.trans ?_)
    · refine Finset.sum_congr (by simp [renameLegs, full, bondDim]) fun k1 _ =>
        Finset.sum_congr (by simp [renameLegs, full, bondDim]) fun k2 _ => ?_
      congr 1
      · refine gval_congr hι h ?_
        rintro ⟨x, y⟩
        cases x <;> cases y <;> simp [full, renameTo, fidx, tidx, Function.update_apply]
      · refine gval_congr hι h' ?_
        rintro ⟨x, y⟩
        cases x <;> cases y <;> simp [full, renameTo, fidx, tidx, Function.update_apply]
    · refine Finset.sum_congr rfl fun k _ => ?_
      congr 1
      · refine Eq.trans ?_ (w2 _).symm
        refine gval_congr hι g2 ?_
        rintro ⟨x, y⟩
        cases x <;> cases y <;> simp [renameTo, fidx, tidx, Function.update_apply]
      · refine Eq.trans ?_ (v2 _).symm
        refine gval_congr hι g3 ?_
        rintro ⟨x, y⟩
        cases x <;> cases y <;> simp [renameTo, fidx, tidx, two, Function.update_apply]

end TAT.Torus
