import Verif.Grid.Spec
import Verif.Square.NetLegs

/-!
# Helper lemmas for `two_line_to_one_line` of the examples

The three steps with the names of `Square.AuxLine`.
-/

namespace TAT.Grid

set_option linter.unusedSectionVars false
set_option linter.unusedSimpArgs false

variable {ν α β : Type} [LinearOrder ν] [Field α] [LinearOrder β] [Zero β] {e : AuxEnv ν α β} {s : Side → String}

/-- The names with the suffixes of `legString`. -/
def labelled (s : Side → String) : Names :=
  ⟨s .up, s .down, s .left, s .right, s .up ++ "1", s .up ++ "2", s .down ++ "1", s .down ++ "2",
    s .left ++ "1", s .left ++ "2", s .right ++ "1", s .right ++ "2"⟩

theorem products_double (e : AuxEnv ν α β) (s : Side → String) :
    ∀ l1 l2, products e (labelled s) l1 l2 = doubleLine e (s .up) (s .down) (s .left) (s .right) l1 l2
  | t1 :: l1, t2 :: l2 => by
    rw [products, doubleLine, products_double e s l1 l2]
    rfl
  | [], _ => by rw [products, doubleLine] <;> simp
  | _ :: _, [] => by rw [products, doubleLine] <;> simp

/-- One step of the sweep of decompositions from the left. -/
theorem canonical_site (he : AuxEnvOk e) (hs : Dirs s)
    {t t' : Tensor ν NoSymmetry α} {a b1 b2 c1 c2 d d' : Option ℕ}
    (h : HasLegs (legName e.nm s) t (halfLegs a b1 b2 d))
    (h' : HasLegs (legName e.nm s) t' (doubleLegs b1 b2 c1 c2 d')) :
    ∃ u S v x t'' K, ∃ R : ℕ → ℕ → ℕ → α,
      svd e.gesvd e.svdEnv e.svdJunk e.sn t [e.nm (s .right ++ "1"), e.nm (s .right ++ "2")] (e.nm (s .left))
        (e.nm (s .right)) (2 ^ 64 - 1) = .ok (u, S, v) ∧
      e.join t' u [(s .left ++ "1", s .right ++ "1"), (s .left ++ "2", s .right ++ "2")] = .ok x ∧
      multiple e.junk (fun x y => x * e.c y) e.inv x S (e.nm (s .left)) 'u' false = .ok t'' ∧
      SiteOn e s v a (some K) none d ∧
      HasLegs (legName e.nm s) t'' (halfLegs (some K) c1 c2 d') ∧
      (∀ x y1 y2 y, gval (legName e.nm s) t (halfIdx x y1 y2 y) =
        ∑ k ∈ Finset.range K, siteVal e s v x k 0 y * R k y1 y2) ∧
      ∀ k z1 z2 z, gval (legName e.nm s) t'' (halfIdx k z1 z2 z) =
        ∑ y1 ∈ Finset.range (bondDim b1), ∑ y2 ∈ Finset.range (bondDim b2),
          gval (legName e.nm s) t' (doubleIdx y1 y2 z1 z2 z) * R k y1 y2 := by
  have hι : Function.Injective (legName e.nm s) := he.inj.comp hs.inj
  have l : ∀ g, leg t (legName e.nm s g) = halfLegs a b1 b2 d g := h.legs
  have off : ∀ n, (∀ g, n ≠ legName e.nm s g) → leg t n = none := fun n hn => by
    by_contra h0
    obtain ⟨g, rfl⟩ := h.only n h0
    exact hn g rfl
  have cU : legName e.nm s (.left, .plain) ∈ ([(.right, .one), (.right, .two)] : List Leg).map (legName e.nm s) →
      leg t (legName e.nm s (.left, .plain)) = none := fun h => by
    rw [mem_map_label hι] at h
    simp at h
  have cV : legName e.nm s (.right, .plain) ∉ ([(.right, .one), (.right, .two)] : List Leg).map (legName e.nm s) →
      leg t (legName e.nm s (.right, .plain)) = none := fun h => by rw [l]; rfl
  obtain ⟨u, S, v, w, K, e1, e2, -, e4, -, e6, e7, e8, e9, e10, L, rfl, hL⟩ := dense_svd_parts e.ce he.gemm
    he.names he.svd e.svdEnv e.svdJunk e.junk e.inv he.sn h.dense
    (([(.right, .one), (.right, .two)] : List Leg).map (legName e.nm s)) (hs.ne he.u (.left, .plain))
    (hs.ne he.v (.right, .plain)) cU cV
  have lu : ∀ n, leg u n = if n = legName e.nm s (.left, .plain) then some K else
      if n ∈ ([(.right, .one), (.right, .two)] : List Leg).map (legName e.nm s) then leg t n else none :=
    fun n => by rw [e10, e6]
  obtain ⟨w', m1, m2, m3, m4⟩ := dense_multiple e.junk e.c e.inv e9 (S := L)
    (n := legName e.nm s (.left, .plain)) (direction := 'u') (by simp [IsDirection]) false
    (by rw [lu, if_pos rfl, hL])
  rw [e2, Outcome.ok.injEq] at m1
  subst m1
  have hu : HasLegs (legName e.nm s) u (halfLegs (some K) b1 b2 none) := by
    refine ⟨e9, fun n hn => ?_, fun g => ?_⟩
    · by_contra h0
      push Not at h0
      rw [lu, if_neg (h0 _), off n h0, ite_self] at hn
      exact hn rfl
    · rw [gleg, lu, l, if_congr hι.eq_iff rfl (if_congr (mem_map_label hι) rfl rfl)]
      obtain ⟨x, y⟩ := g
      cases x <;> cases y <;> simp [halfLegs]
  have hv : SiteOn e s v a (some K) none d := by
    refine ⟨e4, fun n hn => ?_, fun g => ?_⟩
    · by_contra h0
      push Not at h0
      rw [e7, if_neg (h0 _), off n h0, ite_self] at hn
      exact hn rfl
    · rw [gleg, e7, l, if_congr hι.eq_iff rfl (if_congr (mem_map_label hι) rfl rfl)]
      obtain ⟨x, y⟩ := g
      cases x <;> cases y <;> simp [halfLegs, siteLegs]
  obtain ⟨x, j1, j2, j3⟩ := join_ok he hs h' hu [((.left, .one), (.right, .one)), ((.left, .two), (.right, .two))]
    (by decide) (by decide) (by simp [doubleLegs, halfLegs]) (by
      rintro ⟨x, y⟩
      cases x <;> cases y <;> simp [doubleLegs, halfLegs])
  have j2 : HasLegs (legName e.nm s) x (halfLegs (some K) c1 c2 d') := j2.cast (by
    rintro ⟨x, y⟩
    cases x <;> cases y <;> simp [contractLegs, doubleLegs, halfLegs])
  obtain ⟨t'', z1, z2, z3, z4⟩ := dense_multiple e.junk e.c e.inv j2.dense (S := L)
    (n := legName e.nm s (.left, .plain)) (direction := 'u') (by simp [IsDirection]) false (by
      have := j2.legs (.left, .plain)
      rw [gleg] at this
      rw [this, hL]
      rfl)
  have ht'' : HasLegs (legName e.nm s) t'' (halfLegs (some K) c1 c2 d') :=
    ⟨z2, fun n hn => j2.only n (by rwa [z3] at hn), fun g => by rw [gleg, z3]; exact j2.legs g⟩
  refine ⟨u, [(0, L)], v, x, t'', K,
    fun k y1 y2 => gval (legName e.nm s) u (halfIdx k y1 y2 0) * e.c (L.getD k 0), e1, j1, z1, hv, ht'',
    fun i y1 y2 y => ?_, fun k i1 i2 i => ?_⟩
  · rw [gval, e8]
    refine Finset.sum_congr rfl fun k _ => ?_
    have q1 : val u (Function.update (Function.extend (legName e.nm s) (halfIdx i y1 y2 y) fun _ => 0)
        (legName e.nm s (.left, .plain)) k) = gval (legName e.nm s) u (halfIdx k y1 y2 0) := by
      rw [extend_update hι]
      refine gval_congr hι hu ?_
      rintro ⟨x, y⟩
      cases x <;> cases y <;> simp [halfLegs, halfIdx, Function.update_apply]
    have q2 : val v (Function.update (Function.extend (legName e.nm s) (halfIdx i y1 y2 y) fun _ => 0)
        (legName e.nm s (.right, .plain)) k) = siteVal e s v i k 0 y := by
      rw [extend_update hι]
      refine gval_congr hι hv ?_
      rintro ⟨x, y⟩
      cases x <;> cases y <;> simp [siteLegs, siteIdx, halfIdx, Function.update_apply]
    rw [m4, q1, q2]
    simp only [Bool.false_eq_true, if_false, Function.update_self]
    ring
  · have q3 : (Function.extend (legName e.nm s) (halfIdx k i1 i2 i) fun _ => 0) (legName e.nm s (.left, .plain)) = k :=
      hι.extend_apply _ _ _
    rw [gval, z4, q3]
    simp only [Bool.false_eq_true, if_false]
    have := j3 (halfIdx k i1 i2 i)
    rw [gval] at this
    rw [this]
    simp only [sumPairs, Finset.sum_mul]
    refine Finset.sum_congr (by simp [doubleLegs, bondDim]) fun y1 _ =>
      Finset.sum_congr (by simp [doubleLegs, bondDim]) fun y2 _ => ?_
    rw [mul_assoc]
    congr 1
    · refine gval_congr hι h' ?_
      rintro ⟨x, y⟩
      cases x <;> cases y <;> simp [doubleLegs, doubleIdx, halfIdx, Function.update_apply]
    · congr 1
      refine gval_congr hι hu ?_
      rintro ⟨x, y⟩
      cases x <;> cases y <;> simp [halfLegs, halfIdx, Function.update_apply]

theorem canonical_ok (he : AuxEnvOk e) (hs : Dirs s) (n : ℕ)
    {t : Tensor ν NoSymmetry α} {l : List (Tensor ν NoSymmetry α)} {a b1 b2 d : Option ℕ}
    {ds : List (Option ℕ)} (h : HasLegs (legName e.nm s) t (halfLegs a b1 b2 d))
    (hl : IsDouble e s l b1 b2 ds) (hn : l.length ≤ n) :
    ∃ r, canonical e (labelled s) n (t :: l) = .ok r ∧ IsLine e s r a (d :: ds) ∧
      ∀ x y, rowVal e s r x (fun _ => 0) y =
        ∑ y1 ∈ Finset.range (bondDim b1), ∑ y2 ∈ Finset.range (bondDim b2),
          gval (legName e.nm s) t (halfIdx x y1 y2 (y 0)) * doubleVal e s l y1 y2 (tailIdx y) := by
  have hι : Function.Injective (legName e.nm s) := he.inj.comp hs.inj
  induction hl generalizing n t a d with
  | nil =>
    have h1 : SiteOn e s t a none none d := h.cast (by
      rintro ⟨x, y⟩
      cases x <;> cases y <;> simp [siteLegs, halfLegs])
    refine ⟨[t], by cases n <;> rfl, .cons h1 .nil, fun x y => ?_⟩
    simp only [rowVal, doubleVal, h1.right, bondDim, Option.getD_none, Finset.sum_range_one, mul_one]
    refine gval_congr hι h ?_
    rintro ⟨x, y⟩
    cases x <;> cases y <;> simp [halfLegs, halfIdx, siteIdx]
  | @cons t' _ _ c1 c2 d' l ds' h' hl' ih =>
    cases n with
    | zero => simp at hn
    | succ n =>
      obtain ⟨u, S, v, x, t'', K, R, f1, f2, f2', f3, f4, f5, f6⟩ := canonical_site he hs h h'
      obtain ⟨r', g1, g2, g3⟩ := ih n f4 (by simpa using hn)
      refine ⟨v :: r', ?_, .cons f3 g2, fun x y => ?_⟩
      · rw [canonical]
        simp only [labelled] at g1 ⊢
        rw [f1, Outcome.bind]
        dsimp only
        rw [f2, Outcome.bind, f2', Outcome.bind, g1, Outcome.bind]
      · have e1 : gleg (legName e.nm s) t' (.right, .one) = c1 := h'.legs _
        have e2 : gleg (legName e.nm s) t' (.right, .two) = c2 := h'.legs _
        simp only [rowVal, doubleVal, f3.right, e1, e2]
        have hg := fun k => g3 k (tailIdx y)
        simp only [f6] at hg
        have h0 : tailIdx (fun _ : ℕ => 0) = fun _ => 0 := rfl
        simp only [h0, hg, f5]
        exact sum_three_pairs _ _ _ _ _ _ _ _ _

theorem svd_set (gesvd : Gesvd α β) (env : DecompEnv NoSymmetry α) (junk : ℕ → α) (sn : SvdNames ν)
    (t : Tensor ν NoSymmetry α) {set set' : List ν} (h : ∀ n ∈ t.names, n ∈ set ↔ n ∈ set') (commonU commonV : ν)
    (cut : ℕ) : svd gesvd env junk sn t set commonU commonV cut = svd gesvd env junk sn t set' commonU commonV cut := by
  have h1 : (t.names.filter fun n => decide (n ∈ set)) = t.names.filter fun n => decide (n ∈ set') :=
    List.filter_congr fun n hn => by simp only [h n hn]
  have h2 : (t.names.filter fun n => !decide (n ∈ set)) = t.names.filter fun n => !decide (n ∈ set') :=
    List.filter_congr fun n hn => by simp only [h n hn]
  unfold svd
  simp only [h1, h2]

/-- The set of names that is computed has the same names as the one of `svd_site`. -/
theorem freeNames_mem (he : AuxEnvOk e) (hs : Dirs s)
    {t t' x : Tensor ν NoSymmetry α} {a b c u u' d d' : Option ℕ} (h : SiteOn e s t a b u d)
    (h' : SiteOn e s t' b c u' d')
    (hx : e.join (e.rename t [(s .up, s .up ++ "1"), (s .down, s .down ++ "1")])
        (e.rename t' [(s .up, s .up ++ "2"), (s .down, s .down ++ "2")]) [(s .right, s .left)] = .ok x) :
    ∀ n ∈ x.names, n ∈ freeNames e (labelled s) t ↔
      n ∈ [e.nm (s .left), e.nm (s .up ++ "1"), e.nm (s .down ++ "1")] := by
  have hι : Function.Injective (legName e.nm s) := he.inj.comp hs.inj
  obtain ⟨a1, a2⟩ := rename_ok he hs h [((.up, .plain), (.up, .one)), ((.down, .plain), (.down, .one))]
    (by decide) (by decide) (by simp [siteLegs])
  obtain ⟨b1, b2⟩ := rename_ok he hs h' [((.up, .plain), (.up, .two)), ((.down, .plain), (.down, .two))]
    (by decide) (by decide) (by simp [siteLegs])
  obtain ⟨x', c1, c2, c3⟩ := join_ok he hs a1 b1 [((.right, .plain), (.left, .plain))] (by decide) (by decide)
    (by simp [renameLegs, siteLegs]) (by
      rintro ⟨x, y⟩
      cases x <;> cases y <;> simp [renameLegs, siteLegs])
  have hxx : x = x' := by
    have c1' := c1
    simp only [List.map_cons, List.map_nil, legString] at c1'
    rw [hx, Outcome.ok.injEq] at c1'
    exact c1'
  subst hxx
  have c2 : HasLegs (legName e.nm s) x (pairLegs a c u u' d d') := c2.cast (by
    rintro ⟨x, y⟩
    cases x <;> cases y <;> simp [contractLegs, renameLegs, siteLegs, pairLegs])
  intro n hn
  have hn' : leg x n ≠ none := leg_ne_none.2 hn
  obtain ⟨g, rfl⟩ := c2.only n hn'
  have hg : pairLegs a c u u' d d' g ≠ none := by
    rw [← c2.legs g]
    exact hn'
  have ht : ∀ g, legName e.nm s g ∈ t.names ↔ siteLegs a b u d g ≠ none := fun g => by
    rw [← h.legs g]
    exact leg_ne_none.symm
  have k1 : freeNames e (labelled s) t = (((t.names.filter fun x => decide (x ≠ legName e.nm s (.right, .plain))).filter
      fun x => decide (x ≠ legName e.nm s (.up, .plain))).filter fun x => decide (x ≠ legName e.nm s (.down, .plain))) ++
      [legName e.nm s (.up, .one), legName e.nm s (.down, .one)] := rfl
  have k2 : [e.nm (s .left), e.nm (s .up ++ "1"), e.nm (s .down ++ "1")] =
      [legName e.nm s (.left, .plain), legName e.nm s (.up, .one), legName e.nm s (.down, .one)] := rfl
  rw [k1, k2]
  simp only [List.mem_append, List.mem_filter, decide_eq_true_eq, List.mem_cons, List.not_mem_nil, or_false, ht,
    ne_eq, hι.eq_iff]
  obtain ⟨x, y⟩ := g
  cases x <;> cases y <;> simp_all [siteLegs, pairLegs]

theorem truncated_ok (he : AuxEnvOk e) (hs : Dirs s)
    {l : List (Tensor ν NoSymmetry α)} {a : Option ℕ} {us ds : List (Option ℕ)} (hl : TAT.IsRow e s l a us ds) :
    ∃ B r, (∀ cut, Keeps B cut → truncated e (labelled s) cut l = .ok r) ∧
      TAT.IsRow e s r a us ds ∧ ∀ x z y, rowVal e s r x z y = rowVal e s l x z y := by
  induction hl with
  | nil => exact ⟨0, [], fun _ _ => rfl, .nil, fun _ _ _ => rfl⟩
  | @cons t a b u d l us ds h hl ih =>
    obtain ⟨B, r, g1, g2, g3⟩ := ih
    cases g2 with
    | nil =>
      refine ⟨B, [t], fun cut hc => ?_, .cons h .nil, fun x z y => ?_⟩
      · rw [truncated, g1 cut hc, Outcome.bind]
      · simp only [rowVal, ← g3]
    | @cons t' _ c u' d' l' us' ds' h' hl' =>
      obtain ⟨x, w, v, K, f1, f2, f3, f4, f5⟩ := svd_site he hs h h'
      refine ⟨max B K, _, fun cut hc => ?_, .cons f3 (.cons f4 hl'), fun x z y => ?_⟩
      · obtain ⟨U, S, k1, k2⟩ := f2 cut (hc.le (le_max_right _ _))
        rw [← svd_set e.gesvd e.svdEnv e.svdJunk e.sn x (freeNames_mem he hs h h' f1)] at k1
        rw [truncated, g1 cut (hc.le (le_max_left _ _)), Outcome.bind]
        simp only [labelled] at k1 ⊢
        rw [f1, Outcome.bind, k1, Outcome.bind]
        dsimp only
        rw [k2, Outcome.bind]
      · rw [rowVal, rowVal, f3.right, h.right]
        simp only [← g3]
        simp only [rowVal, f4.right, h'.right]
        simp only [Finset.mul_sum]
        rw [Finset.sum_comm, Finset.sum_comm (s := Finset.range (bondDim b))]
        refine Finset.sum_congr rfl fun k _ => ?_
        simp only [← mul_assoc]
        rw [← Finset.sum_mul, ← Finset.sum_mul, f5]
        rfl

/-- Without truncation `two_line_to_one_line` gives a line with the same value. -/
theorem oneLine_ok (he : AuxEnvOk e) (hs : Dirs s)
    {l1 l2 : List (Tensor ν NoSymmetry α)} {zs ds : List (Option ℕ)}
    (h1 : IsLine e s l1 none zs) (h2 : TAT.IsRow e s l2 none zs ds) :
    ∃ B r, (∀ cut, Keeps B cut → oneLine e (labelled s) l1 l2 cut = .ok r) ∧
      IsLine e s r none ds ∧
      ∀ y, rowVal e s r 0 (fun _ => 0) y = ∑ z ∈ indices (zs.map bondDim),
        rowVal e s l1 0 (fun _ => 0) z * rowVal e s l2 0 z y := by
  have hι : Function.Injective (legName e.nm s) := he.inj.comp hs.inj
  obtain ⟨l, d1, d2, d3, d4⟩ := doubleLine_ok he hs h1 (by simp) h2
  have n1 : zs.length = l1.length := h1.length.2
  have n2 : zs.length = l2.length := h2.length.1
  cases d2 with
  | nil =>
    refine ⟨0, [], fun cut _ => ?_, .nil, fun y => ?_⟩
    · rw [oneLine, if_neg (by omega), products_double, d1]
      rfl
    · rw [← d4]
      rfl
  | @cons t _ _ b1 b2 d l ds ht hl =>
    have ht' : HasLegs (legName e.nm s) t (halfLegs none b1 b2 d) := ht.cast (by
      rintro ⟨x, y⟩
      cases x <;> cases y <;> simp [doubleLegs, halfLegs])
    obtain ⟨q, q1, q2, q3⟩ := canonical_ok he hs (t :: l).length ht' hl (by simp)
    obtain ⟨B, r, r1, r2, r3⟩ := truncated_ok he hs q2
    refine ⟨B, r, fun cut hc => ?_, r2, fun y => ?_⟩
    · rw [oneLine, if_neg (by omega), products_double, d1, Outcome.bind, q1, Outcome.bind, r1 cut hc]
    · rw [← d4, r3, q3, doubleVal]
      have e1 : gleg (legName e.nm s) t (.right, .one) = b1 := ht.legs _
      have e2 : gleg (legName e.nm s) t (.right, .two) = b2 := ht.legs _
      rw [e1, e2]
      refine Finset.sum_congr rfl fun y1 _ => Finset.sum_congr rfl fun y2 _ => ?_
      congr 1
      refine gval_congr hι ht ?_
      rintro ⟨x, y⟩
      cases x <;> cases y <;> simp [doubleLegs, doubleIdx, halfIdx]

end TAT.Grid
