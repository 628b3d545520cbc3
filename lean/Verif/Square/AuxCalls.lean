import Verif.Square.AuxWindow
import Verif.Square.DenseArith

/-!
# Replacing one or two sites, and the environment of a site
-/

namespace TAT

set_option linter.unusedSectionVars false

variable {ν α β : Type} [LinearOrder ν] [CommRing α] [LinearOrder β] [Zero β]
variable {e : AuxEnv ν α β} {s : Side → String}

theorem only_ok {ι : Leg → ν} {t : Tensor ν NoSymmetry α} (h : HasLegs ι t fun _ => none) (f : Leg → ℕ) :
    onlyElement t = .ok (gval ι t f) := by
  have hl : ∀ n, leg t n = none := fun n => by
    by_contra hn
    obtain ⟨g, rfl⟩ := h.only n hn
    exact hn (h.legs g)
  have := dense_only h.dense hl (fun x : α => x) (Function.extend ι f fun _ => 0)
  have hb := h.dense.wf.blocks
  obtain ⟨names, edges, blocks⟩ := t
  match blocks with
  | [] => simp [onlyElement, convertTo] at this
  | [(k, d)] =>
    simp only [onlyElement, convertTo, List.foldl_cons, List.foldl_nil, List.map_id'] at this
    exact this
  | a :: b :: l =>
    have he : edges = [] := by
      have hr := h.dense.wf.rank
      have hn : names = [] := by
        rw [List.eq_nil_iff_forall_not_mem]
        intro n hn
        exact leg_eq_none.1 (hl n) hn
      simp only [hn] at hr
      exact List.eq_nil_of_length_eq_zero hr.symm
    simp only [he] at hb
    have hs : blockShapes (([] : List (Edge NoSymmetry)).map Edge.map) = [([], 1)] := rfl
    rw [hs] at hb
    simp at hb

/-- A new site contracted with the part before it. -/
theorem insert_ok (he : AuxEnvOk e) (hs : Dirs s) {before new : Tensor ν NoSymmetry α}
    {a b b' c z y : Option ℕ} (h : HasLegs (legName e.nm s) before (fourLegs .one .three a b c z))
    (h2 : SiteOn e s new b b' z y) :
    ∃ t, e.join before (e.rename new [(s .right, s .right ++ "2")]) [(s .right ++ "2", s .left), (s .down, s .up)] =
        .ok t ∧
      HasLegs (legName e.nm s) t (fourLegs .one .three a b' c y) ∧
      ∀ x q' w k', gval (legName e.nm s) t (fourIdx .one .three x q' w k') =
        ∑ q ∈ Finset.range (bondDim b), ∑ k ∈ Finset.range (bondDim z),
          gval (legName e.nm s) before (fourIdx .one .three x q w k) * siteVal e s new q q' k k' := by
  have hι : Function.Injective (legName e.nm s) := he.inj.comp hs.inj
  obtain ⟨r1, r2⟩ := rename_ok he hs h2 [((.right, .plain), (.right, .two))] (by simp) (by simp)
    (by simp [siteLegs])
  obtain ⟨t, j1, j2, j3⟩ := join_ok he hs h r1 [((.right, .two), (.left, .plain)), ((.down, .plain), (.up, .plain))]
    (by decide) (by decide) (by simp [fourLegs, renameLegs, siteLegs]) (by
      rintro ⟨x, y⟩
      cases x <;> cases y <;> simp [fourLegs, renameLegs, siteLegs])
  refine ⟨t, j1, j2.cast ?_, fun x q' w k' => ?_⟩
  · rintro ⟨x, y⟩
    cases x <;> cases y <;> simp [contractLegs, fourLegs, renameLegs, siteLegs]
  · rw [j3]
    simp only [sumPairs, r2]
    refine Finset.sum_congr (by simp [fourLegs, bondDim]) fun q _ => Finset.sum_congr (by simp [fourLegs, bondDim])
      fun k _ => ?_
    congr 1
    · refine gval_congr hι h ?_
      rintro ⟨x, y⟩
      cases x <;> cases y <;> simp [fourLegs, fourIdx, Function.update_apply]
    · refine gval_congr hι h2 ?_
      rintro ⟨x, y⟩
      cases x <;> cases y <;> simp [siteLegs, renameTo, siteIdx, fourIdx, Function.update_apply]

/-- A site of the third line contracted with the part before it. -/
theorem insertFar_ok (he : AuxEnvOk e) (hs : Dirs s) {before line : Tensor ν NoSymmetry α}
    {a b c c' y : Option ℕ} (h : HasLegs (legName e.nm s) before (fourLegs .one .three a b c y))
    (h2 : SiteOn e s line c c' y none) :
    ∃ t, e.join before (e.rename line [(s .right, s .right ++ "3")]) [(s .right ++ "3", s .left), (s .down, s .up)] =
        .ok t ∧
      HasLegs (legName e.nm s) t (threeLegs .one .three a b c') ∧
      ∀ x q w', gval (legName e.nm s) t (threeIdx .one .three (x, q, w')) =
        ∑ w ∈ Finset.range (bondDim c), ∑ k ∈ Finset.range (bondDim y),
          gval (legName e.nm s) before (fourIdx .one .three x q w k) * siteVal e s line w w' k 0 := by
  have hι : Function.Injective (legName e.nm s) := he.inj.comp hs.inj
  obtain ⟨r1, r2⟩ := rename_ok he hs h2 [((.right, .plain), (.right, .three))] (by simp) (by simp)
    (by simp [siteLegs])
  obtain ⟨t, j1, j2, j3⟩ := join_ok he hs h r1 [((.right, .three), (.left, .plain)), ((.down, .plain), (.up, .plain))]
    (by decide) (by decide) (by simp [fourLegs, renameLegs, siteLegs]) (by
      rintro ⟨x, y⟩
      cases x <;> cases y <;> simp [fourLegs, renameLegs, siteLegs])
  refine ⟨t, j1, j2.cast ?_, fun x q w' => ?_⟩
  · rintro ⟨x, y⟩
    cases x <;> cases y <;> simp [contractLegs, threeLegs, fourLegs, renameLegs, siteLegs]
  · rw [j3]
    simp only [sumPairs, r2]
    refine Finset.sum_congr (by simp [fourLegs, bondDim]) fun q _ => Finset.sum_congr (by simp [fourLegs, bondDim])
      fun k _ => ?_
    congr 1
    · refine gval_congr hι h ?_
      rintro ⟨x, y⟩
      cases x <;> cases y <;> simp [fourLegs, threeIdx, fourIdx, Function.update_apply]
    · refine gval_congr hι h2 ?_
      rintro ⟨x, y⟩
      cases x <;> cases y <;> simp [siteLegs, renameTo, siteIdx, threeIdx, Function.update_apply]

/-- A site of the first line contracted with the part before it. -/
theorem insertNear_ok (he : AuxEnvOk e) (hs : Dirs s) {before line : Tensor ν NoSymmetry α}
    {a a' b c z : Option ℕ} (h : HasLegs (legName e.nm s) before (threeLegs .one .three a b c))
    (h2 : SiteOn e s line a a' none z) :
    ∃ t, e.join before (e.rename line [(s .right, s .right ++ "1")]) [(s .right ++ "1", s .left)] = .ok t ∧
      HasLegs (legName e.nm s) t (fourLegs .one .three a' b c z) ∧
      ∀ x' q w k, gval (legName e.nm s) t (fourIdx .one .three x' q w k) =
        ∑ x ∈ Finset.range (bondDim a),
          gval (legName e.nm s) before (threeIdx .one .three (x, q, w)) * siteVal e s line x x' 0 k := by
  have hι : Function.Injective (legName e.nm s) := he.inj.comp hs.inj
  obtain ⟨r1, r2⟩ := rename_ok he hs h2 [((.right, .plain), (.right, .one))] (by simp) (by simp)
    (by simp [siteLegs])
  obtain ⟨t, j1, j2, j3⟩ := join_ok he hs h r1 [((.right, .one), (.left, .plain))]
    (by decide) (by decide) (by simp [threeLegs, renameLegs, siteLegs]) (by
      rintro ⟨x, y⟩
      cases x <;> cases y <;> simp [threeLegs, renameLegs, siteLegs])
  refine ⟨t, j1, j2.cast ?_, fun x' q w k => ?_⟩
  · rintro ⟨x, y⟩
    cases x <;> cases y <;> simp [contractLegs, threeLegs, fourLegs, renameLegs, siteLegs]
  · rw [j3]
    simp only [sumPairs, r2]
    refine Finset.sum_congr (by simp [threeLegs, bondDim]) fun x _ => ?_
    congr 1
    · refine gval_congr hι h ?_
      rintro ⟨x, y⟩
      cases x <;> cases y <;> simp [threeLegs, threeIdx, fourIdx, Function.update_apply]
    · refine gval_congr hι h2 ?_
      rintro ⟨x, y⟩
      cases x <;> cases y <;> simp [siteLegs, renameTo, siteIdx, fourIdx, Function.update_apply]

/-- The part before and the part after contracted. -/
theorem close_ok (he : AuxEnvOk e) (hs : Dirs s) {before after : Tensor ν NoSymmetry α}
    {a b c y : Option ℕ} (h : HasLegs (legName e.nm s) before (fourLegs .one .three a b c y))
    (h2 : HasLegs (legName e.nm fun x => s x.rot) after (fourLegs .three .one c b a y)) :
    ∃ t, e.join before after [(s .right ++ "1", s .left ++ "1"), (s .right ++ "2", s .left ++ "2"),
        (s .right ++ "3", s .left ++ "3"), (s .down, s .up)] = .ok t ∧
      onlyElement t = .ok (∑ x1 ∈ Finset.range (bondDim a), ∑ x2 ∈ Finset.range (bondDim b),
        ∑ x3 ∈ Finset.range (bondDim c), ∑ k ∈ Finset.range (bondDim y),
          gval (legName e.nm s) before (fourIdx .one .three x1 x2 x3 k) *
          gval (legName e.nm fun x => s x.rot) after (fourIdx .three .one x3 x2 x1 k)) := by
  have hι : Function.Injective (legName e.nm s) := he.inj.comp hs.inj
  have h2' := h2.turn Side.rot_rot
  obtain ⟨t, j1, j2, j3⟩ := join_ok he hs h h2' [((.right, .one), (.left, .one)), ((.right, .two), (.left, .two)),
      ((.right, .three), (.left, .three)), ((.down, .plain), (.up, .plain))]
    (by decide) (by decide) (by simp [fourLegs, Side.rot]) (by
      rintro ⟨x, y⟩
      cases x <;> cases y <;> simp [fourLegs, Side.rot])
  have j2 : HasLegs (legName e.nm s) t fun _ => none := j2.cast (by
    rintro ⟨x, y⟩
    cases x <;> cases y <;> simp [contractLegs, fourLegs, Side.rot])
  refine ⟨t, j1, ?_⟩
  rw [only_ok j2 fun _ => 0, j3]
  congr 1
  simp only [sumPairs]
  refine Finset.sum_congr (by simp [fourLegs, bondDim]) fun x1 _ => Finset.sum_congr (by simp [fourLegs, bondDim])
    fun x2 _ => Finset.sum_congr (by simp [fourLegs, bondDim]) fun x3 _ =>
    Finset.sum_congr (by simp [fourLegs, bondDim]) fun k _ => ?_
  congr 1
  · refine gval_congr hι h ?_
    rintro ⟨x, y⟩
    cases x <;> cases y <;> simp [fourLegs, fourIdx, Function.update_apply]
  · rw [gval_turn he hs Side.rot_rot h2]
    refine gval_congr hι h2' ?_
    rintro ⟨x, y⟩
    cases x <;> cases y <;> simp [fourLegs, fourIdx, Side.rot, Function.update_apply]

/-- The edges of the environment of a site. -/
def holeLegs (l r u d : Option ℕ) : Leg → Option ℕ
  | (.left, .hole) => l
  | (.right, .hole) => r
  | (.up, .hole) => u
  | (.down, .hole) => d
  | _ => none

def holeIdx (l r u d : ℕ) : Leg → ℕ
  | (.left, .hole) => l
  | (.right, .hole) => r
  | (.up, .hole) => u
  | (.down, .hole) => d
  | _ => 0

/-- The part before and the part after contracted, with a site missing. -/
theorem hole_ok (he : AuxEnvOk e) (hs : Dirs s) {before after : Tensor ν NoSymmetry α}
    {a b b' c z y : Option ℕ} (h : HasLegs (legName e.nm s) before (fourLegs .one .three a b c z))
    (h2 : HasLegs (legName e.nm fun x => s x.rot) after (fourLegs .three .one c b' a y)) :
    ∃ t, e.join before after [(s .right ++ "1", s .left ++ "1"), (s .right ++ "3", s .left ++ "3")] = .ok t ∧
      HasLegs (legName e.nm s) (e.rename t [(s .right ++ "2", s .left ++ "0"), (s .down, s .up ++ "0"),
        (s .up, s .down ++ "0"), (s .left ++ "2", s .right ++ "0")]) (holeLegs b b' z y) ∧
      ∀ q q' k k', gval (legName e.nm s) (e.rename t [(s .right ++ "2", s .left ++ "0"), (s .down, s .up ++ "0"),
        (s .up, s .down ++ "0"), (s .left ++ "2", s .right ++ "0")]) (holeIdx q q' k k') =
        ∑ x1 ∈ Finset.range (bondDim a), ∑ x3 ∈ Finset.range (bondDim c),
          gval (legName e.nm s) before (fourIdx .one .three x1 q x3 k) *
          gval (legName e.nm fun x => s x.rot) after (fourIdx .three .one x3 q' x1 k') := by
  have hι : Function.Injective (legName e.nm s) := he.inj.comp hs.inj
  have h2' := h2.turn Side.rot_rot
  obtain ⟨t, j1, j2, j3⟩ := join_ok he hs h h2' [((.right, .one), (.left, .one)),
      ((.right, .three), (.left, .three))]
    (by decide) (by decide) (by simp [fourLegs, Side.rot]) (by
      rintro ⟨x, y⟩
      cases x <;> cases y <;> simp [fourLegs, Side.rot])
  obtain ⟨r1, r2⟩ := rename_ok he hs j2 [((.right, .two), (.left, .hole)), ((.down, .plain), (.up, .hole)),
    ((.up, .plain), (.down, .hole)), ((.left, .two), (.right, .hole))] (by decide) (by decide)
    (by simp [contractLegs, fourLegs, Side.rot])
  refine ⟨t, j1, r1.cast ?_, fun q q' k k' => ?_⟩
  · rintro ⟨x, y⟩
    cases x <;> cases y <;> simp [renameLegs, contractLegs, fourLegs, holeLegs, Side.rot]
  · refine (r2 _).trans ?_
    rw [j3]
    simp only [sumPairs]
    refine Finset.sum_congr (by simp [fourLegs, bondDim]) fun x1 _ => Finset.sum_congr (by simp [fourLegs, bondDim])
      fun x3 _ => ?_
    congr 1
    · refine gval_congr hι h ?_
      rintro ⟨x, y⟩
      cases x <;> cases y <;> simp [fourLegs, fourIdx, renameTo, holeIdx, Function.update_apply]
    · rw [gval_turn he hs Side.rot_rot h2]
      refine gval_congr hι h2' ?_
      rintro ⟨x, y⟩
      cases x <;> cases y <;> simp [fourLegs, fourIdx, renameTo, holeIdx, Side.rot, Function.update_apply]

end TAT
