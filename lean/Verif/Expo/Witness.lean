import Verif.Expo.Props

/-!
# C53: the matrices are determined; cases in which the exponential fails
-/

set_option linter.unusedSectionVars false

namespace TAT

open Matrix

variable {ν σ α ρ : Type} [LinearOrder ν] [TatSym σ]

theorem sector_pos {t : Tensor ν σ α} {cs : List (ν × ν)} (h : SquarePairs t cs) {s : σ} {n : ℕ}
    {num : (ν → σ × ℕ) → ℕ} (hr : RowOrder t (cs.map Prod.fst) s n num) (i j : Fin n) :
    ∃ p, ValidPos t p ∧ (keyOf (cs.map Prod.fst) p).sum = s ∧ i.val = num p ∧
      j.val = num (colRow cs p) := by
  obtain ⟨pi, hi, ei⟩ := hr.surj i i.isLt
  obtain ⟨pj, hj, ej⟩ := hr.surj j j.isLt
  have h1 : ∀ n ∈ cs.map Prod.fst, partner cs pi pj n = pi n := fun n hn =>
    partner_free pi pj (h.disjoint hn)
  have h2 : ∀ c ∈ cs, partner cs pi pj c.2 = (-(pj c.1).1, (pj c.1).2) := fun c hc =>
    partner_common h.pairs.nodup2 pi pj hc
  have hk : (keyOf (cs.map Prod.fst) (partner cs pi pj)).sum = s := by
    rw [keyOf_congr h1]; exact hi.2
  refine ⟨partner cs pi pj, (validPos_iff h.wf).2 ⟨fun n hn => ?_, ?_⟩, hk, ?_, ?_⟩
  · rcases List.mem_append.1 (h.perm.mem_iff.1 hn) with hn | hn
    · rw [h1 n hn]; exact hi.1 n hn
    · obtain ⟨c, hc, rfl⟩ := List.mem_map.1 hn
      rw [h2 c hc]
      show (pj c.1).2 < dimM (mapOf t c.2) (-(pj c.1).1)
      unfold dimM
      rw [← h.matched.maps c hc]
      exact hj.1 _ (List.mem_map_of_mem hc)
  · rw [show (keyOf t.names (partner cs pi pj)).sum = _ from (h.perm.map _).sum_eq]
    show (keyOf (cs.map Prod.fst ++ cs.map Prod.snd) (partner cs pi pj)).sum = 0
    rw [sum_split (List.Perm.refl _), hk, partner_sum h.pairs.nodup2, hj.2, add_neg_cancel]
  · rw [← ei]
    exact hr.congr _ _ fun n hn => (h1 n hn).symm
  · rw [← ej]
    refine hr.congr _ _ fun n hn => ?_
    obtain ⟨c, hc, rfl⟩ := List.mem_map.1 hn
    have hc' : c.swap ∈ cs.map Prod.swap := List.mem_map_of_mem hc
    have := partner_common (σ := σ) h.swap.pairs.nodup2 (partner cs pi pj) (partner cs pi pj) hc'
    show pj c.1 = partner (cs.map Prod.swap) (partner cs pi pj) (partner cs pi pj) c.1
    rw [Prod.snd_swap, Prod.fst_swap] at this
    rw [this, h2 c hc, neg_neg]

/-- **C53.** The matrix of a sector is determined by the tensor and the numbering, so the statement
`C53_exponential_partial` fixes all elements of the result. -/
theorem C53_matrix_unique [Neg α] {t : Tensor ν σ α} {cs : List (ν × ν)} (ht : WF t)
    (hp : t.names.Perm (pairNames cs)) (hm : Matched t t cs) {s : σ} {n : ℕ}
    (hl : Separated t (cs.map Prod.fst) ∨ ∀ s : σ, -s = s)
    {num : (ν → σ × ℕ) → ℕ} (hr : RowOrder t (cs.map Prod.fst) s n num)
    {X Y : Matrix (Fin n) (Fin n) α} (hX : SectorMatrix t cs s num X)
    (hY : SectorMatrix t cs s num Y) : X = Y := by
  have h : SquarePairs t cs := ⟨ht, hp.trans (pairNames_halves cs), hm, hl⟩
  ext i j
  obtain ⟨p, p1, p2, p3, p4⟩ := sector_pos h hr i j
  exact Option.some.inj ((hX p p1 p2 i j p3 p4).symm.trans (hY p p1 p2 i j p3 p4))

/-- **C53.** A tensor with one edge and no pairs: the last element of an empty vector is read. -/
theorem C53_one_edge_undefined [Field α] [Zero ρ] [LT ρ] [DecidableLT ρ] (lib : ExpoLib α ρ)
    (env : ExpEnv σ α) (en : ExpNames ν) (noName : ν) (t : Tensor ν σ α) (h : t.names.length = 1)
    (step : ℕ) : exponential lib env en noName t [] step = .ub := by
  obtain ⟨n, hn⟩ := List.length_eq_one_iff.1 h
  have hf : expLoop (nameToIndex [n]) t.core.edges [] [n].zipIdx.reverse [] ([n].length / 2) [] =
      .ok (0, []) := by simp [expLoop, expFind]
  unfold exponential
  rw [hn, hf]
  simp [Outcome.bind]

def expEnv0 {σ : Type} [TatSym σ] : ExpEnv σ ℚ where
  merge := ⟨⟨8, 32768, 1, 1⟩, fun _ _ => 77, fun _ => true⟩
  shape := fun _ _ => 77
  junk := fun _ => 77
  split := ⟨⟨8, 32768, 1, 1⟩, fun _ _ => 77, fun _ => true⟩

/-- **C53.** A tensor whose elements are all zero. -/
theorem C53_zero_undefined :
    exponential refExpo expEnv0 ⟨50, 51⟩ 99
      (⟨[0, 1], [⟨false, [(⟨0⟩, 1)]⟩, ⟨false, [(⟨0⟩, 1)]⟩], [([⟨0⟩, ⟨0⟩], [0])]⟩ :
        Tensor ℕ U1Symmetry ℚ) [(0, 1)] 3 = .ub := by
  decide +kernel

/-! ## two pairs -/

/-- An operator on two sites with two states each. -/
def sampleEx : Tensor ℕ U1Symmetry ℚ :=
  ⟨[0, 1, 2, 3],
    [⟨false, [(⟨0⟩, 1), (⟨1⟩, 1)]⟩, ⟨false, [(⟨0⟩, 1), (⟨1⟩, 1)]⟩, ⟨false, [(⟨-1⟩, 1), (⟨0⟩, 1)]⟩,
      ⟨false, [(⟨-1⟩, 1), (⟨0⟩, 1)]⟩],
    [([⟨0⟩, ⟨0⟩, ⟨0⟩, ⟨0⟩], [1]), ([⟨0⟩, ⟨1⟩, ⟨-1⟩, ⟨0⟩], [1]), ([⟨0⟩, ⟨1⟩, ⟨0⟩, ⟨-1⟩], [0]),
      ([⟨1⟩, ⟨0⟩, ⟨-1⟩, ⟨0⟩], [0]), ([⟨1⟩, ⟨0⟩, ⟨0⟩, ⟨-1⟩], [0]), ([⟨1⟩, ⟨1⟩, ⟨-1⟩, ⟨-1⟩], [1])]⟩

/-- A position. -/
def at4 (a b c d : U1Symmetry) : ℕ → U1Symmetry × ℕ := fun n =>
  if n = 0 then (a, 0) else if n = 1 then (b, 0) else if n = 2 then (c, 0) else (d, 0)

/-- What is computed with two steps. -/
def sampleExResult : Tensor ℕ U1Symmetry ℚ :=
  ⟨[0, 1, 2, 3], sampleEx.core.edges,
    [([⟨0⟩, ⟨0⟩, ⟨0⟩, ⟨0⟩], [3721 / 1369]), ([⟨0⟩, ⟨1⟩, ⟨-1⟩, ⟨0⟩], [3721 / 1369]),
      ([⟨0⟩, ⟨1⟩, ⟨0⟩, ⟨-1⟩], [0]), ([⟨1⟩, ⟨0⟩, ⟨-1⟩, ⟨0⟩], [0]), ([⟨1⟩, ⟨0⟩, ⟨0⟩, ⟨-1⟩], [1]),
      ([⟨1⟩, ⟨1⟩, ⟨-1⟩, ⟨-1⟩], [3721 / 1369])]⟩

theorem sampleEx_wf : WF sampleEx :=
  ⟨by decide, by decide, by decide, by decide +kernel, by decide +kernel⟩

theorem sampleEx_matched : Matched sampleEx sampleEx [(0, 2), (1, 3)] := by
  refine ⟨fun h => absurd h (by decide), fun c hc => ?_⟩
  simp only [List.mem_cons, List.not_mem_nil, or_false] at hc
  rcases hc with rfl | rfl
  · exact maps_of_keys (by decide +kernel) (by decide +kernel)
  · exact maps_of_keys (by decide +kernel) (by decide +kernel)

theorem sampleEx_result : exponential refExpo expEnv0 ⟨50, 51⟩ 99 sampleEx [(0, 2), (1, 3)] 2 =
    .ok sampleExResult := by decide +kernel

/-- **C53** is false for two pairs whose symmetries are not their own opposites: rows and columns
are not in the same order.  In the sector with total 1 the matrix has one element, off the diagonal,
but the result is not its exponential. -/
theorem C53_two_pairs_wrong :
    WF sampleEx ∧ Matched sampleEx sampleEx [(0, 2), (1, 3)] ∧
    ¬ ∃ cs u, exponential refExpo expEnv0 ⟨50, 51⟩ 99 sampleEx [(0, 2), (1, 3)] 2 = .ok u ∧
      ExpResult sampleEx u cs fun _ X Y => X ^ (2 * 2 + 1) = 0 → Y = IsNilpotent.exp X := by
  refine ⟨sampleEx_wf, sampleEx_matched, ?_⟩
  rintro ⟨cs, u, hu, hr⟩
  rw [sampleEx_result] at hu
  obtain rfl := Outcome.ok.inj hu
  have hcs : cs = [(0, 2), (1, 3)] := by
    have h := hr.names
    have hl := congrArg List.length h
    rw [List.length_append, List.length_map, List.length_map] at hl
    change 4 = _ at hl
    obtain ⟨x, y, rfl⟩ := List.length_eq_two.1 (show cs.length = 2 by omega)
    obtain ⟨a, b⟩ := x
    obtain ⟨c, d⟩ := y
    change [0, 1, 2, 3] = [a, c, b, d] at h
    simp only [List.cons.injEq, and_true] at h
    obtain ⟨rfl, rfl, rfl, rfl⟩ := h
    rfl
  subst hcs
  have row : ∀ a b c d : U1Symmetry, a ∈ [(⟨0⟩ : U1Symmetry), ⟨1⟩] → b ∈ [(⟨0⟩ : U1Symmetry), ⟨1⟩] →
      a + b = ⟨1⟩ → RowPos sampleEx ([(0, 2), (1, 3)].map Prod.fst) ⟨1⟩ (at4 a b c d) := by
    intro a b c d ha hb hs
    simp only [List.mem_cons, List.not_mem_nil, or_false] at ha hb
    refine ⟨fun n hn => ?_, ?_⟩
    · simp only [List.map_cons, List.map_nil, List.mem_cons, List.not_mem_nil, or_false] at hn
      rcases hn with rfl | rfl
      · show 0 < dimM (mapOf sampleEx 0) a
        rcases ha with rfl | rfl <;> decide +kernel
      · show 0 < dimM (mapOf sampleEx 1) b
        rcases hb with rfl | rfl <;> decide +kernel
    · show a + (b + 0) = _
      rw [add_zero, hs]
  have row0 := row ⟨0⟩ ⟨1⟩ 0 0 (by simp) (by simp) (by decide)
  have row1 := row ⟨1⟩ ⟨0⟩ 0 0 (by simp) (by simp) (by decide)
  obtain ⟨n, num, X, Y, ho, hX, hY, hrel⟩ := hr.sectors ⟨1⟩ ⟨_, row0⟩
  have l0 := ho.lt _ row0
  have l1 := ho.lt _ row1
  -- the two rows
  have hnum : ∀ p, RowPos sampleEx ([(0, 2), (1, 3)].map Prod.fst) ⟨1⟩ p →
      num p = num (at4 ⟨0⟩ ⟨1⟩ 0 0) ∨ num p = num (at4 ⟨1⟩ ⟨0⟩ 0 0) := by
    intro p hp
    have d0 := hp.1 0 (by simp)
    have d1 := hp.1 1 (by simp)
    have hs : (p 0).1 + ((p 1).1 + 0) = ⟨1⟩ := hp.2
    have key : ∀ x : U1Symmetry × ℕ, x.2 < dimM [(⟨0⟩, 1), (⟨1⟩, 1)] x.1 → x = (⟨0⟩, 0) ∨ x = (⟨1⟩, 0) := by
      rintro ⟨x, i⟩ hx
      have hm : x ∈ OMap.keys [((⟨0⟩ : U1Symmetry), 1), (⟨1⟩, 1)] :=
        dimM_pos (lt_of_le_of_lt (Nat.zero_le _) hx)
      simp only [OMap.keys, List.map_cons, List.map_nil, List.mem_cons, List.not_mem_nil,
        or_false] at hm
      rcases hm with rfl | rfl
      · have : i < 1 := hx
        left; rw [show i = 0 by omega]
      · have : i < 1 := hx
        right; rw [show i = 0 by omega]
    rcases key _ d0 with e0 | e0 <;> rcases key _ d1 with e1 | e1 <;> rw [e0, e1] at hs
    · exact absurd hs (by decide)
    · left
      apply ho.congr
      intro m hm
      simp only [List.map_cons, List.map_nil, List.mem_cons, List.not_mem_nil, or_false] at hm
      rcases hm with rfl | rfl
      · rw [e0]; rfl
      · rw [e1]; rfl
    · right
      apply ho.congr
      intro m hm
      simp only [List.map_cons, List.map_nil, List.mem_cons, List.not_mem_nil, or_false] at hm
      rcases hm with rfl | rfl
      · rw [e0]; rfl
      · rw [e1]; rfl
    · exact absurd hs (by decide)
  set i0 : Fin n := ⟨_, l0⟩ with hi0
  set i1 : Fin n := ⟨_, l1⟩ with hi1
  have hall : ∀ i : Fin n, i = i0 ∨ i = i1 := by
    intro i
    obtain ⟨p, p1, p2⟩ := ho.surj i i.isLt
    rcases hnum p p1 with e | e
    · left; apply Fin.ext; rw [← p2, e]
    · right; apply Fin.ext; rw [← p2, e]
  have congr4 : ∀ a b c d a' b' : U1Symmetry, a = a' → b = b' →
      num (at4 a b c d) = num (at4 a' b' 0 0) := by
    intro a b c d a' b' ha hb
    apply ho.congr
    intro m hm
    simp only [List.map_cons, List.map_nil, List.mem_cons, List.not_mem_nil, or_false] at hm
    rcases hm with rfl | rfl
    · rw [ha]; rfl
    · rw [hb]; rfl
  have col : ∀ a b c d a' b' : U1Symmetry, -c = a' → -d = b' →
      num (colRow [(0, 2), (1, 3)] (at4 a b c d)) = num (at4 a' b' 0 0) := by
    intro a b c d a' b' ha hb
    apply ho.congr
    intro m hm
    simp only [List.map_cons, List.map_nil, List.mem_cons, List.not_mem_nil, or_false] at hm
    rcases hm with rfl | rfl
    · rw [← ha]; rfl
    · rw [← hb]; rfl
  have val : ∀ a b c d : U1Symmetry, ValidPos sampleEx (at4 a b c d) → a + (b + 0) = ⟨1⟩ →
      ∀ i j : Fin n, i.val = num (at4 a b c d) → j.val = num (colRow [(0, 2), (1, 3)] (at4 a b c d)) →
      elem sampleEx (at4 a b c d) = some (X i j) := by
    intro a b c d hv hs i j hi hj
    have := hX _ hv hs i j hi hj
    rwa [show orderSign (σ := U1Symmetry) sampleEx.names _ (at4 a b c d) = 1 from rfl, applySign_one,
      Option.map_id, id] at this
  have x00 : X i0 i0 = 0 := (Option.some.inj ((val ⟨0⟩ ⟨1⟩ ⟨0⟩ ⟨-1⟩ ⟨.cons (by decide +kernel) (.cons (by decide +kernel) (.cons (by decide +kernel)
    (.cons (by decide +kernel) .nil))), by decide +kernel⟩ (by decide) i0
    i0 (congr4 _ _ _ _ _ _ rfl rfl).symm (col _ _ _ _ _ _ (by decide) (by decide)).symm).symm.trans
    (by decide +kernel : _ = some (0 : ℚ))))
  have x10 : X i1 i0 = 0 := (Option.some.inj ((val ⟨1⟩ ⟨0⟩ ⟨0⟩ ⟨-1⟩ ⟨.cons (by decide +kernel) (.cons (by decide +kernel) (.cons (by decide +kernel)
    (.cons (by decide +kernel) .nil))), by decide +kernel⟩ (by decide) i1
    i0 (congr4 _ _ _ _ _ _ rfl rfl).symm (col _ _ _ _ _ _ (by decide) (by decide)).symm).symm.trans
    (by decide +kernel : _ = some (0 : ℚ))))
  have x11 : X i1 i1 = 0 := (Option.some.inj ((val ⟨1⟩ ⟨0⟩ ⟨-1⟩ ⟨0⟩ ⟨.cons (by decide +kernel) (.cons (by decide +kernel) (.cons (by decide +kernel)
    (.cons (by decide +kernel) .nil))), by decide +kernel⟩ (by decide) i1
    i1 (congr4 _ _ _ _ _ _ rfl rfl).symm (col _ _ _ _ _ _ (by decide) (by decide)).symm).symm.trans
    (by decide +kernel : _ = some (0 : ℚ))))
  have y00 : Y i0 i0 = 0 := by
    have := hY (at4 ⟨0⟩ ⟨1⟩ ⟨0⟩ ⟨-1⟩) ⟨.cons (by decide +kernel) (.cons (by decide +kernel) (.cons (by decide +kernel)
    (.cons (by decide +kernel) .nil))), by decide +kernel⟩ (by decide) i0 i0
      (congr4 _ _ _ _ _ _ rfl rfl).symm (col _ _ _ _ _ _ (by decide) (by decide)).symm
    rw [show orderSign (σ := U1Symmetry) sampleExResult.names _ (at4 ⟨0⟩ ⟨1⟩ ⟨0⟩ ⟨-1⟩) = 1 from rfl,
      applySign_one, Option.map_id, id] at this
    exact Option.some.inj (this.symm.trans (by decide +kernel : _ = some (0 : ℚ)))
  have hsq : X ^ 2 = 0 := by
    rw [pow_two]
    ext i j
    rw [Matrix.mul_apply, Matrix.zero_apply]
    refine Finset.sum_eq_zero fun k _ => ?_
    rcases hall i with e | e <;> rcases hall k with e' | e' <;> rcases hall j with e'' | e'' <;>
      rw [e, e', e''] <;> simp [x00, x10, x11]
  have hexp : IsNilpotent.exp X = 1 + X := by
    rw [IsNilpotent.exp_eq_sum hsq]
    simp [Finset.sum_range_succ]
  have := hrel (by rw [show 2 * 2 + 1 = 2 + 3 from rfl, pow_add, hsq, zero_mul])
  rw [this, hexp, Matrix.add_apply, Matrix.one_apply_eq, x00] at y00
  exact absurd y00 (by norm_num)

/-- A fermionic operator on one site: the identity on the empty site and a half on the other. -/
def sampleEx1 : Tensor ℕ FermiSymmetry ℚ :=
  ⟨[0, 1], [⟨false, [(⟨0⟩, 1), (⟨1⟩, 1)]⟩, ⟨true, [(⟨-1⟩, 1), (⟨0⟩, 1)]⟩],
    [([⟨0⟩, ⟨0⟩], [1]), ([⟨1⟩, ⟨-1⟩], [1 / 2])]⟩

theorem sampleEx1_elem {p : ℕ → FermiSymmetry × ℕ} {x : ℚ} (h : elem sampleEx1 p = some x) :
    x = 1 ∨ x = 1 / 2 := by
  have h' : (OMap.find? sampleEx1.core.blocks (keyOf sampleEx1.names p)).bind
    (fun data => data[rowMajor (dimsOf sampleEx1.core.edges (keyOf sampleEx1.names p))
      (sampleEx1.names.map fun n => (p n).2)]?) = some x := h
  obtain ⟨d, hd, hx⟩ := Option.bind_eq_some_iff.1 h'
  have hm := OMap.mem_of_find? hd
  have hx' := List.mem_of_getElem? hx
  simp only [sampleEx1, List.mem_cons, List.not_mem_nil, or_false, Prod.mk.injEq] at hm
  rcases hm with ⟨-, rfl⟩ | ⟨-, rfl⟩
  · exact .inl (List.mem_singleton.1 hx')
  · exact .inr (List.mem_singleton.1 hx')

theorem sampleEx1_good {cs : List (ℕ × ℕ)}
    (hcs : cs.Perm [(0, 1)] ∨ cs.Perm ([(0, 1)].map Prod.swap)) (hq : SquarePairs sampleEx1 cs)
    {s : FermiSymmetry} {n : ℕ} {num : (ℕ → FermiSymmetry × ℕ) → ℕ} {X : Matrix (Fin n) (Fin n) ℚ}
    (hn : 0 < n) (hr : RowOrder sampleEx1 (cs.map Prod.fst) s n num)
    (hX : SectorMatrix sampleEx1 cs s num X) :
    ∃ j, scaling refExpo (rowsOf X) = .ok j ∧
      IsUnit (Polynomial.aeval (((2 ^ j : ℕ) : ℚ)⁻¹ • X) (padeDen ℚ 1)) := by
  obtain ⟨a, b, rfl, ha⟩ : ∃ a b, cs = [(a, b)] ∧ (a = 0 ∨ a = 1) := by
    rcases hcs with h | h
    · exact ⟨0, 1, List.perm_singleton.1 h, .inl rfl⟩
    · exact ⟨1, 0, List.perm_singleton.1 h, .inr rfl⟩
  have key : ∀ p, RowPos sampleEx1 ([(a, b)].map Prod.fst) s p → p a = (s, 0) := by
    intro p hp
    have h1 := hp.1 a (by simp)
    have h2 : (p a).1 + 0 = s := hp.2
    rw [add_zero] at h2
    have h3 : dimM (mapOf sampleEx1 a) (p a).1 ≤ 1 := by
      have hk := dimM_pos (lt_of_le_of_lt (Nat.zero_le _) h1)
      rcases ha with rfl | rfl
      · have hk' : (p 0).1 ∈ [(⟨0⟩ : FermiSymmetry), ⟨1⟩] := hk
        simp only [List.mem_cons, List.not_mem_nil, or_false] at hk'
        rcases hk' with e | e <;> rw [e] <;> decide +kernel
      · have hk' : (p 1).1 ∈ [(⟨-1⟩ : FermiSymmetry), ⟨0⟩] := hk
        simp only [List.mem_cons, List.not_mem_nil, or_false] at hk'
        rcases hk' with e | e <;> rw [e] <;> decide +kernel
    exact Prod.ext h2 (by show (p a).2 = 0; omega)
  have hn1 : n = 1 := by
    by_contra hne
    obtain ⟨p, p1, p2⟩ := hr.surj 0 hn
    obtain ⟨q, q1, q2⟩ := hr.surj 1 (by omega)
    have : num p = num q := hr.congr _ _ fun m hm => by
      rw [List.map_singleton, List.mem_singleton] at hm
      subst hm
      exact (key p p1).trans (key q q1).symm
    omega
  subst hn1
  obtain ⟨p, p1, p2, p3, p4⟩ := sector_pos hq hr 0 0
  have hx := hX p p1 p2 0 0 p3 p4
  obtain ⟨y, hy⟩ := Option.isSome_iff_exists.1 (hq.wf.elem_isSome p1)
  rw [hy, Option.map_some] at hx
  have hx' : X 0 0 = 1 ∨ X 0 0 = 1 / 2 ∨ X 0 0 = -1 ∨ X 0 0 = -1 / 2 := by
    rw [← Option.some.inj hx]
    unfold applySign
    split <;> rcases sampleEx1_elem hy with e | e <;> rw [e] <;> norm_num
  have hrows : rowsOf X = [X 0 0] := rfl
  rw [hrows]
  have hdet : ∀ j : ℕ, X 0 0 * ((2 ^ j : ℕ) : ℚ)⁻¹ ≠ 2 →
      IsUnit (Polynomial.aeval (((2 ^ j : ℕ) : ℚ)⁻¹ • X) (padeDen ℚ 1)) := by
    intro j hj
    rw [aeval_padeDen, Matrix.isUnit_iff_isUnit_det, isUnit_iff_ne_zero, Matrix.det_fin_one]
    have c0 : padeCoeff ℚ 1 0 = 1 := by norm_num [padeCoeff]
    have c1 : padeCoeff ℚ 1 1 = 1 / 2 := by norm_num [padeCoeff]
    simp only [Finset.sum_range_succ, Finset.sum_range_zero, pow_zero, pow_one, c0, c1, zero_add,
      Matrix.add_apply, Matrix.smul_apply, Matrix.one_apply_eq, smul_eq_mul]
    intro h
    apply hj
    linarith
  rcases hx' with e | e | e | e <;> rw [e] at hdet ⊢
  · exact ⟨1, by decide +kernel, hdet 1 (by norm_num)⟩
  · exact ⟨0, by decide +kernel, hdet 0 (by norm_num)⟩
  · exact ⟨1, by decide +kernel, hdet 1 (by norm_num)⟩
  · exact ⟨0, by decide +kernel, hdet 0 (by norm_num)⟩

/-- `C53_exponential_partial` for this operator. -/
example : ∃ cs u, (cs.Perm [(0, 1)] ∨ cs.Perm ([(0, 1)].map Prod.swap)) ∧
    exponential refExpo expEnv0 ⟨50, 51⟩ 99 sampleEx1 [(0, 1)] 1 = .ok u ∧
    ExpResult sampleEx1 u cs fun n X Y =>
      (∃ j p, scaling refExpo (rowsOf X) = .ok j ∧
        Polynomial.aeval (((2 ^ j : ℕ) : ℚ)⁻¹ • X) (padeDen ℚ 1) * p =
          Polynomial.aeval (((2 ^ j : ℕ) : ℚ)⁻¹ • X) (padeNum ℚ 1) ∧ Y = p ^ 2 ^ j) ∧
      (X ^ (2 * 1 + 1) = 0 → Y = IsNilpotent.exp X) := by
  have hwf : WF sampleEx1 := ⟨by decide, by decide, by decide, by decide +kernel, by decide +kernel⟩
  have hm : Matched sampleEx1 sampleEx1 [(0, 1)] := by
    refine ⟨fun _ c hc => ?_, fun c hc => ?_⟩ <;> obtain rfl := List.mem_singleton.1 hc
    · decide +kernel
    · exact maps_of_keys (by decide +kernel) (by decide +kernel)
  have hl : Separated sampleEx1 ([(0, 1)].map Prod.fst) := Separated.le_one (le_refl 1)
  refine C53_exponential_partial refExpo_ok.1 refExpo_ok.2 _ (by decide) 99 1 hwf
    (List.Perm.refl _) hm (.inl hl) ?_ ?_
  · intro n hn x hx
    have hn' : n = 0 ∨ n = 1 := by
      have : n ∈ [0, 1] := hn
      simpa using this
    rcases hn' with rfl | rfl
    · exact (by decide +kernel : ∀ x ∈ mapOf sampleEx1 0, 0 < x.2) x hx
    · exact (by decide +kernel : ∀ x ∈ mapOf sampleEx1 1, 0 < x.2) x hx
  · intro cs hcs s n num X hn hr hX
    refine sampleEx1_good hcs ?_ hn hr hX
    have h0 : SquarePairs sampleEx1 [(0, 1)] := ⟨hwf, List.Perm.refl _, hm, .inl hl⟩
    rcases hcs with h | h
    · rw [List.perm_singleton.1 h]; exact h0
    · rw [show cs = [(0, 1)].map Prod.swap from List.perm_singleton.1 h]; exact h0.swap

end TAT
