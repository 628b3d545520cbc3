import Verif.Torus.LineStep
import Verif.Square.DenseCut

/-!
# Helper lemmas: the contraction of lines on a torus with any cut
-/

namespace TAT.Torus

open TAT.Grid (IsSite sides GridEnvOk freeNames namesOf Names products canonical truncated rowOf)

set_option linter.unusedSectionVars false
set_option linter.unusedSimpArgs false

variable {ν α β : Type} [LinearOrder ν] [Field α] [LinearOrder β] [Zero β] {e : AuxEnv ν α β}

/-- The decomposition with any cut, the singular values are put into U. -/
theorem ring_svd_any (he : LinesEnvOk e) {t : Tensor ν NoSymmetry α} {T : Leg → Option ℕ}
    (ht : HasLegs (ringName e) t T) {set : List Leg} {commonU commonV : Leg}
    (hU : commonU ∈ set → T commonU = none) (hV : commonV ∉ set → T commonV = none) {D : ℕ} (hD : D ≠ 0) :
    ∃ K u S v w, svd e.gesvd e.svdEnv e.svdJunk e.sn t (set.map (ringName e))
        (ringName e commonU) (ringName e commonV) D = .ok (u, S, v) ∧
      multiple e.junk (fun x y => x * e.c y) e.inv u S (ringName e commonU) 'u' false = .ok w ∧
      HasLegs (ringName e) w (fun g => if g = commonU then some K else if g ∈ set then T g else none) ∧
      HasLegs (ringName e) v (fun g => if g = commonV then some K else if g ∈ set then none else T g) ∧
      (D ≠ 2 ^ 64 - 1 → K ≤ D) := by
  have hι : Function.Injective (ringName e) := ringName_inj he.grid
  have l : ∀ g, leg t (ringName e g) = T g := ht.legs
  have off : ∀ n, (∀ g, n ≠ ringName e g) → leg t n = none := fun n hn => by
    by_contra h
    obtain ⟨g, rfl⟩ := ht.only n h
    exact hn g rfl
  have cU : ringName e commonU ∈ set.map (ringName e) → leg t (ringName e commonU) = none :=
    fun h => by rw [l]; exact hU ((mem_map_label hι).1 h)
  have cV : ringName e commonV ∉ set.map (ringName e) → leg t (ringName e commonV) = none :=
    fun h => by rw [l]; exact hV fun h' => h ((mem_map_label hι).2 h')
  obtain ⟨u, S, v, w, K, e1, e2, -, e4, -, e6, e7, e8, e9, e10, L, rfl, hL⟩ := dense_svd_parts e.ce he.grid.gemm
    he.grid.names he.grid.svd e.svdEnv e.svdJunk e.junk e.inv he.grid.sn ht.dense
    (set.map (ringName e)) (he.u commonU) (he.v commonV) cU cV
  have lu : ∀ n, leg u n = if n = ringName e commonU then some K else
      if n ∈ set.map (ringName e) then leg t n else none := fun n => by rw [e10, e6]
  have key : ∀ (K' : ℕ) (u' v' : Tensor ν NoSymmetry α) (L' : List β), L'.length = K' → Dense u' → Dense v' →
      (∀ n, leg u' n = if n = ringName e commonU then some K' else leg u n) →
      (∀ n, leg v' n = if n = ringName e commonV then some K' else leg v n) →
      ∃ w', multiple e.junk (fun x y => x * e.c y) e.inv u' [(0, L')] (ringName e commonU) 'u' false =
        .ok w' ∧
        HasLegs (ringName e) w' (fun g => if g = commonU then some K' else if g ∈ set then T g else none) ∧
        HasLegs (ringName e) v' (fun g => if g = commonV then some K' else if g ∈ set then none else T g) := by
    intro K' u' v' L' hL' hu hv lu' lv'
    obtain ⟨z, z1, z2, z3, -⟩ := dense_multiple e.junk e.c e.inv hu (S := L')
      (n := ringName e commonU) (direction := 'u') (by simp [IsDirection]) false
      (by rw [lu', if_pos rfl, hL'])
    refine ⟨z, z1, ⟨z2, fun n hn => ?_, fun g => ?_⟩, ⟨hv, fun n hn => ?_, fun g => ?_⟩⟩
    · by_contra h
      push Not at h
      rw [z3, lu', if_neg (h _), lu, if_neg (h _), off n h, ite_self] at hn
      exact hn rfl
    · rw [gleg, z3, lu', lu, l]
      by_cases hg : g = commonU
      · rw [if_pos (congrArg _ hg), if_pos hg]
      · rw [if_neg (fun h => hg (hι h)), if_neg (fun h => hg (hι h)), if_neg hg]
        exact if_congr (mem_map_label hι) rfl rfl
    · by_contra h
      push Not at h
      rw [lv', if_neg (h _), e7, if_neg (h _), off n h, ite_self] at hn
      exact hn rfl
    · rw [gleg, lv', e7, l]
      by_cases hg : g = commonV
      · rw [if_pos (congrArg _ hg), if_pos hg]
      · rw [if_neg (fun h => hg (hι h)), if_neg (fun h => hg (hι h)), if_neg hg]
        exact if_congr (mem_map_label hι) rfl rfl
  by_cases hk : Keeps K D
  · obtain ⟨z, z1, z2, z3⟩ := key K u v L hL e9 e4 (fun n => by
      rw [lu]
      split <;> rfl) (fun n => by
      rw [e7]
      split <;> rfl)
    refine ⟨K, u, [(0, L)], v, z, ?_, z1, z2, z3, fun h => hk.resolve_right h⟩
    rcases hk with hk | rfl
    · exact C35_large_cut e.svdEnv e.svdJunk e.sn t _ _ _ e1 (by simpa [hL] using hk)
    · exact e1
  · have h1 : D ≠ 2 ^ 64 - 1 := fun h => hk (Or.inr h)
    have h2 : D < L.length := by
      rw [hL]
      exact not_le.1 fun h => hk (Or.inl h)
    obtain ⟨u', v', c1, c2, c3⟩ := dense_svd_cut he.grid.svd e.svdEnv e.svdJunk he.grid.sn ht.dense
      (set.map (ringName e)) (he.u commonU) (he.v commonV) cU cV e1 e9 e4 hD h1 h2
    obtain ⟨z, z1, z2, z3⟩ := key D u' v' (L.take D) (by rw [List.length_take]; omega) c2.dense c3.dense c2.legs c3.legs
    exact ⟨D, u', _, v', z, c1, z1, z2, z3, fun _ => le_rfl⟩

/-- One step of the sweep with any cut. -/
theorem ring_truncated_any (he : LinesEnvOk e)
    {t t' : Tensor ν NoSymmetry α} {a a1 a2 b c c1 c2 u u' d d' : Option ℕ}
    (h : HasLegs (ringName e) t (full a a1 a2 b none none u d))
    (h' : HasLegs (ringName e) t' (full b none none c c1 c2 u' d')) {D : ℕ} (hD : D ≠ 0) :
    ∃ x w v K U S, e.join (e.rename t [(nn.up, nn.up1), (nn.down, nn.down1)])
        (e.rename t' [(nn.up, nn.up2), (nn.down, nn.down2)]) [(nn.right, nn.left)] = .ok x ∧
      svd e.gesvd e.svdEnv e.svdJunk e.sn x (freeNames e nn t) (e.nm nn.right) (e.nm nn.left) D = .ok (U, S, v) ∧
      multiple e.junk (fun x y => x * e.c y) e.inv U S (e.nm nn.right) 'u' false = .ok w ∧
      HasLegs (ringName e) (e.rename w [(nn.up1, nn.up), (nn.down1, nn.down)])
        (full a a1 a2 (some K) none none u d) ∧
      HasLegs (ringName e) (e.rename v [(nn.up2, nn.up), (nn.down2, nn.down)])
        (full (some K) none none c c1 c2 u' d') ∧
      (D ≠ 2 ^ 64 - 1 → K ≤ D) := by
  have hι : Function.Injective (ringName e) := ringName_inj he.grid
  obtain ⟨r1, r2⟩ := ring_rename he.grid h [((.up, .plain), (.up, .one)), ((.down, .plain), (.down, .one))]
    (by decide) (by decide) (by simp [full])
  obtain ⟨s1, s2⟩ := ring_rename he.grid h' [((.up, .plain), (.up, .two)), ((.down, .plain), (.down, .two))]
    (by decide) (by decide) (by simp [full])
  obtain ⟨x, x1, x2, x3⟩ := ring_join he.grid r1 s1 [((.right, .plain), (.left, .plain))] (by decide) (by decide)
    (by simp [renameLegs, full]) (by
      rintro ⟨x, y⟩
      cases x <;> cases y <;> simp [renameLegs, full])
  have x2 : HasLegs (ringName e) x (two .one .two a a1 a2 c c1 c2 u u' d d') := x2.cast (by
    rintro ⟨x, y⟩
    cases x <;> cases y <;> simp [contractLegs, renameLegs, full, two])
  obtain ⟨K, U, S, v, w, g1, g2', g2, g3, g4⟩ := ring_svd_any he x2
    (set := [(.left, .plain), (.left, .one), (.left, .two), (.up, .one), (.down, .one)])
    (commonU := (.right, .plain)) (commonV := (.left, .plain)) (by simp) (by simp) hD
  obtain ⟨w1, w2⟩ := ring_rename he.grid g2 [((.up, .one), (.up, .plain)), ((.down, .one), (.down, .plain))]
    (by decide) (by decide) (by simp)
  obtain ⟨v1, v2⟩ := ring_rename he.grid g3 [((.up, .two), (.up, .plain)), ((.down, .two), (.down, .plain))]
    (by decide) (by decide) (by simp [two])
  refine ⟨x, w, v, K, U, S, x1, ?_, g2', w1.cast ?_, v1.cast ?_, g4⟩
  · rw [← g1]
    refine Grid.svd_set _ _ _ _ _ (fun n hn => ?_) _ _ _
    have hn' : leg x n ≠ none := leg_ne_none.2 hn
    obtain ⟨g, rfl⟩ := x2.only n hn'
    have hg : two .one .two a a1 a2 c c1 c2 u u' d d' g ≠ none := by
      rw [← x2.legs g]
      exact hn'
    have ht : ∀ g, ringName e g ∈ t.names ↔ full a a1 a2 b none none u d g ≠ none := fun g => by
      rw [← h.legs g]
      exact leg_ne_none.symm
    have k1 : freeNames e nn t = (((t.names.filter fun x => decide (x ≠ ringName e (.right, .plain))).filter
        fun x => decide (x ≠ ringName e (.up, .plain))).filter fun x => decide (x ≠ ringName e (.down, .plain))) ++
        [ringName e (.up, .one), ringName e (.down, .one)] := rfl
    rw [k1]
    simp only [List.mem_append, List.mem_filter, decide_eq_true_eq, List.mem_cons, List.not_mem_nil, or_false, ht,
      ne_eq, hι.eq_iff, List.map_cons, List.map_nil]
    clear * - hg
    obtain ⟨x, y⟩ := g
    cases x <;> cases y <;> simp_all [full, two]
  · rintro ⟨x, y⟩
    cases x <;> cases y <;> simp [renameLegs, full, two]
  · rintro ⟨x, y⟩
    cases x <;> cases y <;> simp [renameLegs, full, two]

/-- The last and the first site with any cut. -/
theorem ring_close_any (he : LinesEnvOk e)
    {t t' : Tensor ν NoSymmetry α} {a b1 b2 c u u' d d' : Option ℕ}
    (h : HasLegs (ringName e) t (full a none none none b1 b2 u d))
    (h' : HasLegs (ringName e) t' (full none b1 b2 c none none u' d')) {D : ℕ} (hD : D ≠ 0) :
    ∃ x w v K U S, e.join (e.rename t [("up", "up1"), ("down", "down1")])
        (e.rename t' [("up", "up2"), ("down", "down2")]) [("right_1", "left_1"), ("right_2", "left_2")] = .ok x ∧
      svd e.gesvd e.svdEnv e.svdJunk e.sn x [e.nm "up1", e.nm "down1", e.nm "left"] (e.nm "right") (e.nm "left") D =
        .ok (U, S, v) ∧
      multiple e.junk (fun x y => x * e.c y) e.inv U S (e.nm "right") 'u' false = .ok w ∧
      HasLegs (ringName e) (e.rename w [("up1", "up"), ("down1", "down")])
        (full a none none (some K) none none u d) ∧
      HasLegs (ringName e) (e.rename v [("up2", "up"), ("down2", "down")])
        (full (some K) none none c none none u' d') ∧
      (D ≠ 2 ^ 64 - 1 → K ≤ D) := by
  have hι : Function.Injective (ringName e) := ringName_inj he.grid
  obtain ⟨r1, r2⟩ := ring_rename he.grid h [((.up, .plain), (.up, .three)), ((.down, .plain), (.down, .three))]
    (by decide) (by decide) (by simp [full])
  obtain ⟨s1, s2⟩ := ring_rename he.grid h' [((.up, .plain), (.up, .hole)), ((.down, .plain), (.down, .hole))]
    (by decide) (by decide) (by simp [full])
  obtain ⟨x, x1, x2, x3⟩ := ring_join he.grid r1 s1 [((.right, .one), (.left, .one)), ((.right, .two), (.left, .two))]
    (by decide) (by decide) (by simp [renameLegs, full]) (by
      rintro ⟨x, y⟩
      cases x <;> cases y <;> simp [renameLegs, full])
  have x2 : HasLegs (ringName e) x (two .three .hole a none none c none none u u' d d') := x2.cast (by
    rintro ⟨x, y⟩
    cases x <;> cases y <;> simp [contractLegs, renameLegs, full, two])
  obtain ⟨K, U, S, v, w, g1, g2', g2, g3, g4⟩ := ring_svd_any he x2
    (set := [(.up, .three), (.down, .three), (.left, .plain)])
    (commonU := (.right, .plain)) (commonV := (.left, .plain)) (by simp) (by simp) hD
  obtain ⟨w1, w2⟩ := ring_rename he.grid g2 [((.up, .three), (.up, .plain)), ((.down, .three), (.down, .plain))]
    (by decide) (by decide) (by simp)
  obtain ⟨v1, v2⟩ := ring_rename he.grid g3 [((.up, .hole), (.up, .plain)), ((.down, .hole), (.down, .plain))]
    (by decide) (by decide) (by simp [two])
  refine ⟨x, w, v, K, U, S, x1, g1, g2', w1.cast ?_, v1.cast ?_, g4⟩
  · rintro ⟨x, y⟩
    cases x <;> cases y <;> simp [renameLegs, full, two]
  · rintro ⟨x, y⟩
    cases x <;> cases y <;> simp [renameLegs, full, two]

/-- One edge, not larger than the cut. -/
def Capped (D : ℕ) (b : Bd) : Prop := ∃ k, b = (some k, none, none) ∧ (D ≠ 2 ^ 64 - 1 → k ≤ D)

theorem truncated_chain_any (he : LinesEnvOk e) {D : ℕ} (hD : D ≠ 0) {l : List (Tensor ν NoSymmetry α)} {a c : Bd}
    {us ds : List (Option ℕ)} {V : Idx → Idx → (ℕ → ℕ) → (ℕ → ℕ) → α} (hl : Chain e Plain l a c us ds V) :
    ∃ r W, truncated e nn D l = .ok r ∧ Chain e (Capped D) r a c us ds W := by
  induction hl with
  | @one t a b u d ht =>
    refine ⟨[t], _, ?_, .one ht⟩
    rw [truncated, truncated]
    rfl
  | @cons t a b c u d l us ds V hQ ht hl ih =>
    obtain ⟨k, rfl⟩ := hQ
    obtain ⟨r, W, g1, g2⟩ := ih
    cases g2 with
    | @one t' _ _ u' d' ht' =>
      obtain ⟨x, w, v, K, U, S, f1, k1, k2, f3, f4, f5⟩ := ring_truncated_any he (by exact ht) (by exact ht') hD
      refine ⟨_, _, ?_, .cons (b := (some K, none, none)) ⟨_, rfl, f5⟩ f3 (.one (a := (some K, none, none)) f4)⟩
      rw [truncated, g1, Outcome.bind]
      dsimp only
      rw [f1, Outcome.bind, k1, Outcome.bind]
      dsimp only
      rw [k2, Outcome.bind]
    | @cons t' _ b' _ u' d' l' us' ds' V' hQ' ht' hl' =>
      obtain ⟨x, w, v, K, U, S, f1, k1, k2, f3, f4, f5⟩ := ring_truncated_any he (by exact ht) (by exact ht') hD
      refine ⟨_, _, ?_, .cons (b := (some K, none, none)) ⟨_, rfl, f5⟩ f3
        (.cons (a := (some K, none, none)) hQ' f4 hl')⟩
      rw [truncated, g1, Outcome.bind]
      dsimp only
      rw [f1, Outcome.bind, k1, Outcome.bind]
      dsimp only
      rw [k2, Outcome.bind]

/-- PBC.cpp 81-88 with any cut. -/
theorem closeLine_any (he : LinesEnvOk e) {D : ℕ} (hD : D ≠ 0) {n : ℕ} {l : List (Tensor ν NoSymmetry α)} {a1 a2 : Option ℕ} {u d : ℕ → ℕ}
    {V : Idx → Idx → (ℕ → ℕ) → (ℕ → ℕ) → α}
    (hl : Chain e (Capped D) l (none, a1, a2) (none, a1, a2) ((List.range (n + 2)).map fun j => some (u j))
      ((List.range (n + 2)).map fun j => some (d j)) V) :
    ∃ (t : ℕ → Tensor ν NoSymmetry α) (h : ℕ → ℕ), closeLine e D l = .ok ((List.range (n + 2)).map t) ∧
      IsRing e.nm (n + 2) t h u d ∧ (D ≠ 2 ^ 64 - 1 → ∀ j ≤ n + 2, h j ≤ D) := by
  obtain ⟨m, b, g1, g1', g2, g3, g4, g5, g6⟩ := sites_of_chain hl
  obtain rfl : m = n + 1 := by simpa using g1'.symm
  have gu : ∀ j < n + 2, ((List.range (n + 2)).map fun j => some (u j)).getD j none = some (u j) := fun j hj => by
    rw [List.getD_eq_getElem _ _ (by simpa using hj)]
    simp
  have gd : ∀ j < n + 2, ((List.range (n + 2)).map fun j => some (d j)).getD j none = some (d j) := fun j hj => by
    rw [List.getD_eq_getElem _ _ (by simpa using hj)]
    simp
  have g5 : ∀ j < n + 2, HasLegs (ringName e) (l.getD j oneTensor)
      (fullB (b j) (b (j + 1)) (some (u j)) (some (d j))) := fun j hj => by
    rw [← gu j hj, ← gd j hj]
    exact g5 j hj
  choose! k hk using g4
  have b1 : b 1 = (some (k 1), none, none) := (hk 1 (by omega) (by omega)).1
  have bn : b (n + 1) = (some (k (n + 1)), none, none) := (hk (n + 1) (by omega) (by omega)).1
  have first := g5 0 (by omega)
  have last := g5 (n + 1) (by omega)
  rw [g2, b1] at first
  rw [bn, g3] at last
  obtain ⟨x, w, v, K, U, S, f1, k1, k2, f3, f4, f5⟩ := ring_close_any he (by exact last) (by exact first) hD
  set r : List (Tensor ν NoSymmetry α) := (l.set 0 (e.rename v [("up2", "up"), ("down2", "down")])).set (l.length - 1)
    (e.rename w [("up1", "up"), ("down1", "down")]) with hr
  have r0 : r.getD 0 oneTensor = e.rename v [("up2", "up"), ("down2", "down")] := by
    rw [hr, List.getD_eq_getElem?_getD, List.getElem?_set_ne (by omega), List.getElem?_set_self (by omega)]
    rfl
  have rn : r.getD (n + 1) oneTensor = e.rename w [("up1", "up"), ("down1", "down")] := by
    rw [hr, List.getD_eq_getElem?_getD, g1, show n + 1 + 1 - 1 = n + 1 by omega,
      List.getElem?_set_self (by rw [List.length_set]; omega)]
    rfl
  have rj : ∀ j, 0 < j → j < n + 1 → r.getD j oneTensor = l.getD j oneTensor := fun j h1 h2 => by
    rw [hr, List.getD_eq_getElem?_getD, List.getElem?_set_ne (by omega), List.getElem?_set_ne (by omega),
      List.getD_eq_getElem?_getD]
  have hlen : r.length = n + 2 := by
    rw [hr, List.length_set, List.length_set, g1]
  set h : ℕ → ℕ := fun j => if j = 0 ∨ j = n + 2 then K else k j with hh
  have h0 : h 0 = K := by simp [hh]
  have hn : h (n + 2) = K := by simp [hh]
  have hj : ∀ j, 0 < j → j < n + 2 → h j = k j := fun j h1 h2 => by
    simp only [hh]
    rw [if_neg (by omega)]
  have hsite : ∀ j < n + 2, HasLegs (ringName e) (r.getD j oneTensor)
      (fullB (some (h j), none, none) (some (h (j + 1)), none, none) (some (u j)) (some (d j))) := by
    intro j hjn
    rcases Nat.eq_zero_or_pos j with rfl | hp
    · rw [r0, h0, hj _ (by omega) (by omega)]
      exact f4
    rcases Nat.lt_or_ge j (n + 1) with hlt | hge
    · rw [rj j hp hlt, hj _ hp (by omega), hj _ (by omega) (by omega), ← (hk j hp (by omega)).1,
        ← (hk (j + 1) (by omega) (by omega)).1]
      exact g5 j hjn
    · obtain rfl : j = n + 1 := by omega
      rw [rn, hn, hj _ (by omega) (by omega)]
      exact f3
  have hring : IsRing e.nm (n + 2) (fun j => r.getD j oneTensor) h u d :=
    ⟨fun j hj => isSite_ring (hsite j hj), hn.trans h0.symm⟩
  refine ⟨fun j => r.getD j oneTensor, h, ?_, hring, fun hne j hj' => ?_⟩
  · have q1 : l.head? = some (l.getD 0 oneTensor) := by
      rw [List.head?_eq_getElem?, List.getD_eq_getElem?_getD, List.getElem?_eq_getElem (by omega)]
      rfl
    have q2 : l.getLast? = some (l.getD (n + 1) oneTensor) := by
      rw [List.getLast?_eq_getElem?, List.getD_eq_getElem?_getD, g1, show n + 1 + 1 - 1 = n + 1 by omega,
        List.getElem?_eq_getElem (by omega)]
      rfl
    rw [closeLine, q1, q2]
    dsimp only
    rw [f1, Outcome.bind, k1, Outcome.bind]
    dsimp only
    rw [k2, Outcome.bind, ← hr]
    congr 1
    rw [← hlen]
    exact (map_getD r).symm
  · rcases Nat.eq_zero_or_pos j with rfl | hp
    · rw [h0]
      exact f5 hne
    rcases Nat.lt_or_ge j (n + 2) with hlt | hge
    · rw [hj j hp hlt]
      exact (hk j hp hlt).2 hne
    · obtain rfl : j = n + 2 := by omega
      rw [hn]
      exact f5 hne

/-- One line more. -/
theorem lineStep_any (he : LinesEnvOk e) {D : ℕ} (hD : D ≠ 0) {n : ℕ} {t t' : ℕ → Tensor ν NoSymmetry α}
    {h h' u c d : ℕ → ℕ} (ht : IsRing e.nm (n + 2) t h u c) (ht' : IsRing e.nm (n + 2) t' h' c d) :
    ∃ (t'' : ℕ → Tensor ν NoSymmetry α) (h'' : ℕ → ℕ),
      ((Grid.twoLineToOneLine e "up" "down" "left" "right" ((List.range (n + 2)).map t)
        ((List.range (n + 2)).map t') D).bind fun l => closeLine e D l) = .ok ((List.range (n + 2)).map t'') ∧
      IsRing e.nm (n + 2) t'' h'' u d ∧ (D ≠ 2 ^ 64 - 1 → ∀ j ≤ n + 2, h'' j ≤ D) := by
  obtain ⟨V1, c1, -⟩ := ring_chain he ht
  obtain ⟨V2, c2, -⟩ := ring_chain he ht'
  obtain ⟨l, V, p1, p2, -⟩ := products_chain he c1 rfl rfl c2
  have hp : l.length = n + 2 := by
    obtain ⟨m, -, g1, g1', -⟩ := sites_of_chain p2
    simp only [List.length_map, List.length_range] at g1'
    omega
  generalize hU : (List.range (n + 2)).map (fun j => some (u j)) = us at p2
  generalize hE : (List.range (n + 2)).map (fun j => some (d j)) = ds at p2
  cases p2 with
  | one _ => simp at hp
  | @cons a _ b _ u0 d0 l us ds W hQ hs hl =>
    obtain ⟨b1, b2, rfl⟩ := hQ
    obtain ⟨r, W1, k1, k2, -⟩ := canonical_chain he hl rfl rfl hs (a :: l).length (by simp)
    obtain ⟨r', W2, s1, s2⟩ := truncated_chain_any he hD k2
    rw [← hU, ← hE] at s2
    obtain ⟨t'', h'', q1, q2, q3⟩ := closeLine_any he hD s2
    refine ⟨t'', h'', ?_, q2, q3⟩
    have : Grid.twoLineToOneLine e "up" "down" "left" "right" ((List.range (n + 2)).map t)
        ((List.range (n + 2)).map t') D = .ok r' := by
      rw [Grid.twoLineToOneLine, Grid.oneLine, if_neg (by simp)]
      show (products e nn _ _).bind _ = _
      rw [p1, Outcome.bind]
      show (canonical e nn _ _).bind _ = _
      rw [k1, Outcome.bind]
      exact s1
    rw [this, Outcome.bind, q1]

/-- The lines up to row `k`. -/
theorem lines_any (he : LinesEnvOk e) {D : ℕ} (hD : D ≠ 0) {n : ℕ} {site : ℕ → ℕ → Tensor ν NoSymmetry α}
    {h v : ℕ → ℕ → ℕ} (ht : IsTorus e.nm (n + 1) site h v) (k : ℕ) (hk : k < n + 1) :
    ∃ (t : ℕ → Tensor ν NoSymmetry α) (g : ℕ → ℕ),
      lines e (n + 1) site D k = .ok ((List.range (n + 1)).map t) ∧
      IsRing e.nm (n + 1) t g (v 0) (v (k + 1)) ∧ (k ≠ 0 → D ≠ 2 ^ 64 - 1 → ∀ j ≤ n + 1, g j ≤ D) := by
  induction k with
  | zero => exact ⟨site 0, h 0, rfl, ⟨ht.site 0 hk, ht.row 0 hk⟩, fun h => absurd rfl h⟩
  | succ k ih =>
    obtain ⟨t, g, g1, g2, -⟩ := ih (by omega)
    obtain ⟨n, rfl⟩ : ∃ m, n = m + 1 := ⟨n - 1, by omega⟩
    have ht' : IsRing e.nm (n + 2) (site (k + 1)) (h (k + 1)) (v (k + 1)) (v (k + 1 + 1)) :=
      ⟨ht.site (k + 1) hk, ht.row (k + 1) hk⟩
    obtain ⟨t'', h'', q1, q2, q3⟩ := lineStep_any he hD g2 ht'
    refine ⟨t'', h'', ?_, q2, fun _ => q3⟩
    rw [lines, g1, Outcome.bind]
    exact q1

end TAT.Torus
