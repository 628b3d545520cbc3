import Verif.Square.AuxStack

/-!
# Sweeps over three lines
-/

namespace TAT

set_option linter.unusedSectionVars false

variable {ν α β : Type} [LinearOrder ν] [CommRing α] [LinearOrder β] [Zero β]
variable {e : AuxEnv ν α β} {s : Side → String}

/-! ## Other directions -/

theorem legName_comp (nm : String → ν) (s : Side → String) (σ : Side → Side) (g : Leg) :
    legName nm (fun x => s (σ x)) g = legName nm s (σ g.1, g.2) := by
  obtain ⟨x, y⟩ := g
  cases y <;> rfl

theorem HasLegs.turn {σ : Side → Side} (hσ : Function.Involutive σ) {t : Tensor ν NoSymmetry α}
    {T : Leg → Option ℕ} (h : HasLegs (legName e.nm fun x => s (σ x)) t T) :
    HasLegs (legName e.nm s) t fun g => T (σ g.1, g.2) := by
  refine ⟨h.dense, fun n hn => ?_, fun g => ?_⟩
  · obtain ⟨g, rfl⟩ := h.only n hn
    exact ⟨(σ g.1, g.2), legName_comp _ _ _ _⟩
  · rw [← h.legs, gleg, gleg, legName_comp e.nm s σ (σ g.1, g.2), show σ (σ g.1) = g.1 from hσ g.1]

theorem legString_turn (s : Side → String) (σ : Side → Side) (g : Leg) :
    legString (fun x => s (σ x)) g = legString s (σ g.1, g.2) := by
  obtain ⟨x, y⟩ := g
  cases y <;> rfl

theorem Dirs.turn {σ : Side → Side} (hs : Dirs s) (hσ : Function.Involutive σ) : Dirs fun x => s (σ x) := by
  refine ⟨fun g g' h => ?_, fun g => ?_⟩
  · rw [legString_turn s σ g, legString_turn s σ g'] at h
    have := hs.inj h
    simp only [Prod.mk.injEq, hσ.injective.eq_iff] at this
    exact Prod.ext this.1 this.2
  · obtain ⟨g', hg⟩ := hs.mem (σ g.1, g.2)
    exact ⟨g', by rw [legString_turn, hg]⟩

theorem gval_turn (he : AuxEnvOk e) (hs : Dirs s) {σ : Side → Side}
    (hσ : Function.Involutive σ) {t : Tensor ν NoSymmetry α} {T : Leg → Option ℕ}
    (h : HasLegs (legName e.nm fun x => s (σ x)) t T) (f : Leg → ℕ) :
    gval (legName e.nm fun x => s (σ x)) t f = gval (legName e.nm s) t fun g => f (σ g.1, g.2) := by
  have hι : Function.Injective (legName e.nm s) := he.inj.comp hs.inj
  have hι' : Function.Injective (legName e.nm fun x => s (σ x)) := he.inj.comp (hs.turn hσ).inj
  rw [gval, val_eq_gval hι (h.turn hσ)]
  congr 1
  funext g
  have : legName e.nm s g = legName e.nm (fun x => s (σ x)) (σ g.1, g.2) := by
    rw [legName_comp e.nm s σ (σ g.1, g.2), show σ (σ g.1) = g.1 from hσ g.1]
  rw [this, hι'.extend_apply]

/-- Up and down exchanged. -/
def Side.flip : Side → Side
  | .up => .down
  | .down => .up
  | .left => .left
  | .right => .right

/-- All directions reversed. -/
def Side.rot : Side → Side
  | .up => .down
  | .down => .up
  | .left => .right
  | .right => .left

/-- Rows and columns exchanged. -/
def Side.swap : Side → Side
  | .up => .left
  | .down => .right
  | .left => .up
  | .right => .down

theorem Side.flip_flip : Function.Involutive Side.flip := by rintro (_ | _ | _ | _) <;> rfl

theorem Side.rot_rot : Function.Involutive Side.rot := by rintro (_ | _ | _ | _) <;> rfl

theorem Side.swap_swap : Function.Involutive Side.swap := by rintro (_ | _ | _ | _) <;> rfl

theorem turn_comp {σ : Side → Side} (hσ : Function.Involutive σ) (s : Side → String) :
    (fun x => (fun y => s (σ y)) (σ x)) = s := by
  funext x
  simp only [hσ x]

theorem siteOn_flip {t : Tensor ν NoSymmetry α} {l r u d : Option ℕ} :
    SiteOn e (fun x => s x.flip) t l r u d ↔ SiteOn e s t l r d u := by
  have key : ∀ (s : Side → String) {l r u d : Option ℕ}, SiteOn e (fun x => s x.flip) t l r u d →
      SiteOn e s t l r d u := fun s l r u d h => (h.turn Side.flip_flip).cast (by
    rintro ⟨x, y⟩
    cases x <;> cases y <;> rfl)
  refine ⟨key s, fun h => key (fun x => s x.flip) ?_⟩
  rwa [turn_comp Side.flip_flip]

theorem siteVal_flip (he : AuxEnvOk e) (hs : Dirs s) {t : Tensor ν NoSymmetry α}
    {l r u d : Option ℕ} (h : SiteOn e s t l r d u) (a b z y : ℕ) :
    siteVal e (fun x => s x.flip) t a b z y = siteVal e s t a b y z := by
  rw [siteVal, gval_turn he hs Side.flip_flip (siteOn_flip.2 h), siteVal]
  congr 1
  funext ⟨x, y⟩
  cases x <;> cases y <;> rfl

theorem siteOn_rot {t : Tensor ν NoSymmetry α} {l r u d : Option ℕ} :
    SiteOn e (fun x => s x.rot) t l r u d ↔ SiteOn e s t r l d u := by
  have key : ∀ (s : Side → String) {l r u d : Option ℕ}, SiteOn e (fun x => s x.rot) t l r u d →
      SiteOn e s t r l d u := fun s l r u d h => (h.turn Side.rot_rot).cast (by
    rintro ⟨x, y⟩
    cases x <;> cases y <;> rfl)
  refine ⟨key s, fun h => key (fun x => s x.rot) ?_⟩
  rwa [turn_comp Side.rot_rot]

theorem siteVal_rot (he : AuxEnvOk e) (hs : Dirs s) {t : Tensor ν NoSymmetry α}
    {l r u d : Option ℕ} (h : SiteOn e s t r l d u) (a b z y : ℕ) :
    siteVal e (fun x => s x.rot) t a b z y = siteVal e s t b a y z := by
  rw [siteVal, gval_turn he hs Side.rot_rot (siteOn_rot.2 h), siteVal]
  congr 1
  funext ⟨x, y⟩
  cases x <;> cases y <;> rfl

theorem siteOn_swap {t : Tensor ν NoSymmetry α} {l r u d : Option ℕ} :
    SiteOn e (fun x => s x.swap) t l r u d ↔ SiteOn e s t u d l r := by
  have key : ∀ (s : Side → String) {l r u d : Option ℕ}, SiteOn e (fun x => s x.swap) t l r u d →
      SiteOn e s t u d l r := fun s l r u d h => (h.turn Side.swap_swap).cast (by
    rintro ⟨x, y⟩
    cases x <;> cases y <;> rfl)
  refine ⟨key s, fun h => key (fun x => s x.swap) ?_⟩
  rwa [turn_comp Side.swap_swap]

theorem siteVal_swap (he : AuxEnvOk e) (hs : Dirs s) {t : Tensor ν NoSymmetry α}
    {l r u d : Option ℕ} (h : SiteOn e s t u d l r) (a b z y : ℕ) :
    siteVal e (fun x => s x.swap) t a b z y = siteVal e s t z y a b := by
  rw [siteVal, gval_turn he hs Side.swap_swap (siteOn_swap.2 h), siteVal]
  congr 1
  funext ⟨x, y⟩
  cases x <;> cases y <;> rfl

/-! ## One column -/

/-- The suffixes of the first and the third line. -/
def markString : Mark → String
  | .one => "1"
  | .two => "2"
  | .three => "3"
  | .hole => "0"
  | .plain => ""

/-- The first line has the suffix `1` and the third `3`, or the other way round. -/
def OuterMarks (m m' : Mark) : Prop := (m = .one ∧ m' = .three) ∨ (m = .three ∧ m' = .one)

/-- The edges of the tensor `_3_3`. -/
def threeLegs (m m' : Mark) (a b c : Option ℕ) (g : Leg) : Option ℕ :=
  if g = (.right, m) then a else if g = (.right, .two) then b else if g = (.right, m') then c else none

def threeIdx (m m' : Mark) (x : ℕ × ℕ × ℕ) (g : Leg) : ℕ :=
  if g = (.right, m) then x.1 else if g = (.right, .two) then x.2.1 else if g = (.right, m') then x.2.2 else 0

/-- The edges of the tensor `_3_1`. -/
def fourLegs (m m' : Mark) (a b c z : Option ℕ) (g : Leg) : Option ℕ :=
  if g = (.right, m) then a else if g = (.right, .two) then b else if g = (.right, m') then c
  else if g = (.down, .plain) then z else none

def fourIdx (m m' : Mark) (a b c z : ℕ) (g : Leg) : ℕ :=
  if g = (.right, m) then a else if g = (.right, .two) then b else if g = (.right, m') then c
  else if g = (.down, .plain) then z else 0

theorem step31_ok (he : AuxEnvOk e) (hs : Dirs s) {m m' : Mark}
    (hm : OuterMarks m m') {last line : Tensor ν NoSymmetry α} {a a' b c z : Option ℕ}
    (h : HasLegs (legName e.nm s) last (threeLegs m m' a b c)) (h1 : SiteOn e s line a a' none z) :
    ∃ t, step31 e (s .left) (s .right) (markString m) last line = .ok t ∧
      HasLegs (legName e.nm s) t (fourLegs m m' a' b c z) ∧
      ∀ x' y w k, gval (legName e.nm s) t (fourIdx m m' x' y w k) = ∑ x ∈ Finset.range (bondDim a),
        gval (legName e.nm s) last (threeIdx m m' (x, y, w)) * siteVal e s line x x' 0 k := by
  have hι : Function.Injective (legName e.nm s) := he.inj.comp hs.inj
  obtain ⟨t, j1, j2, j3⟩ := join_ok he hs h h1 [((.right, m), (.left, .plain))] (by simp) (by simp)
    (by rcases hm with ⟨rfl, rfl⟩ | ⟨rfl, rfl⟩ <;> simp [threeLegs, siteLegs]) (by
      rintro ⟨x, y⟩
      rcases hm with ⟨rfl, rfl⟩ | ⟨rfl, rfl⟩ <;> cases x <;> cases y <;> simp [threeLegs, siteLegs])
  obtain ⟨r1, r2⟩ := rename_ok he hs j2 [((.right, .plain), (.right, m))] (by simp) (by simp)
    (by rcases hm with ⟨rfl, rfl⟩ | ⟨rfl, rfl⟩ <;> simp [contractLegs, threeLegs, siteLegs])
  refine ⟨_, ?_, r1.cast ?_, fun x' y w k => ?_⟩
  · have : legString s (.right, m) = s .right ++ markString m := by
      rcases hm with ⟨rfl, rfl⟩ | ⟨rfl, rfl⟩ <;> rfl
    simp only [List.map_cons, List.map_nil, this] at j1 ⊢
    rw [step31, show s .left = legString s (.left, .plain) from rfl, j1, Outcome.bind]
    rfl
  · rintro ⟨x, y⟩
    rcases hm with ⟨rfl, rfl⟩ | ⟨rfl, rfl⟩ <;> cases x <;> cases y <;>
      simp [renameLegs, contractLegs, threeLegs, fourLegs, siteLegs]
  · rw [r2, j3]
    simp only [sumPairs]
    refine Finset.sum_congr (by
      rcases hm with ⟨rfl, rfl⟩ | ⟨rfl, rfl⟩ <;> simp [threeLegs, bondDim]) fun x _ => ?_
    congr 1
    · refine gval_congr hι h ?_
      rintro ⟨x, y⟩
      rcases hm with ⟨rfl, rfl⟩ | ⟨rfl, rfl⟩ <;> cases x <;> cases y <;>
        simp [threeLegs, renameTo, threeIdx, fourIdx]
    · refine gval_congr hι h1 ?_
      rintro ⟨x, y⟩
      rcases hm with ⟨rfl, rfl⟩ | ⟨rfl, rfl⟩ <;> cases x <;> cases y <;>
        simp [siteLegs, renameTo, siteIdx, fourIdx]

theorem step33_ok (he : AuxEnvOk e) (hs : Dirs s) {m m' : Mark}
    (hm : OuterMarks m m') {this site line : Tensor ν NoSymmetry α} {a b b' c c' z y : Option ℕ}
    (h : HasLegs (legName e.nm s) this (fourLegs m m' a b c z)) (h2 : SiteOn e s site b b' z y)
    (h3 : SiteOn e s line c c' y none) :
    ∃ t, step33 e (s .up) (s .down) (s .left) (s .right) (markString m') this site line = .ok t ∧
      HasLegs (legName e.nm s) t (threeLegs m m' a b' c') ∧
      ∀ x q' w', gval (legName e.nm s) t (threeIdx m m' (x, q', w')) =
        ∑ w ∈ Finset.range (bondDim c), ∑ k' ∈ Finset.range (bondDim y),
          (∑ q ∈ Finset.range (bondDim b), ∑ k ∈ Finset.range (bondDim z),
            gval (legName e.nm s) this (fourIdx m m' x q w k) * siteVal e s site q q' k k') *
          siteVal e s line w w' k' 0 := by
  have hι : Function.Injective (legName e.nm s) := he.inj.comp hs.inj
  obtain ⟨t, j1, j2, j3⟩ := join_ok he hs h h2 [((.right, .two), (.left, .plain)), ((.down, .plain), (.up, .plain))]
    (by decide) (by decide)
    (by rcases hm with ⟨rfl, rfl⟩ | ⟨rfl, rfl⟩ <;> simp [fourLegs, siteLegs]) (by
      rintro ⟨x, y⟩
      rcases hm with ⟨rfl, rfl⟩ | ⟨rfl, rfl⟩ <;> cases x <;> cases y <;> simp [fourLegs, siteLegs])
  obtain ⟨r1, r2⟩ := rename_ok he hs j2 [((.right, .plain), (.right, .two))] (by simp) (by simp)
    (by rcases hm with ⟨rfl, rfl⟩ | ⟨rfl, rfl⟩ <;> simp [contractLegs, fourLegs, siteLegs])
  have r1 : HasLegs (legName e.nm s) _ (fourLegs m m' a b' c y) := r1.cast (by
    rintro ⟨x, y⟩
    rcases hm with ⟨rfl, rfl⟩ | ⟨rfl, rfl⟩ <;> cases x <;> cases y <;>
      simp [renameLegs, contractLegs, fourLegs, siteLegs])
  obtain ⟨t', j1', j2', j3'⟩ := join_ok he hs r1 h3 [((.right, m'), (.left, .plain)), ((.down, .plain), (.up, .plain))]
    (by rcases hm with ⟨rfl, rfl⟩ | ⟨rfl, rfl⟩ <;> decide) (by simp)
    (by rcases hm with ⟨rfl, rfl⟩ | ⟨rfl, rfl⟩ <;> simp [fourLegs, siteLegs]) (by
      rintro ⟨x, y⟩
      rcases hm with ⟨rfl, rfl⟩ | ⟨rfl, rfl⟩ <;> cases x <;> cases y <;> simp [fourLegs, siteLegs])
  obtain ⟨r1', r2'⟩ := rename_ok he hs j2' [((.right, .plain), (.right, m'))] (by simp) (by simp)
    (by rcases hm with ⟨rfl, rfl⟩ | ⟨rfl, rfl⟩ <;> simp [contractLegs, fourLegs, siteLegs])
  refine ⟨_, ?_, r1'.cast ?_, fun x q' w' => ?_⟩
  · have : legString s (.right, m') = s .right ++ markString m' := by
      rcases hm with ⟨rfl, rfl⟩ | ⟨rfl, rfl⟩ <;> rfl
    simp only [List.map_cons, List.map_nil, this] at j1 j1' ⊢
    rw [step33, show s .left = legString s (.left, .plain) from rfl,
      show s .right ++ "2" = legString s (.right, .two) from rfl, show s .up = legString s (.up, .plain) from rfl,
      show s .down = legString s (.down, .plain) from rfl, j1, Outcome.bind]
    rw [show e.rename t [(s .right, legString s (.right, .two))] =
      e.rename t [(legString s (.right, .plain), legString s (.right, .two))] from rfl, j1', Outcome.bind]
    rfl
  · rintro ⟨x, y⟩
    rcases hm with ⟨rfl, rfl⟩ | ⟨rfl, rfl⟩ <;> cases x <;> cases y <;>
      simp [renameLegs, contractLegs, threeLegs, fourLegs, siteLegs]
  · rw [r2', j3']
    simp only [sumPairs]
    refine Finset.sum_congr (by
      rcases hm with ⟨rfl, rfl⟩ | ⟨rfl, rfl⟩ <;> simp [fourLegs, bondDim]) fun w _ => Finset.sum_congr (by
      rcases hm with ⟨rfl, rfl⟩ | ⟨rfl, rfl⟩ <;> simp [fourLegs, bondDim]) fun k' _ => ?_
    congr 1
    · rw [r2, j3]
      simp only [sumPairs]
      refine Finset.sum_congr (by
        rcases hm with ⟨rfl, rfl⟩ | ⟨rfl, rfl⟩ <;> simp [fourLegs, bondDim]) fun q _ => Finset.sum_congr (by
        rcases hm with ⟨rfl, rfl⟩ | ⟨rfl, rfl⟩ <;> simp [fourLegs, bondDim]) fun k _ => ?_
      congr 1
      · refine gval_congr hι h ?_
        rintro ⟨x, y⟩
        rcases hm with ⟨rfl, rfl⟩ | ⟨rfl, rfl⟩ <;> cases x <;> cases y <;>
          simp [fourLegs, renameTo, threeIdx, fourIdx, Function.update_apply]
      · refine gval_congr hι h2 ?_
        rintro ⟨x, y⟩
        rcases hm with ⟨rfl, rfl⟩ | ⟨rfl, rfl⟩ <;> cases x <;> cases y <;>
          simp [siteLegs, renameTo, siteIdx, threeIdx, Function.update_apply]
    · refine gval_congr hι h3 ?_
      rintro ⟨x, y⟩
      rcases hm with ⟨rfl, rfl⟩ | ⟨rfl, rfl⟩ <;> cases x <;> cases y <;>
        simp [siteLegs, renameTo, siteIdx, threeIdx]

/-! ## The sweep -/

/-- Three lines of `N` sites; the edges between the first two are `z`, those between the last two `y`. -/
structure LadderOn (e : AuxEnv ν α β) (s : Side → String) (N : ℕ) (A T C : ℕ → Tensor ν NoSymmetry α)
    (ha hb hc z y : ℕ → Option ℕ) : Prop where
  near : RowOn e s N A ha (fun _ => none) z
  mid : RowOn e s N T hb z y
  far : RowOn e s N C hc y fun _ => none

/-- The indices between two columns. -/
def rung (ha hb hc : ℕ → Option ℕ) (j : ℕ) : Finset (ℕ × ℕ × ℕ) :=
  Finset.range (bondDim (ha j)) ×ˢ Finset.range (bondDim (hb j)) ×ˢ Finset.range (bondDim (hc j))

/-- One column, `W` is the site in the middle. -/
noncomputable def column (e : AuxEnv ν α β) (s : Side → String) (z y : Option ℕ) (A C : Tensor ν NoSymmetry α)
    (W : ℕ → ℕ → ℕ → ℕ → α) (x x' : ℕ × ℕ × ℕ) : α :=
  ∑ k ∈ Finset.range (bondDim z), ∑ k' ∈ Finset.range (bondDim y),
    siteVal e s A x.1 x'.1 0 k * W x.2.1 x'.2.1 k k' * siteVal e s C x.2.2 x'.2.2 k' 0

/-- The part of the three lines before column `k`. -/
noncomputable def ladderTo (e : AuxEnv ν α β) (s : Side → String) (A T C : ℕ → Tensor ν NoSymmetry α)
    (ha hb hc z y : ℕ → Option ℕ) (k : ℕ) (x : ℕ × ℕ × ℕ) : α :=
  chainTo (rung ha hb hc) (fun j => column e s (z j) (y j) (A j) (C j) (siteVal e s (T j))) k x

theorem lineAt_map {N k : ℕ} (hk : k < N) (t : ℕ → Tensor ν NoSymmetry α) :
    lineAt ((List.range N).map t) k = .ok (t k) := by
  simp [lineAt, hk]

theorem sum_five {κ1 κ2 κ3 κ4 κ5 : Type} (A : Finset κ1) (B : Finset κ2) (C : Finset κ3) (D : Finset κ4)
    (E : Finset κ5) (f : κ4 → κ2 → κ3 → κ5 → κ1 → α) :
    ∑ w ∈ D, ∑ k ∈ B, ∑ q ∈ C, ∑ j ∈ E, ∑ x ∈ A, f w k q j x =
      ∑ x ∈ A, ∑ q ∈ C, ∑ w ∈ D, ∑ j ∈ E, ∑ k ∈ B, f w k q j x := by
  calc _ = ∑ w ∈ D, ∑ k ∈ B, ∑ q ∈ C, ∑ x ∈ A, ∑ j ∈ E, f w k q j x :=
        Finset.sum_congr rfl fun w _ => Finset.sum_congr rfl fun k _ => Finset.sum_congr rfl fun q _ => Finset.sum_comm
    _ = ∑ w ∈ D, ∑ k ∈ B, ∑ x ∈ A, ∑ q ∈ C, ∑ j ∈ E, f w k q j x :=
        Finset.sum_congr rfl fun w _ => Finset.sum_congr rfl fun k _ => Finset.sum_comm
    _ = ∑ w ∈ D, ∑ x ∈ A, ∑ k ∈ B, ∑ q ∈ C, ∑ j ∈ E, f w k q j x :=
        Finset.sum_congr rfl fun w _ => Finset.sum_comm
    _ = ∑ x ∈ A, ∑ w ∈ D, ∑ k ∈ B, ∑ q ∈ C, ∑ j ∈ E, f w k q j x :=
        Finset.sum_comm
    _ = ∑ x ∈ A, ∑ w ∈ D, ∑ q ∈ C, ∑ k ∈ B, ∑ j ∈ E, f w k q j x :=
        Finset.sum_congr rfl fun x _ => Finset.sum_congr rfl fun w _ => Finset.sum_comm
    _ = ∑ x ∈ A, ∑ q ∈ C, ∑ w ∈ D, ∑ k ∈ B, ∑ j ∈ E, f w k q j x :=
        Finset.sum_congr rfl fun x _ => Finset.sum_comm
    _ = ∑ x ∈ A, ∑ q ∈ C, ∑ w ∈ D, ∑ j ∈ E, ∑ k ∈ B, f w k q j x :=
        Finset.sum_congr rfl fun x _ => Finset.sum_congr rfl fun q _ => Finset.sum_congr rfl fun w _ => Finset.sum_comm

/-- A part of the three lines continued by one column. -/
theorem sum_column (ha hb hc : Option ℕ) (z y : Option ℕ) (A C : Tensor ν NoSymmetry α) (W : ℕ → ℕ → ℕ → ℕ → α)
    (L : ℕ × ℕ × ℕ → α) (x' : ℕ × ℕ × ℕ) :
    ∑ x ∈ Finset.range (bondDim ha) ×ˢ Finset.range (bondDim hb) ×ˢ Finset.range (bondDim hc),
        L x * column e s z y A C W x x' =
      ∑ w ∈ Finset.range (bondDim hc), ∑ k' ∈ Finset.range (bondDim y),
          (∑ q ∈ Finset.range (bondDim hb), ∑ k ∈ Finset.range (bondDim z),
            (∑ x ∈ Finset.range (bondDim ha), L (x, q, w) * siteVal e s A x x'.1 0 k) * W q x'.2.1 k k') *
          siteVal e s C w x'.2.2 k' 0 := by
  symm
  simp only [Finset.sum_product, column, Finset.sum_mul, Finset.mul_sum]
  rw [sum_five]
  refine Finset.sum_congr rfl fun i _ => Finset.sum_congr rfl fun i2 _ => Finset.sum_congr rfl fun i3 _ =>
    Finset.sum_congr rfl fun i4 _ => Finset.sum_congr rfl fun i5 _ => ?_
  ring

theorem sweep33_ok (he : AuxEnvOk e) (hs : Dirs s) {m m' : Mark}
    (hm : OuterMarks m m') {N : ℕ} {A T C : ℕ → Tensor ν NoSymmetry α} {ha hb hc z y : ℕ → Option ℕ}
    (hl : LadderOn e s N A T C ha hb hc z y) (k : ℕ) (hk : k ≤ N) :
    ∃ t, sweep33 e (s .up) (s .down) (s .left) (s .right) (markString m) (markString m')
        ((List.range N).map A) ((List.range N).map T) ((List.range N).map C) k = .ok t ∧
      HasLegs (legName e.nm s) t (threeLegs m m' (ha k) (hb k) (hc k)) ∧
      ∀ x, gval (legName e.nm s) t (threeIdx m m' x) = ladderTo e s A T C ha hb hc z y k x := by
  induction k with
  | zero =>
    refine ⟨oneTensor, rfl, (oneTensor_legs s).cast fun g => ?_, fun x => ?_⟩
    · rw [hl.near.left, hl.mid.left, hl.far.left]
      simp [threeLegs]
    · rw [gval, oneTensor_val]
      rfl
  | succ k ih =>
    obtain ⟨t, i1, i2, i3⟩ := ih (by omega)
    obtain ⟨t1, a1, a2, a3⟩ := step31_ok he hs hm i2 (hl.near.site k (by omega))
    obtain ⟨t2, b1, b2, b3⟩ := step33_ok he hs hm a2 (hl.mid.site k (by omega)) (hl.far.site k (by omega))
    refine ⟨t2, ?_, b2, fun x => ?_⟩
    · rw [sweep33, i1, Outcome.bind, lineAt_map hk, Outcome.bind, a1, Outcome.bind, lineAt_map hk, Outcome.bind,
        lineAt_map hk, Outcome.bind, b1]
    · obtain ⟨x1, x2, x3⟩ := x
      rw [b3]
      simp only [a3, i3]
      rw [ladderTo, chainTo, rung, sum_column]
      rfl

theorem sweep31_ok (he : AuxEnvOk e) (hs : Dirs s) {m m' : Mark}
    (hm : OuterMarks m m') {N : ℕ} {A T C : ℕ → Tensor ν NoSymmetry α} {ha hb hc z y : ℕ → Option ℕ}
    (hl : LadderOn e s N A T C ha hb hc z y) (k : ℕ) (hk : k < N) :
    ∃ t, sweep31 e (s .up) (s .down) (s .left) (s .right) (markString m) (markString m')
        ((List.range N).map A) ((List.range N).map T) ((List.range N).map C) k = .ok t ∧
      HasLegs (legName e.nm s) t (fourLegs m m' (ha (k + 1)) (hb k) (hc k) (z k)) ∧
      ∀ x' y' w i, gval (legName e.nm s) t (fourIdx m m' x' y' w i) = ∑ x ∈ Finset.range (bondDim (ha k)),
        ladderTo e s A T C ha hb hc z y k (x, y', w) * siteVal e s (A k) x x' 0 i := by
  obtain ⟨t, i1, i2, i3⟩ := sweep33_ok he hs hm hl k hk.le
  obtain ⟨t1, a1, a2, a3⟩ := step31_ok he hs hm i2 (hl.near.site k hk)
  refine ⟨t1, ?_, a2, fun x' y' w i => ?_⟩
  · rw [sweep31, i1, Outcome.bind, lineAt_map hk, Outcome.bind, a1]
  · rw [a3]
    simp only [i3]

end TAT
