import Verif.Square.AuxGrid
import Verif.Qr.Witness
import Verif.Svd.Witness
import Mathlib.Data.String.Basic

/-!
# C62: what `square/auxiliaries_system.hpp` computes

The specification is `latticeValue`: the sum over all indices of the edges of the product of the elements of
all sites.  The lines of the auxiliaries are cut to `dimension_cut`; when the cut is not smaller than some
number, which depends on the lattice, or is the value that means no cut, nothing is lost and every call gives
the exact number.
-/

namespace TAT

set_option linter.unusedSectionVars false

variable {ν α β : Type} [LinearOrder ν]

/-! ## Specification -/

/-- Indices for the four edges of a site; the names of the edges end in `m`. -/
def sideIndex (nm : String → ν) (m : String) (l r u d : ℕ) (n : ν) : ℕ :=
  if n = nm ("L" ++ m) then l else if n = nm ("R" ++ m) then r else if n = nm ("U" ++ m) then u
  else if n = nm ("D" ++ m) then d else 0

/-- A tensor with the four edges of a site, some of which may be missing, and no others. -/
structure HasEdges (nm : String → ν) (m : String) (t : Tensor ν NoSymmetry α) (l r u d : Option ℕ) : Prop where
  dense : Dense t
  left : leg t (nm ("L" ++ m)) = l
  right : leg t (nm ("R" ++ m)) = r
  up : leg t (nm ("U" ++ m)) = u
  down : leg t (nm ("D" ++ m)) = d
  only : ∀ n, leg t n ≠ none → n = nm ("L" ++ m) ∨ n = nm ("R" ++ m) ∨ n = nm ("U" ++ m) ∨ n = nm ("D" ++ m)

/-- A lattice of `M` rows and `N` columns: `h i j` is the edge on the left of site `i j`, `v i j` that above.
There are no edges at the border. -/
structure LatticeOn (nm : String → ν) (M N : ℕ) (site : ℕ → ℕ → Tensor ν NoSymmetry α)
    (h v : ℕ → ℕ → Option ℕ) : Prop where
  fits : ∀ i < M, ∀ j < N, HasEdges nm "" (site i j) (h i j) (h i (j + 1)) (v i j) (v (i + 1) j)
  left : ∀ i, h i 0 = none
  right : ∀ i, h i N = none
  top : ∀ j, v 0 j = none
  bottom : ∀ j, v M j = none

section

variable [CommRing α]

/-- The element of a site. -/
def siteElem (nm : String → ν) (t : Tensor ν NoSymmetry α) (l r u d : ℕ) : α :=
  val t (sideIndex nm "" l r u d)

/-- The number that the lattice stands for. -/
def latticeValue (nm : String → ν) (M N : ℕ) (h v : ℕ → ℕ → Option ℕ)
    (site : ℕ → ℕ → Tensor ν NoSymmetry α) : α :=
  netVal M N (fun i j => (h i j).getD 1) (fun i j => (v i j).getD 1) fun i j => siteElem nm (site i j)

end

/-- The lattice with another tensor at one site. -/
def setSite (site : ℕ → ℕ → Tensor ν NoSymmetry α) (i j : ℕ) (new : Tensor ν NoSymmetry α) (i' j' : ℕ) :
    Tensor ν NoSymmetry α :=
  if i' = i ∧ j' = j then new else site i' j'

/-! ## From the specification to the labels -/

theorem sideString_dirs : Dirs sideString := by
  refine ⟨?_, fun g => ⟨g, rfl⟩⟩
  rintro ⟨x, y⟩ ⟨x', y'⟩ h
  revert h
  cases x <;> cases y <;> cases x' <;> cases y' <;> decide +kernel

variable [CommRing α] [LinearOrder β] [Zero β] {e : AuxEnv ν α β}

theorem legName_inj (he : AuxEnvOk e) : Function.Injective (legName e.nm sideString) :=
  he.inj.comp sideString_dirs.inj

theorem HasEdges.on {t : Tensor ν NoSymmetry α} (he : AuxEnvOk e) {l r u d : Option ℕ} (h : HasEdges e.nm "" t l r u d) :
    SiteOn e sideString t l r u d := by
  have hs : ∀ a : String, a ++ "" = a := by simp
  have hn : ∀ n, leg t n ≠ none → ∃ g : Side, n = legName e.nm sideString (g, .plain) := fun n hn => by
    have := h.only n hn
    simp only [hs] at this
    rcases this with rfl | rfl | rfl | rfl
    · exact ⟨.left, rfl⟩
    · exact ⟨.right, rfl⟩
    · exact ⟨.up, rfl⟩
    · exact ⟨.down, rfl⟩
  refine ⟨h.dense, fun n h' => (hn n h').elim fun g hg => ⟨(g, .plain), hg⟩, ?_⟩
  have ho : ∀ x m, m ≠ Mark.plain → gleg (legName e.nm sideString) t (x, m) = none := fun x m hm => by
    by_contra hne
    obtain ⟨g, hg⟩ := hn _ hne
    have := legName_inj he hg
    simp only [Prod.mk.injEq] at this
    exact hm this.2
  have hl := h.left
  have hr := h.right
  have hu := h.up
  have hd := h.down
  simp only [hs] at hl hr hu hd
  rintro ⟨x, m⟩
  by_cases hm : m = .plain
  · subst hm
    cases x
    · exact hu
    · exact hd
    · exact hl
    · exact hr
  · rw [ho x m hm]
    cases x <;> cases m <;> first | rfl | exact absurd rfl hm

theorem siteVal_elem (he : AuxEnvOk e) {t : Tensor ν NoSymmetry α} {l r u d : Option ℕ}
    (h : HasEdges e.nm "" t l r u d) : siteVal e sideString t = siteElem e.nm t := by
  funext a b z y
  rw [siteVal, siteElem, val_eq_gval (legName_inj he) (h.on he)]
  refine gval_congr (legName_inj he) (h.on he) ?_
  have hs : ∀ a : String, a ++ "" = a := by simp
  rintro ⟨x, m⟩ hne
  cases x <;> cases m <;> simp only [siteLegs, ne_eq, not_true_eq_false] at hne <;>
    simp [siteIdx, sideIndex, legName, legString, sideString, he.inj.eq_iff]

theorem fits_hole (he : AuxEnvOk e) {t : Tensor ν NoSymmetry α} {l r u d : Option ℕ}
    (h : HasLegs (legName e.nm sideString) t (holeLegs l r u d)) :
    HasEdges e.nm "0" t l r u d ∧ ∀ a b z y,
      gval (legName e.nm sideString) t (holeIdx a b z y) = val t (sideIndex e.nm "0" a b z y) := by
  refine ⟨⟨h.dense, h.legs (.left, .hole), h.legs (.right, .hole), h.legs (.up, .hole), h.legs (.down, .hole),
    fun n hn => ?_⟩, fun a b z y => ?_⟩
  · obtain ⟨⟨x, m⟩, rfl⟩ := h.only n hn
    have hg := h.legs (x, m)
    cases x <;> cases m <;> first | exact absurd hg hn | skip
    · exact Or.inr (Or.inr (Or.inl rfl))
    · exact Or.inr (Or.inr (Or.inr rfl))
    · exact Or.inl rfl
    · exact Or.inr (Or.inl rfl)
  · rw [val_eq_gval (legName_inj he) h]
    refine gval_congr (legName_inj he) h ?_
    rintro ⟨x, m⟩ hne
    cases x <;> cases m <;> simp only [holeLegs, ne_eq, not_true_eq_false] at hne <;>
      simp [holeIdx, sideIndex, legName, legString, sideString, he.inj.eq_iff]

theorem netVal_congr {M N : ℕ} {h v : ℕ → ℕ → ℕ} {S S' : ℕ → ℕ → ℕ → ℕ → ℕ → ℕ → α}
    (hS : ∀ i < M, ∀ j < N, S i j = S' i j) : netVal M N h v S = netVal M N h v S' := by
  unfold netVal
  refine Finset.sum_congr rfl fun p _ => Finset.sum_congr rfl fun q _ => Finset.prod_congr rfl fun i _ =>
    Finset.prod_congr rfl fun j _ => ?_
  rw [hS i i.isLt j j.isLt]

variable {M N : ℕ} {site : ℕ → ℕ → Tensor ν NoSymmetry α} {h v : ℕ → ℕ → Option ℕ}

theorem LatticeOn.grid (he : AuxEnvOk e) (hl : LatticeOn e.nm M N site h v) : GridOn e sideString M N site h v :=
  ⟨fun i hi => ⟨hl.left i, hl.right i, fun j hj => (hl.fits i hi j hj).on he⟩, hl.top, hl.bottom⟩

theorem LatticeOn.gridV (he : AuxEnvOk e) (hl : LatticeOn e.nm M N site h v) :
    GridOn e (fun x => sideString x.swap) N M (fun j i => site i j) (fun j i => v i j) fun j i => h i j :=
  ⟨fun j hj => ⟨hl.top j, hl.bottom j, fun i hi => siteOn_swap.2 ((hl.fits i hi j hj).on he)⟩, hl.left, hl.right⟩

theorem LatticeOn.value (he : AuxEnvOk e) (hl : LatticeOn e.nm M N site h v) :
    latticeValue e.nm M N h v site =
      netVal M N (fun i j => bondDim (h i j)) (fun i j => bondDim (v i j)) fun i j => siteVal e sideString (site i j) :=
  netVal_congr fun i hi j hj => (siteVal_elem he (hl.fits i hi j hj)).symm

theorem LatticeOn.valueV (he : AuxEnvOk e) (hl : LatticeOn e.nm M N site h v) :
    latticeValue e.nm M N h v site =
      netVal N M (fun j i => bondDim (v i j)) (fun j i => bondDim (h i j))
        fun j i => siteVal e (fun x => sideString x.swap) (site i j) := by
  rw [latticeValue, netVal_transpose]
  refine netVal_congr fun j hj i hi => ?_
  funext a b z y
  have := hl.fits i hi j hj
  rw [siteVal_swap he sideString_dirs (this.on he), siteVal_elem he this]

theorem LatticeOn.set (hl : LatticeOn e.nm M N site h v) {i j : ℕ} {new : Tensor ν NoSymmetry α}
    (hn : HasEdges e.nm "" new (h i j) (h i (j + 1)) (v i j) (v (i + 1) j)) :
    LatticeOn e.nm M N (setSite site i j new) h v := by
  refine ⟨fun i' hi' j' hj' => ?_, hl.left, hl.right, hl.top, hl.bottom⟩
  rw [setSite]
  split
  · next hc =>
    obtain ⟨rfl, rfl⟩ := hc
    exact hn
  · exact hl.fits i' hi' j' hj'

theorem upToDown_stack (e : AuxEnv ν α β) (M N cut : ℕ) (site : ℕ → ℕ → Tensor ν NoSymmetry α) (k : ℕ) :
    upToDown e ⟨M, N, cut, site⟩ k =
      stack e "U" "D" "L" "R" (fun i => (List.range N).map (site i)) N cut k := by
  induction k with
  | zero => rfl
  | succ k ih => rw [upToDown, ih, stack]; rfl

theorem downToUp_stack (e : AuxEnv ν α β) (M N cut : ℕ) (site : ℕ → ℕ → Tensor ν NoSymmetry α) (k : ℕ) :
    downToUp e ⟨M, N, cut, site⟩ k =
      stack e "D" "U" "L" "R" (fun i => (List.range N).map (site (M - (i + 1)))) N cut k := by
  induction k with
  | zero => rfl
  | succ k ih => rw [downToUp, ih, stack]; rfl

theorem leftToRight_stack (e : AuxEnv ν α β) (M N cut : ℕ) (site : ℕ → ℕ → Tensor ν NoSymmetry α) (k : ℕ) :
    leftToRight e ⟨M, N, cut, site⟩ k =
      stack e "L" "R" "U" "D" (fun j => (List.range M).map fun i => site i j) M cut k := by
  induction k with
  | zero => rfl
  | succ k ih => rw [leftToRight, ih, stack]; rfl

theorem rightToLeft_stack (e : AuxEnv ν α β) (M N cut : ℕ) (site : ℕ → ℕ → Tensor ν NoSymmetry α) (k : ℕ) :
    rightToLeft e ⟨M, N, cut, site⟩ k =
      stack e "R" "L" "U" "D" (fun j => (List.range M).map fun i => site i (N - (j + 1))) M cut k := by
  induction k with
  | zero => rfl
  | succ k ih => rw [rightToLeft, ih, stack]; rfl

/-- The lines around a row. -/
theorem row_window (he : AuxEnvOk e) (hl : LatticeOn e.nm M N site h v) (hN : 0 < N) {i : ℕ} (hi : i < M) :
    ∃ (B : ℕ) (A C : ℕ → Tensor ν NoSymmetry α) (ga gc : ℕ → Option ℕ), (∀ cut, Keeps B cut →
        upToDown e ⟨M, N, cut, site⟩ i = .ok ((List.range N).map A) ∧
        downToUp e ⟨M, N, cut, site⟩ (M - (i + 1)) = .ok ((List.range N).map C)) ∧
      LadderOn e sideString N A (site i) C ga (h i) gc (v i) (v (i + 1)) ∧
      ∀ W : ℕ → ℕ → ℕ → ℕ → ℕ → α,
        netVal M N (fun i j => bondDim (h i j)) (fun i j => bondDim (v i j))
          (fun i' => if i' = i then W else fun j => siteVal e sideString (site i' j)) =
        chain (rung ga (h i) gc) (fun j => column e sideString (v i j) (v (i + 1) j) (A j) (C j) (W j)) N := by
  obtain ⟨B, A, ga, C, gc, h1, h2, h3⟩ := window_ok he sideString_dirs hN (hl.grid he) hi
  refine ⟨B, A, C, ga, gc, fun cut hc => ?_, h2, h3⟩
  rw [upToDown_stack, downToUp_stack]
  exact h1 cut hc

/-- The lines around a column. -/
theorem column_window (he : AuxEnvOk e) (hl : LatticeOn e.nm M N site h v) (hM : 0 < M) {j : ℕ} (hj : j < N) :
    ∃ (B : ℕ) (A C : ℕ → Tensor ν NoSymmetry α) (ga gc : ℕ → Option ℕ), (∀ cut, Keeps B cut →
        leftToRight e ⟨M, N, cut, site⟩ j = .ok ((List.range M).map A) ∧
        rightToLeft e ⟨M, N, cut, site⟩ (N - (j + 1)) = .ok ((List.range M).map C)) ∧
      LadderOn e (fun x => sideString x.swap) M A (fun i => site i j) C ga (fun i => v i j) gc (fun i => h i j)
        (fun i => h i (j + 1)) ∧
      ∀ W : ℕ → ℕ → ℕ → ℕ → ℕ → α,
        netVal N M (fun j i => bondDim (v i j)) (fun j i => bondDim (h i j))
          (fun j' => if j' = j then W else fun i => siteVal e (fun x => sideString x.swap) (site i j')) =
        chain (rung ga (fun i => v i j) gc) (fun i => column e (fun x => sideString x.swap) (h i j) (h i (j + 1))
          (A i) (C i) (W i)) M := by
  obtain ⟨B, A, ga, C, gc, h1, h2, h3⟩ := window_ok he (sideString_dirs.turn Side.swap_swap) hM (hl.gridV he) hj
  refine ⟨B, A, C, ga, gc, fun cut hc => ?_, h2, h3⟩
  rw [leftToRight_stack, rightToLeft_stack]
  exact h1 cut hc

theorem value_set (he : AuxEnvOk e) (hl : LatticeOn e.nm M N site h v) {i j : ℕ} {new : Tensor ν NoSymmetry α}
    (hn : HasEdges e.nm "" new (h i j) (h i (j + 1)) (v i j) (v (i + 1) j)) :
    latticeValue e.nm M N h v (setSite site i j new) =
      netVal M N (fun i j => bondDim (h i j)) (fun i j => bondDim (v i j)) fun i' => if i' = i then
        setCol (fun j => siteVal e sideString (site i j)) j (siteVal e sideString new)
        else fun j => siteVal e sideString (site i' j) := by
  rw [(hl.set hn).value he]
  congr 1
  funext i' j'
  by_cases h1 : i' = i
  · subst h1
    by_cases h2 : j' = j
    · simp [setSite, setCol, h2]
    · simp [setSite, setCol, h2]
  · simp [setSite, h1]

theorem value_setV (he : AuxEnvOk e) (hl : LatticeOn e.nm M N site h v) {i j : ℕ} {new : Tensor ν NoSymmetry α}
    (hn : HasEdges e.nm "" new (h i j) (h i (j + 1)) (v i j) (v (i + 1) j)) :
    latticeValue e.nm M N h v (setSite site i j new) =
      netVal N M (fun j i => bondDim (v i j)) (fun j i => bondDim (h i j)) fun j' => if j' = j then
        setCol (fun i => siteVal e (fun x => sideString x.swap) (site i j)) i
          (siteVal e (fun x => sideString x.swap) new)
        else fun i => siteVal e (fun x => sideString x.swap) (site i j') := by
  rw [(hl.set hn).valueV he]
  congr 1
  funext j' i'
  by_cases h1 : j' = j
  · subst h1
    by_cases h2 : i' = i
    · simp [setSite, setCol, h2]
    · simp [setSite, setCol, h2]
  · simp [setSite, h1]

theorem keyAt_ok {low high k : ℤ} (h1 : low ≤ k) (h2 : k < high) : keyAt low high k = .ok () := if_pos ⟨h1, h2⟩

theorem value_set_two (he : AuxEnvOk e) (hl : LatticeOn e.nm M N site h v) {i j : ℕ}
    {new1 new2 : Tensor ν NoSymmetry α} (hn1 : HasEdges e.nm "" new1 (h i j) (h i (j + 1)) (v i j) (v (i + 1) j))
    (hn2 : HasEdges e.nm "" new2 (h i (j + 1)) (h i (j + 2)) (v i (j + 1)) (v (i + 1) (j + 1))) :
    latticeValue e.nm M N h v (setSite (setSite site i j new1) i (j + 1) new2) =
      netVal M N (fun i j => bondDim (h i j)) (fun i j => bondDim (v i j)) fun i' => if i' = i then
        setCol (setCol (fun j => siteVal e sideString (site i j)) j (siteVal e sideString new1)) (j + 1)
          (siteVal e sideString new2)
        else fun j => siteVal e sideString (site i' j) := by
  rw [((hl.set hn1).set hn2).value he]
  congr 1
  funext i' j'
  by_cases h1 : i' = i
  · subst h1
    by_cases h2 : j' = j + 1
    · simp [setSite, setCol, h2]
    · by_cases h3 : j' = j
      · simp [setSite, setCol, h3]
      · simp [setSite, setCol, h2, h3]
  · simp [setSite, h1]

theorem value_set_twoV (he : AuxEnvOk e) (hl : LatticeOn e.nm M N site h v) {i j : ℕ}
    {new1 new2 : Tensor ν NoSymmetry α} (hn1 : HasEdges e.nm "" new1 (h i j) (h i (j + 1)) (v i j) (v (i + 1) j))
    (hn2 : HasEdges e.nm "" new2 (h (i + 1) j) (h (i + 1) (j + 1)) (v (i + 1) j) (v (i + 2) j)) :
    latticeValue e.nm M N h v (setSite (setSite site i j new1) (i + 1) j new2) =
      netVal N M (fun j i => bondDim (v i j)) (fun j i => bondDim (h i j)) fun j' => if j' = j then
        setCol (setCol (fun i => siteVal e (fun x => sideString x.swap) (site i j)) i
          (siteVal e (fun x => sideString x.swap) new1)) (i + 1) (siteVal e (fun x => sideString x.swap) new2)
        else fun i => siteVal e (fun x => sideString x.swap) (site i j') := by
  rw [((hl.set hn1).set hn2).valueV he]
  congr 1
  funext j' i'
  by_cases h1 : j' = j
  · subst h1
    by_cases h2 : i' = i + 1
    · simp [setSite, setCol, h2]
    · by_cases h3 : i' = i
      · simp [setSite, setCol, h3]
      · simp [setSite, setCol, h2, h3]
  · simp [setSite, h1]

/-! ## The maps at a position of the lattice -/

theorem leftToRight31_eq {cut i j : ℕ} (hi : i < M) (hj : j < N) {A C : List (Tensor ν NoSymmetry α)}
    (h1 : upToDown e ⟨M, N, cut, site⟩ i = .ok A) (h2 : downToUp e ⟨M, N, cut, site⟩ (M - (i + 1)) = .ok C) :
    leftToRight31 e ⟨M, N, cut, site⟩ i j =
      sweep31 e "U" "D" "L" "R" "1" "3" A ((List.range N).map (site i)) C j := by
  rw [leftToRight31, keyAt_ok (by omega) (by simpa using hi), Outcome.bind, keyAt_ok (by omega) (by simpa using hj),
    Outcome.bind, if_neg (by omega), Int.toNat_natCast, Int.toNat_natCast, h1, Outcome.bind, h2, Outcome.bind]
  rfl

theorem rightToLeft31_eq {cut i j : ℕ} (hi : i < M) (hj : j < N) {A C : List (Tensor ν NoSymmetry α)}
    (h1 : upToDown e ⟨M, N, cut, site⟩ i = .ok A) (h2 : downToUp e ⟨M, N, cut, site⟩ (M - (i + 1)) = .ok C) :
    rightToLeft31 e ⟨M, N, cut, site⟩ i j =
      sweep31 e "D" "U" "R" "L" "3" "1" C.reverse ((List.range N).map (site i)).reverse A.reverse (N - 1 - j) := by
  rw [rightToLeft31, keyAt_ok (by omega) (by simpa using hi), Outcome.bind, keyAt_ok (by omega) (by simp; omega),
    Outcome.bind, if_neg (by simp; omega), Int.toNat_natCast, Int.toNat_natCast, h1, Outcome.bind, h2, Outcome.bind]
  rfl

theorem rightToLeft33_eq {cut i : ℕ} (hi : i < M) (hN : 0 < N) {A C : List (Tensor ν NoSymmetry α)}
    (h1 : upToDown e ⟨M, N, cut, site⟩ i = .ok A) (h2 : downToUp e ⟨M, N, cut, site⟩ (M - (i + 1)) = .ok C) :
    rightToLeft33 e ⟨M, N, cut, site⟩ i 0 =
      sweep33 e "D" "U" "R" "L" "3" "1" C.reverse ((List.range N).map (site i)).reverse A.reverse N := by
  rw [rightToLeft33, keyAt_ok (by omega) (by simpa using hi), Outcome.bind, keyAt_ok (by omega) (by simp),
    Outcome.bind, if_neg (by simp; omega), Int.toNat_natCast, h1, Outcome.bind, h2, Outcome.bind]
  rfl

theorem upToDown31_eq {cut i j : ℕ} (hi : i < M) (hj : j < N) {A C : List (Tensor ν NoSymmetry α)}
    (h1 : leftToRight e ⟨M, N, cut, site⟩ j = .ok A) (h2 : rightToLeft e ⟨M, N, cut, site⟩ (N - (j + 1)) = .ok C) :
    upToDown31 e ⟨M, N, cut, site⟩ i j =
      sweep31 e "L" "R" "U" "D" "1" "3" A ((List.range M).map fun i => site i j) C i := by
  rw [upToDown31, keyAt_ok (by omega) (by simpa using hi), Outcome.bind, keyAt_ok (by omega) (by simpa using hj),
    Outcome.bind, if_neg (by omega), Int.toNat_natCast, Int.toNat_natCast, h1, Outcome.bind, h2, Outcome.bind]
  rfl

theorem downToUp31_eq {cut i j : ℕ} (hi : i < M) (hj : j < N) {A C : List (Tensor ν NoSymmetry α)}
    (h1 : leftToRight e ⟨M, N, cut, site⟩ j = .ok A) (h2 : rightToLeft e ⟨M, N, cut, site⟩ (N - (j + 1)) = .ok C) :
    downToUp31 e ⟨M, N, cut, site⟩ i j =
      sweep31 e "R" "L" "D" "U" "3" "1" C.reverse ((List.range M).map fun i => site i j).reverse A.reverse
        (M - 1 - i) := by
  rw [downToUp31, keyAt_ok (by omega) (by simp; omega), Outcome.bind, keyAt_ok (by omega) (by simpa using hj),
    Outcome.bind, if_neg (by simp; omega), Int.toNat_natCast, Int.toNat_natCast, h1, Outcome.bind, h2, Outcome.bind]
  rfl

theorem lineAt_range {n : ℕ} (A : ℕ → Tensor ν NoSymmetry α) {j : ℕ} (hj : j < n) :
    lineAt ((List.range n).map A) j = .ok (A j) := by
  rw [lineAt, if_pos (by omega)]
  simp [hj]

/-! ## The property theorems -/

/-- Without replacement the call gives the value of the lattice. -/
theorem C62_value (he : AuxEnvOk e) (hl : LatticeOn e.nm M N site h v) (hM : 0 < M) (hN : 0 < N) :
    ∃ B, ∀ cut, (B ≤ cut ∨ cut = 2 ^ 64 - 1) → ∀ hint,
      auxReplace e ⟨M, N, cut, site⟩ [] hint = .ok (latticeValue e.nm M N h v site) ∧
      ∃ t, auxHoles e ⟨M, N, cut, site⟩ [] hint = .ok t ∧ (∀ n, leg t n = none) ∧
        ∀ x, val t x = latticeValue e.nm M N h v site := by
  obtain ⟨B, A, C, ga, gc, w1, w2, w3⟩ := row_window he hl hN hM
  obtain ⟨t, s1, s2, s3⟩ := ladder_zero he sideString_dirs w2
  have hval : latticeValue e.nm M N h v site = chain (rung ga (h 0) gc)
      (fun i => column e sideString (v 0 i) (v (0 + 1) i) (A i) (C i) (siteVal e sideString (site 0 i))) N := by
    rw [hl.value he, ← w3]
    congr 1
    funext i'
    by_cases h1 : i' = 0
    · simp [h1]
    · simp [h1]
  rw [← hval] at s3
  refine ⟨B, fun cut hc hint => ?_⟩
  obtain ⟨q1, q2⟩ := w1 cut hc
  have r1 : rightToLeft33 e ⟨M, N, cut, site⟩ 0 0 = .ok t := (rightToLeft33_eq hM hN q1 q2).trans s1
  have hleg : ∀ n, leg t n = none := fun n => by
    by_contra hn
    obtain ⟨g, rfl⟩ := s2.only n hn
    exact hn (s2.legs g)
  refine ⟨?_, t, r1, hleg, fun x => ?_⟩
  · rw [auxReplace, r1, Outcome.bind, s3]
  · have hι : Function.Injective (legName e.nm fun x => sideString x.rot) :=
      he.inj.comp (sideString_dirs.turn Side.rot_rot).inj
    have := only_ok s2 fun g => x (legName e.nm (fun x => sideString x.rot) g)
    rw [s3, ← val_eq_gval hι s2] at this
    exact (Outcome.ok.inj this).symm

/-- With one replacement the call gives the value of the lattice with this tensor, for both values of the
hint. -/
theorem C62_one (he : AuxEnvOk e) (hl : LatticeOn e.nm M N site h v) {i j : ℕ} (hi : i < M) (hj : j < N)
    {new : Tensor ν NoSymmetry α} (hn : HasEdges e.nm "" new (h i j) (h i (j + 1)) (v i j) (v (i + 1) j)) :
    ∃ B, ∀ cut, (B ≤ cut ∨ cut = 2 ^ 64 - 1) → ∀ hint,
      auxReplace e ⟨M, N, cut, site⟩ [(((i : ℤ), (j : ℤ)), new)] hint =
        .ok (latticeValue e.nm M N h v (setSite site i j new)) := by
  obtain ⟨B, A, C, ga, gc, w1, w2, w3⟩ := row_window he hl (by omega) hi
  obtain ⟨t, t', r, s1, s2, s3, s4⟩ := replaceOne_ok he sideString_dirs w2 hj (hn.on he)
  rw [← w3, ← value_set he hl hn] at s4
  obtain ⟨B', A', C', ga', gc', x1, x2, x3⟩ := column_window he hl (by omega) hj
  obtain ⟨p, p', q, y1, y2, y3, y4⟩ := replaceOne_ok he (sideString_dirs.turn Side.swap_swap) x2 hi
    (siteOn_swap.2 (hn.on he))
  rw [← x3, ← value_setV he hl hn] at y4
  refine ⟨max B B', fun cut hc hint => ?_⟩
  obtain ⟨a1, a2⟩ := w1 cut (Keeps.le hc (le_max_left _ _))
  obtain ⟨b1, b2⟩ := x1 cut (Keeps.le hc (le_max_right _ _))
  rw [auxReplace]
  split
  · rw [(upToDown31_eq hi hj b1 b2).trans y1, Outcome.bind, (downToUp31_eq hi hj b1 b2).trans y2, Outcome.bind,
      show replaceOne e "L" "R" "U" "D" p new p' = .ok q from y3, Outcome.bind, y4]
  · rw [(leftToRight31_eq hi hj a1 a2).trans s1, Outcome.bind, (rightToLeft31_eq hi hj a1 a2).trans s2, Outcome.bind,
      show replaceOne e "U" "D" "L" "R" t new t' = .ok r from s3, Outcome.bind, s4]

/-- Two neighbours in a row. -/
theorem C62_two_row (he : AuxEnvOk e) (hl : LatticeOn e.nm M N site h v) {i j : ℕ} (hi : i < M) (hj : j + 1 < N)
    {new1 new2 : Tensor ν NoSymmetry α} (hn1 : HasEdges e.nm "" new1 (h i j) (h i (j + 1)) (v i j) (v (i + 1) j))
    (hn2 : HasEdges e.nm "" new2 (h i (j + 1)) (h i (j + 2)) (v i (j + 1)) (v (i + 1) (j + 1))) :
    ∃ B, ∀ cut, (B ≤ cut ∨ cut = 2 ^ 64 - 1) → ∀ hint,
      auxReplace e ⟨M, N, cut, site⟩ [(((i : ℤ), (j : ℤ)), new1), (((i : ℤ), ((j + 1 : ℕ) : ℤ)), new2)] hint =
        .ok (latticeValue e.nm M N h v (setSite (setSite site i j new1) i (j + 1) new2)) := by
  obtain ⟨B, A, C, ga, gc, w1, w2, w3⟩ := row_window he hl (by omega) hi
  obtain ⟨t, t', r, s1, s2, s3, s4⟩ := replaceTwo_ok he sideString_dirs w2 hj (hn1.on he) (hn2.on he)
  rw [← w3, ← value_set_two he hl hn1 hn2] at s4
  refine ⟨B, fun cut hc hint => ?_⟩
  obtain ⟨a1, a2⟩ := w1 cut hc
  rw [auxReplace, if_pos ⟨rfl, by push_cast; rfl⟩, (leftToRight31_eq hi (by omega) a1 a2).trans s1, Outcome.bind,
    Int.toNat_natCast, a2, Outcome.bind, lineAt_range C (by omega), Outcome.bind, a1, Outcome.bind,
    lineAt_range A hj, Outcome.bind, (rightToLeft31_eq hi hj a1 a2).trans s2, Outcome.bind,
    show replaceTwo e "U" "D" "L" "R" t new1 (C j) (A (j + 1)) new2 t' = .ok r from s3, Outcome.bind, s4]

/-- Two neighbours in a column. -/
theorem C62_two_column (he : AuxEnvOk e) (hl : LatticeOn e.nm M N site h v) {i j : ℕ} (hi : i + 1 < M) (hj : j < N)
    {new1 new2 : Tensor ν NoSymmetry α} (hn1 : HasEdges e.nm "" new1 (h i j) (h i (j + 1)) (v i j) (v (i + 1) j))
    (hn2 : HasEdges e.nm "" new2 (h (i + 1) j) (h (i + 1) (j + 1)) (v (i + 1) j) (v (i + 2) j)) :
    ∃ B, ∀ cut, (B ≤ cut ∨ cut = 2 ^ 64 - 1) → ∀ hint,
      auxReplace e ⟨M, N, cut, site⟩ [(((i : ℤ), (j : ℤ)), new1), ((((i + 1 : ℕ) : ℤ), (j : ℤ)), new2)] hint =
        .ok (latticeValue e.nm M N h v (setSite (setSite site i j new1) (i + 1) j new2)) := by
  obtain ⟨B, A, C, ga, gc, w1, w2, w3⟩ := column_window he hl (by omega) hj
  obtain ⟨t, t', r, s1, s2, s3, s4⟩ := replaceTwo_ok he (sideString_dirs.turn Side.swap_swap) w2 hi
    (siteOn_swap.2 (hn1.on he)) (siteOn_swap.2 (hn2.on he))
  rw [← w3, ← value_set_twoV he hl hn1 hn2] at s4
  refine ⟨B, fun cut hc hint => ?_⟩
  obtain ⟨a1, a2⟩ := w1 cut hc
  rw [auxReplace, if_neg (by simp), if_pos ⟨rfl, by push_cast; rfl⟩,
    (upToDown31_eq (by omega) hj a1 a2).trans s1, Outcome.bind,
    Int.toNat_natCast, a2, Outcome.bind, lineAt_range C (by omega), Outcome.bind, a1, Outcome.bind,
    lineAt_range A hi, Outcome.bind, (downToUp31_eq hi hj a1 a2).trans s2, Outcome.bind,
    show replaceTwo e "L" "R" "U" "D" t new1 (C i) (A (i + 1)) new2 t' = .ok r from s3, Outcome.bind, s4]

theorem sum_four_swap (A B C D : Finset ℕ) (f : ℕ → ℕ → ℕ → ℕ → α) :
    ∑ a ∈ A, ∑ b ∈ B, ∑ c ∈ C, ∑ d ∈ D, f a b c d = ∑ c ∈ C, ∑ d ∈ D, ∑ a ∈ A, ∑ b ∈ B, f a b c d := by
  have h1 : ∀ (A B : Finset ℕ) (g : ℕ → ℕ → α), ∑ a ∈ A, ∑ b ∈ B, g a b = ∑ p ∈ A ×ˢ B, g p.1 p.2 :=
    fun A B g => by rw [Finset.sum_product]
  rw [h1 A B, h1 C D]
  simp only [h1]
  exact Finset.sum_comm

/-- The environment of a site: it has the edges of the site, their names end in `0`, and the sum of its
elements times those of any tensor is the value of the lattice with this tensor at the site. -/
theorem C62_hole (he : AuxEnvOk e) (hl : LatticeOn e.nm M N site h v) {i j : ℕ} (hi : i < M) (hj : j < N) :
    ∃ B, ∀ cut, (B ≤ cut ∨ cut = 2 ^ 64 - 1) → ∀ hint,
      ∃ t, auxHoles e ⟨M, N, cut, site⟩ [((i : ℤ), (j : ℤ))] hint = .ok t ∧
        HasEdges e.nm "0" t (h i j) (h i (j + 1)) (v i j) (v (i + 1) j) ∧
        ∀ new, HasEdges e.nm "" new (h i j) (h i (j + 1)) (v i j) (v (i + 1) j) →
          latticeValue e.nm M N h v (setSite site i j new) =
            ∑ l ∈ Finset.range ((h i j).getD 1), ∑ r ∈ Finset.range ((h i (j + 1)).getD 1),
              ∑ u ∈ Finset.range ((v i j).getD 1), ∑ d ∈ Finset.range ((v (i + 1) j).getD 1),
                val t (sideIndex e.nm "0" l r u d) * siteElem e.nm new l r u d := by
  obtain ⟨B, A, C, ga, gc, w1, w2, w3⟩ := row_window he hl (by omega) hi
  obtain ⟨t, t', r, s1, s2, s3, s4, s5⟩ := hole_sum he sideString_dirs w2 hj
  obtain ⟨B', A', C', ga', gc', x1, x2, x3⟩ := column_window he hl (by omega) hj
  obtain ⟨p, p', q, y1, y2, y3, y4, y5⟩ := hole_sum he (sideString_dirs.turn Side.swap_swap) x2 hi
  refine ⟨max B B', fun cut hc hint => ?_⟩
  obtain ⟨a1, a2⟩ := w1 cut (Keeps.le hc (le_max_left _ _))
  obtain ⟨b1, b2⟩ := x1 cut (Keeps.le hc (le_max_right _ _))
  rw [auxHoles]
  split
  · have z4 := (y4.turn Side.swap_swap).cast (T' := holeLegs (h i j) (h i (j + 1)) (v i j) (v (i + 1) j)) (by
      rintro ⟨x, y⟩
      cases x <;> cases y <;> rfl)
    obtain ⟨z5, z6⟩ := fits_hole he z4
    refine ⟨_, ?_, z5, fun new hn => ?_⟩
    · rw [(upToDown31_eq hi hj b1 b2).trans y1, Outcome.bind, (downToUp31_eq hi hj b1 b2).trans y2, Outcome.bind,
        show e.join p p' [("D1", "U1"), ("D3", "U3")] = .ok q from y3, Outcome.bind]
      rfl
    · rw [value_setV he hl hn, x3, y5]
      have : ∀ a b c d, gval (legName e.nm fun x => sideString x.swap) (e.rename q
          [(sideString Side.right.swap ++ "2", sideString Side.left.swap ++ "0"),
            (sideString Side.down.swap, sideString Side.up.swap ++ "0"),
            (sideString Side.up.swap, sideString Side.down.swap ++ "0"),
            (sideString Side.left.swap ++ "2", sideString Side.right.swap ++ "0")]) (holeIdx a b c d) =
          val (e.rename q
          [(sideString Side.right.swap ++ "2", sideString Side.left.swap ++ "0"),
            (sideString Side.down.swap, sideString Side.up.swap ++ "0"),
            (sideString Side.up.swap, sideString Side.down.swap ++ "0"),
            (sideString Side.left.swap ++ "2", sideString Side.right.swap ++ "0")])
            (sideIndex e.nm "0" c d a b) := fun a b c d => by
        rw [← z6, gval_turn he sideString_dirs Side.swap_swap y4]
        congr 1
        funext ⟨x, y⟩
        cases x <;> cases y <;> rfl
      simp only [this, siteVal_swap he sideString_dirs (hn.on he), siteVal_elem he hn]
      exact sum_four_swap _ _ _ _ _
  · obtain ⟨z5, z6⟩ := fits_hole he s4
    refine ⟨_, ?_, z5, fun new hn => ?_⟩
    · rw [(leftToRight31_eq hi hj a1 a2).trans s1, Outcome.bind, (rightToLeft31_eq hi hj a1 a2).trans s2, Outcome.bind,
        show e.join t t' [("R1", "L1"), ("R3", "L3")] = .ok r from s3, Outcome.bind]
      rfl
    · rw [value_set he hl hn, w3, s5]
      simp only [z6, siteVal_elem he hn]
      rfl

/-! ## Errors -/

theorem keyAt_error {low high k : ℤ} (h : ¬(low ≤ k ∧ k < high)) : keyAt low high k = .error "map::at" := if_neg h

/-- A position outside of the lattice is an error, whatever the tensors are. -/
theorem C62_outside (e : AuxEnv ν α β) (a : AuxLattice ν α) {i j : ℤ} (ho : ¬(0 ≤ i ∧ i < a.M ∧ 0 ≤ j ∧ j < a.N))
    (hint : Char) (new : Tensor ν NoSymmetry α) :
    auxReplace e a [((i, j), new)] hint = .error "map::at" ∧ auxHoles e a [(i, j)] hint = .error "map::at" := by
  by_cases hv : hint = 'v'
  · simp only [auxReplace, auxHoles, if_pos hv]
    have key : ∀ {γ : Type} (f : Tensor ν NoSymmetry α → Tensor ν NoSymmetry α → Outcome γ),
        ((upToDown31 e a i j).bind fun t => (downToUp31 e a i j).bind fun t' => f t t') = .error "map::at" := by
      intro γ f
      by_cases h1 : 0 ≤ j ∧ j < a.N
      · by_cases h2 : i = -1
        · rw [upToDown31, keyAt_ok (by omega) (by omega), Outcome.bind, keyAt_ok h1.1 h1.2, Outcome.bind, if_pos h2,
            downToUp31, Outcome.bind, keyAt_error (by omega), Outcome.bind]
          rfl
        · rw [upToDown31, keyAt_error (by omega), Outcome.bind]
          rfl
      · rw [upToDown31]
        by_cases h2 : -1 ≤ i ∧ i < a.M
        · rw [keyAt_ok h2.1 h2.2, Outcome.bind, keyAt_error h1]
          rfl
        · rw [keyAt_error h2]
          rfl
    exact ⟨key _, key _⟩
  · simp only [auxReplace, auxHoles, if_neg hv]
    have key : ∀ {γ : Type} (f : Tensor ν NoSymmetry α → Tensor ν NoSymmetry α → Outcome γ),
        ((leftToRight31 e a i j).bind fun t => (rightToLeft31 e a i j).bind fun t' => f t t') = .error "map::at" := by
      intro γ f
      by_cases h1 : 0 ≤ i ∧ i < a.M
      · by_cases h2 : j = -1
        · rw [leftToRight31, keyAt_ok h1.1 h1.2, Outcome.bind, keyAt_ok (by omega) (by omega), Outcome.bind, if_pos h2,
            rightToLeft31, Outcome.bind, keyAt_ok h1.1 h1.2, Outcome.bind, keyAt_error (by omega)]
          rfl
        · rw [leftToRight31, keyAt_ok h1.1 h1.2, Outcome.bind, keyAt_error (by omega)]
          rfl
      · rw [leftToRight31, keyAt_error h1]
        rfl
    exact ⟨key _, key _⟩

/-- Only one hole, and only two neighbours, are supported. -/
theorem C62_unsupported (e : AuxEnv ν α β) (a : AuxLattice ν α) (hint : Char) :
    (∀ holes : List Pos, 2 ≤ holes.length → auxHoles e a holes hint = .error "Unsupported holes style") ∧
    (∀ l : List (Pos × Tensor ν NoSymmetry α), 3 ≤ l.length →
      auxReplace e a l hint = .error "Unsupported replacement style") ∧
    ∀ (p1 p2 : Pos) (t1 t2 : Tensor ν NoSymmetry α), p2 ≠ (p1.1, p1.2 + 1) → p2 ≠ (p1.1 + 1, p1.2) →
      auxReplace e a [(p1, t1), (p2, t2)] hint = .error "Unsupported replacement style" := by
  refine ⟨fun holes hh => ?_, fun l hl => ?_, ?_⟩
  · match holes, hh with
    | _ :: _ :: _, _ => rfl
  · match l, hl with
    | _ :: _ :: _ :: _, _ => rfl
  · rintro ⟨x1, y1⟩ ⟨x2, y2⟩ t1 t2 h1 h2
    rw [auxReplace, if_neg, if_neg]
    · rintro ⟨rfl, rfl⟩
      exact h2 rfl
    · rintro ⟨rfl, rfl⟩
      exact h1 rfl

/-- Two neighbours of which one is just outside of the lattice, at the beginning or at the end of a row: the
check of the maps accepts the position and the lines are read outside of their bounds. -/
theorem C62_two_reads_outside (he : AuxEnvOk e) (hl : LatticeOn e.nm M N site h v) {i : ℕ} (hi : i < M)
    (hN : 0 < N) (new1 new2 : Tensor ν NoSymmetry α) :
    ∃ B, ∀ cut, (B ≤ cut ∨ cut = 2 ^ 64 - 1) → ∀ hint,
      auxReplace e ⟨M, N, cut, site⟩ [(((i : ℤ), -1), new1), (((i : ℤ), 0), new2)] hint = .ub ∧
      auxReplace e ⟨M, N, cut, site⟩ [(((i : ℤ), (N : ℤ) - 1), new1), (((i : ℤ), (N : ℤ)), new2)] hint = .ub := by
  obtain ⟨B, A, C, ga, gc, w1, w2, w3⟩ := row_window he hl (by omega) hi
  obtain ⟨t, s1, -, -⟩ := sweep31_ok he sideString_dirs (Or.inl ⟨rfl, rfl⟩) w2 (N - 1) (by omega)
  refine ⟨B, fun cut hc hint => ?_⟩
  obtain ⟨a1, a2⟩ := w1 cut hc
  constructor
  · rw [auxReplace, if_pos ⟨rfl, by omega⟩, leftToRight31, keyAt_ok (by omega) (by simpa using hi), Outcome.bind,
      keyAt_ok (by omega) (by simp; omega), Outcome.bind, if_pos rfl, Outcome.bind, Int.toNat_natCast, a2,
      Outcome.bind, lineAt, if_neg (by omega)]
    rfl
  · rw [show (N : ℤ) - 1 = ((N - 1 : ℕ) : ℤ) by omega, auxReplace, if_pos ⟨rfl, by omega⟩,
      (leftToRight31_eq hi (by omega) a1 a2).trans s1, Outcome.bind, Int.toNat_natCast, a2, Outcome.bind,
      lineAt_range C (by omega), Outcome.bind, a1, Outcome.bind, lineAt, if_pos (by omega)]
    simp [Outcome.bind]

/-! ## An example

The lattice of two rows and two columns with edges of dimension two. -/

/-- Strings as names and rational numbers. -/
def auxEnv0 (lp : LapackQr ℚ) : AuxEnv String ℚ ℚ where
  ce := ⟨refGemm, ⟨⟨8, 32768, 1, 1⟩, fun _ _ => 5, fun _ => true⟩, ⟨⟨8, 32768, 1, 1⟩, fun _ _ => 6, fun _ => true⟩,
    ⟨⟨8, 32768, 1, 1⟩, fun _ _ => 7, fun _ => true⟩, fun _ _ => 8, fun _ _ => 9⟩
  cn := ⟨",Contract_0", ",Contract_1", ",Contract_2"⟩
  lp := lp
  qrEnv := ⟨⟨⟨8, 32768, 1, 1⟩, fun _ _ => 0, fun _ => false⟩, fun _ _ => 9, fun _ _ => 9,
    ⟨⟨8, 32768, 1, 1⟩, fun _ _ => 0, fun _ => false⟩, ⟨⟨8, 32768, 1, 1⟩, fun _ _ => 0, fun _ => false⟩⟩
  qrJunk := fun _ => 5
  qn := ⟨",QR_1", ",QR_2"⟩
  gesvd := refGesvd
  svdEnv := ⟨⟨⟨8, 32768, 1, 1⟩, fun _ _ => 0, fun _ => false⟩, fun _ _ => 9, fun _ _ => 9,
    ⟨⟨8, 32768, 1, 1⟩, fun _ _ => 0, fun _ => false⟩, ⟨⟨8, 32768, 1, 1⟩, fun _ _ => 0, fun _ => false⟩⟩
  svdJunk := fun _ => 5
  sn := ⟨",SVD_U", ",SVD_V"⟩
  junk := fun _ _ => 3
  c := id
  inv := fun x => 1 / x
  nm := id

theorem inside_ne : ∀ n ∈ [",QR_1", ",QR_2", ",SVD_U", ",SVD_V"], ∀ g : Leg, n ≠ legString sideString g := by
  decide +kernel

/-- What is assumed holds for the names of the program. -/
theorem auxEnv0_ok {lp : LapackQr ℚ} (hlp : LapackQrOk lp) : AuxEnvOk (auxEnv0 lp) where
  gemm := refGemm_ok
  names := (by decide : [",Contract_0", ",Contract_1", ",Contract_2"].Nodup)
  qr := hlp
  svd := refGesvd_ok
  inj := fun _ _ h => h
  qn := (by decide : ",QR_1" ≠ ",QR_2")
  x1 := inside_ne ",QR_1" (by simp)
  x2 := inside_ne ",QR_2" (by simp)
  sn := (by decide : ",SVD_U" ≠ ",SVD_V")
  u := inside_ne ",SVD_U" (by simp)
  v := inside_ne ",SVD_V" (by simp)

/-- A matrix with two edges of dimension two. -/
def corner (n n' : String) (d : List ℚ) : Tensor String NoSymmetry ℚ :=
  ⟨[n, n'], [⟨false, [(0, 2)]⟩, ⟨false, [(0, 2)]⟩], [([0, 0], d)]⟩

/-- The four sites. -/
def auxSite0 : ℕ → ℕ → Tensor String NoSymmetry ℚ
  | 0, 0 => corner "R" "D" [1, 2, 3, 4]
  | 0, _ => corner "D" "L" [1, 0, 2, 1]
  | _, 0 => corner "U" "R" [0, 1, 1, 1]
  | _, _ => corner "L" "U" [2, 1, 0, 3]

/-- The horizontal edges. -/
def auxH0 (_ j : ℕ) : Option ℕ := if j = 1 then some 2 else none

/-- The vertical edges. -/
def auxV0 (i _ : ℕ) : Option ℕ := if i = 1 then some 2 else none

theorem corner_edges {n n' : String} (hn : n ≠ n') {d : List ℚ} (hd : d.length = 4) :
    Dense (corner n n' d) ∧ ∀ m, leg (corner n n' d) m = if m = n ∨ m = n' then some 2 else none := by
  have hl : ∀ m, leg (corner n n' d) m = if m = n ∨ m = n' then some 2 else none := fun m => by
    by_cases h1 : m = n
    · subst h1
      rw [if_pos (Or.inl rfl), leg, if_pos (by simp [corner]), mapOf, edgeOf]
      simp [corner, edgeNamed, dimM, OMap.find?]
    · by_cases h2 : m = n'
      · subst h2
        rw [if_pos (Or.inr rfl), leg, if_pos (by simp [corner]), mapOf, edgeOf]
        simp [corner, edgeNamed, dimM, OMap.find?, hn]
      · rw [if_neg (by tauto), leg, if_neg (by simp [corner, h1, h2])]
  refine ⟨⟨⟨rfl, by simp [corner, hn], by simp [corner, OMap.Sorted], ?_, by simp only [corner]; decide +kernel⟩, fun m => ?_⟩, hl⟩
  · simp only [corner, List.map_cons, List.map_nil, hd]
    decide +kernel
  · rw [legDim, hl]
    split <;> simp

theorem auxSite0_on (lp : LapackQr ℚ) : LatticeOn (auxEnv0 lp).nm 2 2 auxSite0 auxH0 auxV0 := by
  refine ⟨fun i hi j hj => ?_, fun _ => rfl, fun _ => rfl, fun _ => rfl, fun _ => rfl⟩
  have key : ∀ {n n' : String} (hn : n ≠ n') {d : List ℚ} (hd : d.length = 4) {l r u d' : Option ℕ},
      (∀ m, (if m = n ∨ m = n' then some 2 else none) ≠ (none : Option ℕ) → m = "L" ∨ m = "R" ∨ m = "U" ∨ m = "D") →
      (if "L" = n ∨ "L" = n' then some 2 else none) = l → (if "R" = n ∨ "R" = n' then some 2 else none) = r →
      (if "U" = n ∨ "U" = n' then some 2 else none) = u → (if "D" = n ∨ "D" = n' then some 2 else none) = d' →
      HasEdges (auxEnv0 lp).nm "" (corner n n' d) l r u d' := by
    intro n n' hn d hd l r u d' ho h1 h2 h3 h4
    obtain ⟨g1, g2⟩ := corner_edges hn hd
    refine ⟨g1, (g2 _).trans h1, (g2 _).trans h2, (g2 _).trans h3, (g2 _).trans h4, fun m hm => ?_⟩
    rw [g2] at hm
    exact ho m hm
  obtain rfl | rfl : i = 0 ∨ i = 1 := by omega
  all_goals obtain rfl | rfl : j = 0 ∨ j = 1 := by omega
  · exact key (by decide) rfl (by intro m; split <;> simp_all; tauto) rfl rfl rfl rfl
  · exact key (by decide) rfl (by intro m; split <;> simp_all; tauto) rfl rfl rfl rfl
  · exact key (by decide) rfl (by intro m; split <;> simp_all; tauto) rfl rfl rfl rfl
  · exact key (by decide) rfl (by intro m; split <;> simp_all; tauto) rfl rfl rfl rfl

/-- The value of the lattice, and of the lattice with another tensor in the corner. -/
theorem auxValue0 : latticeValue id 2 2 auxH0 auxV0 auxSite0 = 51 ∧
    latticeValue id 2 2 auxH0 auxV0 (setSite auxSite0 1 1 (corner "U" "L" [1, 0, 0, 0])) = 2 := by
  decide +kernel

theorem auxNew0 (lp : LapackQr ℚ) : HasEdges (auxEnv0 lp).nm "" (corner "U" "L" [1, 0, 0, 0]) (some 2) none (some 2) none := by
  obtain ⟨g1, g2⟩ := corner_edges (n := "U") (n' := "L") (d := [1, 0, 0, 0]) (by decide) rfl
  refine ⟨g1, g2 _, g2 _, g2 _, g2 _, fun m hm => ?_⟩
  rw [g2] at hm
  split at hm
  · next h =>
    rcases h with rfl | rfl
    · exact Or.inr (Or.inr (Or.inl rfl))
    · exact Or.inl rfl
  · exact absurd rfl hm

/-- C62 applies to the example: the value is 51, and 2 with the other tensor. -/
example : ∃ (lp : LapackQr ℚ) (B : ℕ), ∀ cut, (B ≤ cut ∨ cut = 2 ^ 64 - 1) → ∀ hint,
    auxReplace (auxEnv0 lp) ⟨2, 2, cut, auxSite0⟩ [] hint = .ok 51 ∧
    auxReplace (auxEnv0 lp) ⟨2, 2, cut, auxSite0⟩ [((1, 1), corner "U" "L" [1, 0, 0, 0])] hint = .ok 2 := by
  obtain ⟨lp, hlp⟩ := exists_lapackQrOk (K := ℚ)
  have he := auxEnv0_ok hlp
  have hl := auxSite0_on lp
  obtain ⟨B, h1⟩ := C62_value he hl (by decide) (by decide)
  obtain ⟨B', h2⟩ := C62_one he hl (i := 1) (j := 1) (by decide) (by decide) (auxNew0 lp)
  refine ⟨lp, max B B', fun cut hc hint => ⟨?_, ?_⟩⟩
  · rw [(h1 cut (Keeps.le hc (le_max_left _ _)) hint).1]
    exact congrArg _ auxValue0.1
  · exact (h2 cut (Keeps.le hc (le_max_right _ _)) hint).trans (congrArg _ auxValue0.2)

/-- The theorems about two neighbours and about the environment apply to the example. -/
example : ∃ (lp : LapackQr ℚ) (B : ℕ), ∀ cut, (B ≤ cut ∨ cut = 2 ^ 64 - 1) → ∀ hint,
    auxReplace (auxEnv0 lp) ⟨2, 2, cut, auxSite0⟩
      [((1, 0), auxSite0 1 0), ((1, 1), corner "U" "L" [1, 0, 0, 0])] hint =
        .ok (latticeValue id 2 2 auxH0 auxV0
          (setSite (setSite auxSite0 1 0 (auxSite0 1 0)) 1 1 (corner "U" "L" [1, 0, 0, 0]))) ∧
    auxReplace (auxEnv0 lp) ⟨2, 2, cut, auxSite0⟩
      [((0, 1), auxSite0 0 1), ((1, 1), corner "U" "L" [1, 0, 0, 0])] hint =
        .ok (latticeValue id 2 2 auxH0 auxV0
          (setSite (setSite auxSite0 0 1 (auxSite0 0 1)) 1 1 (corner "U" "L" [1, 0, 0, 0]))) ∧
    ∃ t, auxHoles (auxEnv0 lp) ⟨2, 2, cut, auxSite0⟩ [(1, 1)] hint = .ok t ∧
      HasEdges id "0" t (some 2) none (some 2) none := by
  obtain ⟨lp, hlp⟩ := exists_lapackQrOk (K := ℚ)
  have he := auxEnv0_ok hlp
  have hl := auxSite0_on lp
  obtain ⟨B, h1⟩ := C62_two_row he hl (i := 1) (j := 0) (by decide) (by decide)
    (hl.fits 1 (by decide) 0 (by decide)) (auxNew0 lp)
  obtain ⟨B', h2⟩ := C62_two_column he hl (i := 0) (j := 1) (by decide) (by decide)
    (hl.fits 0 (by decide) 1 (by decide)) (auxNew0 lp)
  obtain ⟨B'', h3⟩ := C62_hole he hl (i := 1) (j := 1) (by decide) (by decide)
  refine ⟨lp, max B (max B' B''), fun cut hc hint => ⟨?_, ?_, ?_⟩⟩
  · exact h1 cut (Keeps.le hc (le_max_left _ _)) hint
  · exact h2 cut (Keeps.le (Keeps.le hc (le_max_right _ _)) (le_max_left _ _)) hint
  · obtain ⟨t, t1, t2, -⟩ := h3 cut (Keeps.le (Keeps.le hc (le_max_right _ _)) (le_max_right _ _)) hint
    exact ⟨t, t1, t2⟩

end TAT
