import Verif.Torus.Close

/-!
# Helper lemmas: all lines of a torus
-/

namespace TAT.Torus

open TAT.Grid (IsSite sides GridEnvOk freeNames namesOf Names products canonical truncated rowOf)

set_option linter.unusedSectionVars false
set_option linter.unusedSimpArgs false

variable {ν α β : Type} [LinearOrder ν] [Field α] [LinearOrder β] [Zero β] {e : AuxEnv ν α β}

theorem ring_chain (he : LinesEnvOk e) {n : ℕ} {t : ℕ → Tensor ν NoSymmetry α} {h u d : ℕ → ℕ}
    (ht : IsRing e.nm (n + 1) t h u d) :
    ∃ V, Chain e Plain ((List.range (n + 1)).map t) (some (h 0), none, none) (some (h 0), none, none)
        ((List.range (n + 1)).map fun j => some (u j)) ((List.range (n + 1)).map fun j => some (d j)) V ∧
      ∀ z y : Fin (n + 1) → ℕ, ∑ x ∈ Finset.range (h 0), V (x, 0, 0) (x, 0, 0) (allIdx z) (allIdx y) =
        ringValue e.nm (n + 1) h t z y := by
  obtain ⟨V, h1, h2⟩ := chain_of_sites (e := e) (Q := Plain) (t := t) (b := fun j => (some (h j), none, none))
    (u := fun j => some (u j)) (d := fun j => some (d j)) n 0
    (fun j _ hj => (IsSite.ring he.grid (ht.site j (by omega))).1) (fun j _ _ => ⟨_, rfl⟩)
  rw [Nat.zero_add, ht.closed, ← List.range_eq_range'] at h1
  refine ⟨V, h1, fun z y => ?_⟩
  rw [ringValue_path]
  refine Finset.sum_congr rfl fun x _ => ?_
  rw [← path_plain he.grid ht.site, ← h2]
  simp only [Nat.zero_add]

/-- PBC.cpp 81-88 for a line of at least two sites. -/
theorem closeLine_ok (he : LinesEnvOk e) {n : ℕ} {l : List (Tensor ν NoSymmetry α)} {a1 a2 : Option ℕ} {u d : ℕ → ℕ}
    {V : Idx → Idx → (ℕ → ℕ) → (ℕ → ℕ) → α}
    (hl : Chain e Plain l (none, a1, a2) (none, a1, a2) ((List.range (n + 2)).map fun j => some (u j))
      ((List.range (n + 2)).map fun j => some (d j)) V) :
    ∃ (K : ℕ) (t : ℕ → Tensor ν NoSymmetry α) (h : ℕ → ℕ),
      (∀ cut, Keeps K cut → closeLine e cut l = .ok ((List.range (n + 2)).map t)) ∧ IsRing e.nm (n + 2) t h u d ∧
      ∀ z y : Fin (n + 2) → ℕ, ringValue e.nm (n + 2) h t z y =
        ∑ x1 ∈ Finset.range (bondDim a1), ∑ x2 ∈ Finset.range (bondDim a2),
          V (0, x1, x2) (0, x1, x2) (allIdx z) (allIdx y) := by
  obtain ⟨m, b, g1, g1', g2, g3, g4, g5, g6⟩ := sites_of_chain hl
  obtain rfl : m = n + 1 := by simpa using g1'.symm
  have gu : ∀ j < n + 2, ((List.range (n + 2)).map fun j => some (u j)).getD j none = some (u j) := fun j hj => by
    rw [List.getD_eq_getElem _ _ (by simpa using hj)]
    simp
  have gd : ∀ j < n + 2, ((List.range (n + 2)).map fun j => some (d j)).getD j none = some (d j) := fun j hj => by
    rw [List.getD_eq_getElem _ _ (by simpa using hj)]
    simp
  have g5 : ∀ j < n + 2, HasLegs (ringName e) (l.getD j oneTensor)
      (fullB (b j) (b (j + 1)) (some (u j)) (some (d j))) := fun j hj => by
    rw [← gu j hj, ← gd j hj]
    exact g5 j hj
  choose! k hk using g4
  have b1 : b 1 = (some (k 1), none, none) := hk 1 (by omega) (by omega)
  have bn : b (n + 1) = (some (k (n + 1)), none, none) := hk (n + 1) (by omega) (by omega)
  have first := g5 0 (by omega)
  have last := g5 (n + 1) (by omega)
  rw [g2, b1] at first
  rw [bn, g3] at last
  obtain ⟨x, w, v, K, f1, f2, f3, f4, f5⟩ := ring_close he (by exact last) (by exact first)
  set r : List (Tensor ν NoSymmetry α) := (l.set 0 (e.rename v [("up2", "up"), ("down2", "down")])).set (l.length - 1)
    (e.rename w [("up1", "up"), ("down1", "down")]) with hr
  have r0 : r.getD 0 oneTensor = e.rename v [("up2", "up"), ("down2", "down")] := by
    rw [hr, List.getD_eq_getElem?_getD, List.getElem?_set_ne (by omega), List.getElem?_set_self (by omega)]
    rfl
  have rn : r.getD (n + 1) oneTensor = e.rename w [("up1", "up"), ("down1", "down")] := by
    rw [hr, List.getD_eq_getElem?_getD, g1, show n + 1 + 1 - 1 = n + 1 by omega,
      List.getElem?_set_self (by rw [List.length_set]; omega)]
    rfl
  have rj : ∀ j, 0 < j → j < n + 1 → r.getD j oneTensor = l.getD j oneTensor := fun j h1 h2 => by
    rw [hr, List.getD_eq_getElem?_getD, List.getElem?_set_ne (by omega), List.getElem?_set_ne (by omega),
      List.getD_eq_getElem?_getD]
  have hlen : r.length = n + 2 := by
    rw [hr, List.length_set, List.length_set, g1]
  set h : ℕ → ℕ := fun j => if j = 0 ∨ j = n + 2 then K else k j with hh
  have h0 : h 0 = K := by simp [hh]
  have hn : h (n + 2) = K := by simp [hh]
  have hj : ∀ j, 0 < j → j < n + 2 → h j = k j := fun j h1 h2 => by
    simp only [hh]
    rw [if_neg (by omega)]
  have hsite : ∀ j < n + 2, HasLegs (ringName e) (r.getD j oneTensor)
      (fullB (some (h j), none, none) (some (h (j + 1)), none, none) (some (u j)) (some (d j))) := by
    intro j hjn
    rcases Nat.eq_zero_or_pos j with rfl | hp
    · rw [r0, h0, hj _ (by omega) (by omega)]
      exact f4
    rcases Nat.lt_or_ge j (n + 1) with hlt | hge
    · rw [rj j hp hlt, hj _ hp (by omega), hj _ (by omega) (by omega), ← hk j hp (by omega),
        ← hk (j + 1) (by omega) (by omega)]
      exact g5 j hjn
    · obtain rfl : j = n + 1 := by omega
      rw [rn, hn, hj _ (by omega) (by omega)]
      exact f3
  have hring : IsRing e.nm (n + 2) (fun j => r.getD j oneTensor) h u d :=
    ⟨fun j hj => isSite_ring (hsite j hj), hn.trans h0.symm⟩
  refine ⟨K, fun j => r.getD j oneTensor, h, fun cut hc => ?_, hring, fun z y => ?_⟩
  · obtain ⟨U, S, k1, k2⟩ := f2 cut hc
    have q1 : l.head? = some (l.getD 0 oneTensor) := by
      rw [List.head?_eq_getElem?, List.getD_eq_getElem?_getD, List.getElem?_eq_getElem (by omega)]
      rfl
    have q2 : l.getLast? = some (l.getD (n + 1) oneTensor) := by
      rw [List.getLast?_eq_getElem?, List.getD_eq_getElem?_getD, g1, show n + 1 + 1 - 1 = n + 1 by omega,
        List.getElem?_eq_getElem (by omega)]
      rfl
    rw [closeLine, q1, q2]
    dsimp only
    rw [f1, Outcome.bind, k1, Outcome.bind]
    dsimp only
    rw [k2, Outcome.bind, ← hr]
    congr 1
    rw [← hlen]
    exact (map_getD r).symm
  · rw [ringValue_path]
    refine Eq.trans ?_ (sum_double a1 a2 fun x => V x x (allIdx z) (allIdx y))
    simp only [g6]
    simp only [← path_plain he.grid hring.site]
    have q := sum_plain (some (h 0)) fun x => path (fun j => rng (some (h j), none, none))
      (fun j x w => elemB e (r.getD j oneTensor) x w (allIdx z j) (allIdx y j)) (n + 1) 0 x x
    rw [bondDim, Option.getD_some] at q
    rw [← q, ← g2]
    symm
    refine close_path (s := fun j => rng (b j)) (s' := fun j => rng (some (h j), none, none)) n (fun j h1 h2 => ?_)
      (fun j h1 h2 => ?_) fun x hx x' hx' => ?_
    · rw [hj j h1 h2, hk j h1 h2]
    · rw [rj j h1 h2]
    · rw [b1, rng_plain, Finset.mem_map] at hx'
      rw [bn, rng_plain, Finset.mem_map] at hx
      obtain ⟨j, -, rfl⟩ := hx'
      obtain ⟨i, -, rfl⟩ := hx
      rw [g2, sum_double, sum_plain, rn, r0, h0]
      exact f5 i j _ _ _ _

/-- One line more. -/
theorem lineStep_ok (he : LinesEnvOk e) {n : ℕ} {t t' : ℕ → Tensor ν NoSymmetry α} {h h' u c d : ℕ → ℕ}
    (ht : IsRing e.nm (n + 2) t h u c) (ht' : IsRing e.nm (n + 2) t' h' c d) :
    ∃ (B : ℕ) (t'' : ℕ → Tensor ν NoSymmetry α) (h'' : ℕ → ℕ),
      (∀ cut, Keeps B cut → ((Grid.twoLineToOneLine e "up" "down" "left" "right" ((List.range (n + 2)).map t)
        ((List.range (n + 2)).map t') cut).bind fun l => closeLine e cut l) = .ok ((List.range (n + 2)).map t'')) ∧
      IsRing e.nm (n + 2) t'' h'' u d ∧
      ∀ z y, ringValue e.nm (n + 2) h'' t'' z y = ∑ q ∈ Fintype.piFinset fun j : Fin (n + 2) => Finset.range (c j),
        ringValue e.nm (n + 2) h t z q * ringValue e.nm (n + 2) h' t' q y := by
  obtain ⟨V1, c1, v1⟩ := ring_chain he ht
  obtain ⟨V2, c2, v2⟩ := ring_chain he ht'
  obtain ⟨l, V, p1, p2, p3⟩ := products_chain he c1 rfl rfl c2
  have hp : l.length = n + 2 := by
    obtain ⟨m, -, g1, g1', -⟩ := sites_of_chain p2
    simp only [List.length_map, List.length_range] at g1'
    omega
  generalize hU : (List.range (n + 2)).map (fun j => some (u j)) = us at p2
  generalize hD : (List.range (n + 2)).map (fun j => some (d j)) = ds at p2
  cases p2 with
  | one _ => simp at hp
  | @cons a _ b _ u0 d0 l us ds W hQ hs hl =>
    obtain ⟨b1, b2, rfl⟩ := hQ
    obtain ⟨r, W1, k1, k2, k3⟩ := canonical_chain he hl rfl rfl hs (a :: l).length (by simp)
    obtain ⟨B, r', W2, s1, s2, s3⟩ := truncated_chain he k2
    rw [← hU, ← hD] at s2
    obtain ⟨K, t'', h'', q1, q2, q3⟩ := closeLine_ok he s2
    refine ⟨max B K, t'', h'', fun cut hc => ?_, q2, fun z y => ?_⟩
    · have : Grid.twoLineToOneLine e "up" "down" "left" "right" ((List.range (n + 2)).map t)
          ((List.range (n + 2)).map t') cut = .ok r' := by
        rw [Grid.twoLineToOneLine, Grid.oneLine, if_neg (by simp)]
        show (products e nn _ _).bind _ = _
        rw [p1, Outcome.bind]
        show (canonical e nn _ _).bind _ = _
        rw [k1, Outcome.bind]
        exact s1 cut (hc.le (le_max_left _ _))
      rw [this, Outcome.bind, q1 cut (hc.le (le_max_right _ _))]
    · rw [q3]
      simp only [s3, k3]
      simp only [p3]
      simp only [List.map_map]
      have hc : (bondDim ∘ fun j => some (c j)) = c := rfl
      rw [hc]
      simp only [sum_indices_box, ← v1, ← v2, Finset.sum_mul_sum]
      symm
      rw [Finset.sum_comm]
      refine Finset.sum_congr rfl fun x _ => ?_
      rw [Finset.sum_comm]
      rfl

/-- The lines up to row `k`. -/
theorem lines_ok (he : LinesEnvOk e) {n : ℕ} {site : ℕ → ℕ → Tensor ν NoSymmetry α} {h v : ℕ → ℕ → ℕ}
    (ht : IsTorus e.nm (n + 1) site h v) (k : ℕ) (hk : k < n + 1) :
    ∃ (B : ℕ) (t : ℕ → Tensor ν NoSymmetry α) (g : ℕ → ℕ),
      (∀ cut, Keeps B cut → lines e (n + 1) site cut k = .ok ((List.range (n + 1)).map t)) ∧
      IsRing e.nm (n + 1) t g (v 0) (v (k + 1)) ∧
      ∀ z y, ringValue e.nm (n + 1) g t z y =
        path (fun i => Fintype.piFinset fun j : Fin (n + 1) => Finset.range (v i j))
          (fun i => ringValue e.nm (n + 1) (h i) (site i)) k 0 z y := by
  induction k with
  | zero => exact ⟨0, site 0, h 0, fun _ _ => rfl, ⟨ht.site 0 hk, ht.row 0 hk⟩, fun _ _ => rfl⟩
  | succ k ih =>
    obtain ⟨B, t, g, g1, g2, g3⟩ := ih (by omega)
    obtain ⟨n, rfl⟩ : ∃ m, n = m + 1 := ⟨n - 1, by omega⟩
    have ht' : IsRing e.nm (n + 2) (site (k + 1)) (h (k + 1)) (v (k + 1)) (v (k + 1 + 1)) :=
      ⟨ht.site (k + 1) hk, ht.row (k + 1) hk⟩
    obtain ⟨B', t'', h'', q1, q2, q3⟩ := lineStep_ok he g2 ht'
    refine ⟨max B B', t'', h'', fun cut hc => ?_, q2, fun z y => ?_⟩
    · rw [lines, g1 cut (hc.le (le_max_left _ _)), Outcome.bind]
      exact q1 cut (hc.le (le_max_right _ _))
    · rw [path_last, q3]
      simp only [Nat.zero_add]
      exact Finset.sum_congr rfl fun q _ => by rw [g3]

theorem torus_path (nm : String → ν) (n : ℕ) (h v : ℕ → ℕ → ℕ) (site : ℕ → ℕ → Tensor ν NoSymmetry α) :
    torusValue nm (n + 1) h v site = ∑ q ∈ Fintype.piFinset fun j : Fin (n + 1) => Finset.range (v 0 j),
      path (fun i => Fintype.piFinset fun j : Fin (n + 1) => Finset.range (v i j))
        (fun i => ringValue nm (n + 1) (h i) (site i)) n 0 q q := by
  refine Eq.trans ?_ (ring_sum (s := fun i => Fintype.piFinset fun j : Fin (n + 1) => Finset.range (v i j))
    (M := fun i => ringValue nm (n + 1) (h i) (site i)) n)
  rw [torusValue, Finset.sum_comm]
  refine Finset.sum_congr rfl fun q _ => ?_
  simp only [ringValue]
  rw [Finset.prod_univ_sum]

end TAT.Torus
