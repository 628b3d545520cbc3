import Verif.Square.SpinModel
import Verif.Square.ConvProps
import Verif.Shrink.Props

/-!
# C64: the amplitude of a spin configuration

The auxiliaries are given slices of the tensors, and what they compute from them is the amplitude `sitesAmp`.  So
`sitesAmp` is the function `w` of C56 and C57.
-/

namespace TAT

set_option linter.unusedSectionVars false

variable {ν α β : Type} [LinearOrder ν]

/-! ## Slices -/

theorem dense_shrink [CommRing α] (ce : ContractEnv NoSymmetry α) (hg : GemmOk ce.gemm)
    (junk : List NoSymmetry → ℕ → α) {cn : ContractNames ν} (hcn : [cn.c0, cn.c1, cn.c2].Nodup)
    {t : Tensor ν NoSymmetry α} (ht : Dense t) {n : ν} {d k : ℕ} (hn : leg t n = some d) (hk : k < d) :
    ∃ r, shrink ce junk cn t [(n, (0, k))] none false = .ok r ∧ Dense r ∧
      (∀ m, leg r m = if m = n then none else leg t m) ∧ ∀ x, val r x = val t (Function.update x n k) := by
  have hmem : n ∈ t.names := leg_ne_none.1 (by rw [hn]; simp)
  have hdim : dimM (mapOf t n) 0 = d := by
    have := leg_of_mem hmem
    rw [hn] at this
    exact (Option.some.inj this).symm
  have hch : ∀ m, chosen [(n, ((0 : NoSymmetry), k))] m = if m = n then some (0, k) else none := by
    intro m
    by_cases h : m = n
    · subst h
      simp [chosen]
    · simp [chosen, h, Ne.symm h]
  obtain ⟨r, h1, h2, h3, h4, h5⟩ := C32_noSymmetry noSymmetry ce hg junk hcn ht.wf ht.blocks
    (cfg := [(n, (0, k))]) (fun m hm x hx => by
      rw [hch] at hx
      split at hx
      · next h =>
        subst h
        rw [← Option.some.inj hx, hdim]
        exact hk
      · cases hx) (newName := none) (by simp) false
  have hnames : ∀ m, m ∈ r.names ↔ m ∈ t.names ∧ m ≠ n := by
    intro m
    rw [h2]
    simp only [Option.toList_none, List.nil_append, mem_others, mem_slicedNames, hch]
    by_cases h : m = n
    · subst h
      simp
    · simp [h]
  have hleg : ∀ m, leg r m = if m = n then none else leg t m := by
    intro m
    by_cases hm : m ∈ r.names
    · have h' := (hnames m).1 hm
      rw [if_neg h'.2, leg_of_mem hm, leg_of_mem h'.1, h4 m hm, if_pos h'.1]
    · rw [leg_eq_none.2 hm]
      split
      · rfl
      · next h => exact (leg_eq_none.2 fun hh => hm ((hnames m).2 ⟨hh, h⟩)).symm
  have hr : Dense r := ⟨h3, fun m => by
    rw [legDim, hleg]
    split
    · exact Nat.one_pos
    · exact ht.pos m⟩
  refine ⟨r, h1, hr, hleg, fun x => ?_⟩
  have hpl : ∀ m ∈ t.names, placed [(n, ((0 : NoSymmetry), k))] t.names (fun m => (0, x m)) m = (0, Function.update x n k m) := by
    intro m hm
    rw [placed, if_pos hm, hch]
    by_cases h : m = n
    · subst h
      simp
    · rw [if_neg h, Function.update_of_ne h]
      rfl
  by_cases hv : ∀ m, leg r m ≠ none → x m < legDim r m
  · have b := elem_val h3 (x := x) hv
    have b' := elem_val ht.wf (x := Function.update x n k) (fun m hm => by
      by_cases h : m = n
      · subst h
        rw [Function.update_self, legDim, hn]
        exact hk
      · have hm' : leg r m = leg t m := by rw [hleg, if_neg h]
        rw [Function.update_of_ne h, legDim, ← hm']
        exact hv m (by rwa [hm']))
    have k1 : keyOf t.names (placed [(n, ((0 : NoSymmetry), k))] t.names fun m => (0, x m)) =
        keyOf t.names fun m => (0, Function.update x n k m) := List.map_congr_left fun m hm => by rw [hpl m hm]
    have k2 : idxOf t.names (placed [(n, ((0 : NoSymmetry), k))] t.names fun m => (0, x m)) =
        idxOf t.names fun m => (0, Function.update x n k m) := List.map_congr_left fun m hm => by rw [hpl m hm]
    rw [h5 _ ((dense_valid h3).2 fun m hm => hv m (leg_ne_none.2 hm)), elem, k1, k2] at b
    rw [elem] at b'
    exact Option.some.inj (b.symm.trans b')
  · push Not at hv
    obtain ⟨m, hm, hx⟩ := hv
    have hmn : m ≠ n := ((hnames m).1 (leg_ne_none.1 hm)).2
    have hm' : leg r m = leg t m := by rw [hleg, if_neg hmn]
    rw [val_outside h3 hm hx, val_outside ht.wf (n := m) (by rwa [← hm'])
      (by rw [Function.update_of_ne hmn, legDim, ← hm']; exact hx)]

/-! ## Sites at a spin -/

variable [Field α] [LinearOrder β] [Field β] {e : NetEnv ν α β}

theorem siteAtSpin_ok (he : AuxEnvOk e.toAuxEnv) {t : Tensor ν NoSymmetry α} {l r u b : Option ℕ} {d k : ℕ}
    (ht : SiteEdges e.nm t l r u b d) (hk : k < d) :
    ∃ t', siteAtSpin e t k = .ok t' ∧ HasEdges e.nm "" t' l r u b ∧
      ∀ x y z w, siteElem e.nm t' x y z w = val t (netIndex e.nm x y z w k) := by
  obtain ⟨t', h1, h2, h3, h4⟩ := dense_shrink e.ce he.gemm e.junk he.names ht.dense ht.phys hk
  have hne : ∀ a b : String, a ≠ b → e.nm a ≠ e.nm b := fun a b h h' => h (he.inj h')
  refine ⟨t', h1, ⟨h2, ?_, ?_, ?_, ?_, fun n hn => ?_⟩, fun x y z w => ?_⟩
  · rw [h3, if_neg (hne _ _ (by decide))]
    exact ht.left
  · rw [h3, if_neg (hne _ _ (by decide))]
    exact ht.right
  · rw [h3, if_neg (hne _ _ (by decide))]
    exact ht.up
  · rw [h3, if_neg (hne _ _ (by decide))]
    exact ht.down
  · rw [h3] at hn
    split at hn
    · exact absurd rfl hn
    · next h =>
      rcases ht.only n hn with h' | h' | h' | h' | h'
      · exact Or.inl h'
      · exact Or.inr (Or.inl h')
      · exact Or.inr (Or.inr (Or.inl h'))
      · exact Or.inr (Or.inr (Or.inr h'))
      · exact absurd h' h
  · rw [siteElem, h4]
    refine val_congr fun n hn => ?_
    rcases ht.only n hn with rfl | rfl | rfl | rfl | rfl
    · simp [Function.update, sideIndex, netIndex, hne "L" "P" (by decide)]
    · simp [Function.update, sideIndex, netIndex, hne "R" "P" (by decide), hne "R" "L" (by decide)]
    · simp [Function.update, sideIndex, netIndex, hne "U" "P" (by decide), hne "U" "L" (by decide),
        hne "U" "R" (by decide)]
    · simp [Function.update, sideIndex, netIndex, hne "D" "P" (by decide), hne "D" "L" (by decide),
        hne "D" "R" (by decide), hne "D" "U" (by decide)]
    · simp [Function.update, netIndex, hne "P" "L" (by decide), hne "P" "R" (by decide), hne "P" "U" (by decide),
        hne "P" "D" (by decide)]

/-! ## States -/

variable {M N d : ℕ} {lattice : ℕ → ℕ → Tensor ν NoSymmetry α} {h v : ℕ → ℕ → Option ℕ}

/-- The auxiliaries have the slices which belong to the spins. -/
structure HoldsSpins (e : NetEnv ν α β) (lattice : ℕ → ℕ → Tensor ν NoSymmetry α) (st : SpinState M N ν α) : Prop where
  unset : ∀ x, st.conf x = none → st.site x = none
  set : ∀ x k, st.conf x = some k → ∃ t, siteAtSpin e (lattice x.1 x.2) k = .ok t ∧ st.site x = some t

/-- The calls of `set` in terms of positions and numbers. -/
def codeSets (l : List (LatticeSite M N × Option (Fin d))) : List (Pos × Option ℕ) :=
  l.map fun p => (sitePos p.1, p.2.map Fin.val)

/-- The spin given to a site by the last call of `set`. -/
def lastSpin (l : List (LatticeSite M N × Option (Fin d))) (x : LatticeSite M N) : Option ℕ :=
  (l.reverse.find? fun p => decide (p.1 = x)).bind fun p => p.2.map Fin.val

theorem siteAt_pos (x : LatticeSite M N) : siteAt M N (sitePos x) = .ok x := by
  have h : (0 ≤ (sitePos x).1 ∧ (sitePos x).1 < M) ∧ 0 ≤ (sitePos x).2 ∧ (sitePos x).2 < N := by
    simp [sitePos]
  rw [siteAt, dif_pos h]
  congr 1

theorem siteAt_ok {p : Pos} {x : LatticeSite M N} (h : siteAt M N p = .ok x) : p = sitePos x := by
  rw [siteAt] at h
  split at h
  · next hp =>
    obtain rfl := Outcome.ok.inj h
    refine Prod.ext ?_ ?_ <;> simp [sitePos] <;> omega
  · cases h

theorem setSpin_ok (he : AuxEnvOk e.toAuxEnv) (hs : SitesOn e.nm M N d lattice h v) {st : SpinState M N ν α}
    (hst : HoldsSpins e lattice st) (x : LatticeSite M N) (k : Option (Fin d)) :
    ∃ st', setSpin e lattice st (sitePos x) (k.map Fin.val) = .ok st' ∧ HoldsSpins e lattice st' ∧
      st'.conf = Function.update st.conf x (k.map Fin.val) := by
  rw [setSpin, siteAt_pos, Outcome.bind]
  by_cases hc : st.conf x = k.map Fin.val
  · rw [if_pos hc]
    exact ⟨st, rfl, hst, by rw [← hc, Function.update_eq_self]⟩
  · rw [if_neg hc]
    cases k with
    | none =>
      refine ⟨_, rfl, ⟨fun y hy => ?_, fun y k hy => ?_⟩, rfl⟩
      · by_cases hyx : y = x
        · subst hyx
          exact Function.update_self ..
        · dsimp only at hy ⊢
          rw [Function.update_of_ne hyx] at hy ⊢
          exact hst.unset y hy
      · by_cases hyx : y = x
        · subst hyx
          dsimp only at hy
          rw [Function.update_self] at hy
          cases hy
        · dsimp only at hy ⊢
          rw [Function.update_of_ne hyx] at hy ⊢
          exact hst.set y k hy
    | some k =>
      obtain ⟨t, ht, -⟩ := siteAtSpin_ok he (hs.fits x.1 x.1.2 x.2 x.2.2) k.2
      refine ⟨⟨Function.update st.conf x (some k.val), Function.update st.site x (some t)⟩, ?_,
        ⟨fun y hy => ?_, fun y k' hy => ?_⟩, rfl⟩
      · show (siteAtSpin e (lattice x.1 x.2) k.val).bind _ = _
        rw [ht]
        rfl
      · by_cases hyx : y = x
        · subst hyx
          dsimp only at hy
          rw [Function.update_self] at hy
          cases hy
        · dsimp only at hy ⊢
          rw [Function.update_of_ne hyx] at hy ⊢
          exact hst.unset y hy
      · by_cases hyx : y = x
        · subst hyx
          dsimp only at hy ⊢
          rw [Function.update_self] at hy ⊢
          obtain rfl := Option.some.inj hy
          exact ⟨t, ht, rfl⟩
        · dsimp only at hy ⊢
          rw [Function.update_of_ne hyx] at hy ⊢
          exact hst.set y k' hy

theorem setSpins_ok (he : AuxEnvOk e.toAuxEnv) (hs : SitesOn e.nm M N d lattice h v)
    (l : List (LatticeSite M N × Option (Fin d))) {st : SpinState M N ν α} (hst : HoldsSpins e lattice st) :
    ∃ st', setSpins e lattice st (codeSets l) = .ok st' ∧ HoldsSpins e lattice st' ∧
      ∀ x, st'.conf x = match l.reverse.find? fun p => decide (p.1 = x) with
        | some p => p.2.map Fin.val
        | none => st.conf x := by
  induction l generalizing st with
  | nil => exact ⟨st, rfl, hst, fun _ => rfl⟩
  | cons p l ih =>
    obtain ⟨st1, h1, h2, h3⟩ := setSpin_ok he hs hst p.1 p.2
    obtain ⟨st2, i1, i2, i3⟩ := ih h2
    refine ⟨st2, ?_, i2, fun x => ?_⟩
    · show (setSpin e lattice st (sitePos p.1) (p.2.map Fin.val)).bind _ = _
      rw [h1]
      exact i1
    · rw [i3, List.reverse_cons, List.find?_append]
      cases l.reverse.find? fun p => decide (p.1 = x) with
      | some q => rfl
      | none =>
        rw [h3]
        by_cases hx : p.1 = x
        · subst hx
          simp
        · rw [Function.update_of_ne (Ne.symm hx)]
          simp [hx]

/-! ## All slices -/

theorem exists_slices (he : AuxEnvOk e.toAuxEnv) (hs : SitesOn e.nm M N d lattice h v) :
    ∃ T : LatticeSite M N → Fin d → Tensor ν NoSymmetry α, ∀ x (k : Fin d),
      siteAtSpin e (lattice x.1 x.2) k = .ok (T x k) ∧
      HasEdges e.nm "" (T x k) (h x.1 x.2) (h x.1 (x.2 + 1)) (v x.1 x.2) (v (x.1 + 1) x.2) ∧
      ∀ l r u b, siteElem e.nm (T x k) l r u b = val (lattice x.1 x.2) (netIndex e.nm l r u b k) := by
  have : ∀ x : LatticeSite M N, ∀ k : Fin d, ∃ t, siteAtSpin e (lattice x.1 x.2) k = .ok t ∧
      HasEdges e.nm "" t (h x.1 x.2) (h x.1 (x.2 + 1)) (v x.1 x.2) (v (x.1 + 1) x.2) ∧
      ∀ l r u b, siteElem e.nm t l r u b = val (lattice x.1 x.2) (netIndex e.nm l r u b k) :=
    fun x k => siteAtSpin_ok he (hs.fits x.1 x.1.2 x.2 x.2.2) k.2
  choose T hT using this
  exact ⟨T, hT⟩

/-- The slices of a configuration. -/
def slicesAt (T : LatticeSite M N → Fin d → Tensor ν NoSymmetry α) (c : SpinConfig M N d) (i j : ℕ) :
    Tensor ν NoSymmetry α :=
  if h : i < M ∧ j < N then T (⟨i, h.1⟩, ⟨j, h.2⟩) (c (⟨i, h.1⟩, ⟨j, h.2⟩)) else oneTensor

theorem slicesAt_update (T : LatticeSite M N → Fin d → Tensor ν NoSymmetry α) (c : SpinConfig M N d)
    (x : LatticeSite M N) (k : Fin d) :
    setSite (slicesAt T c) x.1 x.2 (T x k) = slicesAt T (Function.update c x k) := by
  funext i j
  rw [setSite]
  split
  · next hij =>
    obtain ⟨rfl, rfl⟩ := hij
    rw [slicesAt, dif_pos ⟨x.1.2, x.2.2⟩]
    simp
  · next hij =>
    rw [slicesAt, slicesAt]
    split
    · next hh =>
      rw [Function.update_of_ne]
      rintro rfl
      exact hij ⟨rfl, rfl⟩
    · rfl

theorem slices_lattice (hs : SitesOn e.nm M N d lattice h v) {T : LatticeSite M N → Fin d → Tensor ν NoSymmetry α}
    (hT : ∀ x (k : Fin d), siteAtSpin e (lattice x.1 x.2) k = .ok (T x k) ∧
      HasEdges e.nm "" (T x k) (h x.1 x.2) (h x.1 (x.2 + 1)) (v x.1 x.2) (v (x.1 + 1) x.2) ∧
      ∀ l r u b, siteElem e.nm (T x k) l r u b = val (lattice x.1 x.2) (netIndex e.nm l r u b k))
    (c : SpinConfig M N d) : LatticeOn e.nm M N (slicesAt T c) h v ∧
      latticeValue e.nm M N h v (slicesAt T c) = sitesAmp e.nm h v lattice c := by
  refine ⟨⟨fun i hi j hj => ?_, hs.left, hs.right, hs.top, hs.bottom⟩, netVal_congr fun i hi j hj => ?_⟩
  · rw [slicesAt, dif_pos ⟨hi, hj⟩]
    exact (hT _ _).2.1
  · funext l r u b
    rw [slicesAt, dif_pos ⟨hi, hj⟩, (hT _ _).2.2, spinAt, dif_pos ⟨hi, hj⟩]

/-- One bound for finitely many. -/
theorem Keeps.uniform {I : Type} [Fintype I] {P : I → ℕ → Prop} (hP : ∀ i, ∃ B, ∀ cut, Keeps B cut → P i cut) :
    ∃ B, ∀ cut, Keeps B cut → ∀ i, P i cut := by
  choose B hB using hP
  exact ⟨Finset.univ.sup B, fun cut hc i => hB i cut (Keeps.le hc (Finset.le_sup (Finset.mem_univ i)))⟩

/-! ## Replacements -/

/-- The order of a `std::map` with positions as keys. -/
def siteBefore (x y : LatticeSite M N) : Prop := x.1 < y.1 ∨ x.1 = y.1 ∧ x.2 < y.2

/-- The configuration with the spins of some sites replaced. -/
def overwrite (c : SpinConfig M N d) (rep : List (LatticeSite M N × Fin d)) : SpinConfig M N d := fun x =>
  match rep.find? fun p => decide (p.1 = x) with
  | some p => p.2
  | none => c x

/-- The replacement in terms of positions and numbers. -/
def codeReplacement (rep : List (LatticeSite M N × Fin d)) : List (Pos × ℕ) := rep.map fun p => (sitePos p.1, p.2.val)

theorem siteBefore_ne {x y : LatticeSite M N} (hxy : siteBefore x y) : x ≠ y := by
  rintro rfl
  rcases hxy with h | h
  · exact lt_irrefl _ h
  · exact lt_irrefl _ h.2

theorem siteBefore_asymm {x y : LatticeSite M N} (hxy : siteBefore x y) (hyx : siteBefore y x) : False := by
  rcases hxy with h1 | h1 <;> rcases hyx with h2 | h2
  · exact lt_asymm h1 h2
  · exact lt_irrefl _ (h2.1 ▸ h1)
  · exact lt_irrefl _ (h1.1 ▸ h2)
  · exact lt_asymm h1.2 h2.2

theorem latticeSites_before (M N : ℕ) : (latticeSites M N).Pairwise siteBefore := by
  rw [latticeSites, List.pairwise_flatMap]
  refine ⟨fun i _ => ?_, ?_⟩
  · rw [List.pairwise_map]
    exact (List.pairwise_lt_finRange N).imp fun h => Or.inr ⟨rfl, h⟩
  · refine (List.pairwise_lt_finRange M).imp fun h x hx y hy => ?_
    obtain ⟨a, -, rfl⟩ := List.mem_map.1 hx
    obtain ⟨b, -, rfl⟩ := List.mem_map.1 hy
    exact Or.inl h

theorem overwrite_mem {rep : List (LatticeSite M N × Fin d)} (hr : rep.Pairwise fun a b => siteBefore a.1 b.1)
    (c : SpinConfig M N d) {x : LatticeSite M N} {k : Fin d} (hx : (x, k) ∈ rep) : overwrite c rep x = k := by
  induction rep with
  | nil => simp at hx
  | cons p rep ih =>
    rw [List.pairwise_cons] at hr
    rw [overwrite, List.find?_cons]
    rcases List.mem_cons.1 hx with rfl | hx
    · simp
    · rw [decide_eq_false (siteBefore_ne (hr.1 _ hx))]
      exact ih hr.2 hx

theorem overwrite_absent {rep : List (LatticeSite M N × Fin d)} (c : SpinConfig M N d) {x : LatticeSite M N}
    (hx : ∀ k, (x, k) ∉ rep) : overwrite c rep x = c x := by
  rw [overwrite, List.find?_eq_none.2]
  rintro ⟨y, k⟩ hy
  simp only [decide_eq_true_eq]
  rintro rfl
  exact hx k hy

/-- The entries which change something. -/
def changes (c : SpinConfig M N d) (rep : List (LatticeSite M N × Fin d)) : List (LatticeSite M N × Fin d) :=
  rep.filter fun p => decide (c p.1 ≠ p.2)

theorem overwrite_changes {rep : List (LatticeSite M N × Fin d)} (hr : rep.Pairwise fun a b => siteBefore a.1 b.1)
    (c : SpinConfig M N d) : overwrite c rep = overwrite c (changes c rep) := by
  funext x
  by_cases hx : ∃ k, (x, k) ∈ rep
  · obtain ⟨k, hk⟩ := hx
    rw [overwrite_mem hr c hk]
    by_cases hc : c x = k
    · rw [overwrite_absent, hc]
      intro k' hk'
      obtain ⟨h1, h2⟩ := List.mem_filter.1 hk'
      have := (overwrite_mem hr c hk).symm.trans (overwrite_mem hr c h1)
      simp only [decide_eq_true_eq] at h2
      exact h2 (hc.trans this)
    · exact (overwrite_mem (hr.filter _) c (List.mem_filter.2 ⟨hk, by simpa using hc⟩)).symm
  · push Not at hx
    rw [overwrite_absent c hx, overwrite_absent (rep := changes c rep) c fun k hk => hx k (List.mem_filter.1 hk).1]

theorem changed_sites {rep : List (LatticeSite M N × Fin d)} (hr : rep.Pairwise fun a b => siteBefore a.1 b.1)
    (c : SpinConfig M N d) :
    ((latticeSites M N).filter fun x => decide (c x ≠ overwrite c rep x)) = (changes c rep).map Prod.fst := by
  have s1 : ((latticeSites M N).filter fun x => decide (c x ≠ overwrite c rep x)).Pairwise siteBefore :=
    (latticeSites_before M N).filter _
  have s2 : ((changes c rep).map Prod.fst).Pairwise siteBefore := List.pairwise_map.2 (hr.filter _)
  refine List.Perm.eq_of_pairwise (fun a b _ _ h1 h2 => (siteBefore_asymm h1 h2).elim) s1 s2 ?_
  rw [List.perm_ext_iff_of_nodup (s1.imp siteBefore_ne) (s2.imp siteBefore_ne)]
  intro x
  rw [List.mem_filter, List.mem_map]
  simp only [mem_latticeSites, true_and, ne_eq, decide_not, Bool.not_eq_true', decide_eq_false_iff_not]
  constructor
  · intro hx
    by_cases hk : ∃ k, (x, k) ∈ rep
    · obtain ⟨k, hk⟩ := hk
      rw [overwrite_mem hr c hk] at hx
      exact ⟨(x, k), List.mem_filter.2 ⟨hk, by simpa using hx⟩, rfl⟩
    · push Not at hk
      exact absurd (overwrite_absent c hk).symm hx
  · rintro ⟨⟨y, k⟩, hy, rfl⟩
    obtain ⟨h1, h2⟩ := List.mem_filter.1 hy
    rw [overwrite_mem hr c h1]
    simpa using h2

theorem realReplacement_ok {T : LatticeSite M N → Fin d → Tensor ν NoSymmetry α}
    (hT : ∀ x k, siteAtSpin e (lattice x.1 x.2) (k : Fin d) = .ok (T x k)) {st : SpinState M N ν α}
    {c : SpinConfig M N d} (hc : ∀ x, st.conf x = some (c x).val) (rep : List (LatticeSite M N × Fin d)) :
    realReplacement e lattice st (codeReplacement rep) =
      .ok ((changes c rep).map fun p => (sitePos p.1, T p.1 p.2)) := by
  induction rep with
  | nil => rfl
  | cons p rep ih =>
    rw [codeReplacement, List.map_cons, realReplacement, siteAt_pos, Outcome.bind, hc]
    rw [codeReplacement] at ih
    by_cases h : c p.1 = p.2
    · rw [if_pos (by rw [h]), ih, changes, changes, List.filter_cons_of_neg (by simpa using h)]
    · rw [if_neg (fun hh => h (Fin.ext (Option.some.inj hh))), hT, Outcome.bind, ih, Outcome.bind, changes, changes,
        List.filter_cons_of_pos (by simpa using h)]
      rfl

/-! ## The map of the replacement -/

/-- `assignSpin` for sites. -/
def assignSite (x : LatticeSite M N) (k : Fin d) : List (LatticeSite M N × Fin d) → List (LatticeSite M N × Fin d)
  | [] => [(x, k)]
  | q :: l =>
    if x.1 < q.1.1 ∨ x.1 = q.1.1 ∧ x.2 < q.1.2 then (x, k) :: q :: l
    else if x = q.1 then (x, k) :: l
    else q :: assignSite x k l

theorem siteBefore_trans {x y z : LatticeSite M N} (hxy : siteBefore x y) (hyz : siteBefore y z) : siteBefore x z := by
  rcases hxy with h1 | h1 <;> rcases hyz with h2 | h2
  · exact Or.inl (h1.trans h2)
  · exact Or.inl (h2.1 ▸ h1)
  · exact Or.inl (h1.1 ▸ h2)
  · exact Or.inr ⟨h1.1.trans h2.1, h1.2.trans h2.2⟩

theorem siteBefore_total {x y : LatticeSite M N} (h1 : ¬siteBefore x y) (h2 : x ≠ y) : siteBefore y x := by
  obtain ⟨a, b⟩ := x
  obtain ⟨a', b'⟩ := y
  simp only [siteBefore, not_or, not_and, not_lt] at h1 ⊢
  rcases lt_or_eq_of_le h1.1 with h | h
  · exact Or.inl h
  · refine Or.inr ⟨h, lt_of_le_of_ne (h1.2 h.symm) ?_⟩
    rintro rfl
    exact h2 (by rw [h])

theorem sitePos_inj {x y : LatticeSite M N} : sitePos x = sitePos y ↔ x = y := by
  constructor
  · intro h
    have h1 := congrArg Prod.fst h
    have h2 := congrArg Prod.snd h
    simp only [sitePos, Nat.cast_inj] at h1 h2
    exact Prod.ext (Fin.ext h1) (Fin.ext h2)
  · rintro rfl
    rfl

theorem assignSpin_code (x : LatticeSite M N) (k : Fin d) (rep : List (LatticeSite M N × Fin d)) :
    assignSpin (sitePos x) k.val (codeReplacement rep) = codeReplacement (assignSite x k rep) := by
  induction rep with
  | nil => rfl
  | cons q rep ih =>
    simp only [codeReplacement] at ih
    rw [codeReplacement, List.map_cons, assignSpin, assignSite]
    have h1 : ((sitePos x).1 < (sitePos q.1).1 ∨ (sitePos x).1 = (sitePos q.1).1 ∧ (sitePos x).2 < (sitePos q.1).2) ↔
        (x.1 < q.1.1 ∨ x.1 = q.1.1 ∧ x.2 < q.1.2) := by
      simp [sitePos, Fin.ext_iff]
    rw [if_congr h1 rfl (if_congr (sitePos_inj) rfl rfl), ih]
    split
    · rfl
    · split
      · rfl
      · rfl

theorem mem_assignSite {x y : LatticeSite M N} {k k' : Fin d} {rep : List (LatticeSite M N × Fin d)}
    (h : (y, k') ∈ assignSite x k rep) : (y, k') = (x, k) ∨ (y, k') ∈ rep := by
  induction rep with
  | nil => exact Or.inl (List.mem_singleton.1 h)
  | cons q rep ih =>
    rw [assignSite] at h
    split at h
    · exact List.mem_cons.1 h
    · split at h
      · exact (List.mem_cons.1 h).imp_right (List.mem_cons_of_mem _)
      · rcases List.mem_cons.1 h with h | h
        · exact Or.inr (h ▸ List.mem_cons_self)
        · exact (ih h).imp_right (List.mem_cons_of_mem _)

theorem assignSite_sorted (x : LatticeSite M N) (k : Fin d) {rep : List (LatticeSite M N × Fin d)}
    (hr : rep.Pairwise fun a b => siteBefore a.1 b.1) :
    (assignSite x k rep).Pairwise fun a b => siteBefore a.1 b.1 := by
  induction rep with
  | nil => exact List.pairwise_singleton _ _
  | cons q rep ih =>
    rw [List.pairwise_cons] at hr
    rw [assignSite]
    split
    · next h =>
      refine List.pairwise_cons.2 ⟨fun y hy => ?_, List.pairwise_cons.2 hr⟩
      rcases List.mem_cons.1 hy with rfl | hy
      · exact h
      · exact siteBefore_trans h (hr.1 y hy)
    · next h =>
      split
      · next hx =>
        subst hx
        exact List.pairwise_cons.2 hr
      · next hx =>
        refine List.pairwise_cons.2 ⟨fun y hy => ?_, ih hr.2⟩
        rcases mem_assignSite (y := y.1) (k' := y.2) hy with hy | hy
        · have := congrArg Prod.fst hy
          simp only at this
          rw [this]
          exact siteBefore_total h hx
        · exact hr.1 y hy

theorem overwrite_assign (c : SpinConfig M N d) (x : LatticeSite M N) (k : Fin d)
    (rep : List (LatticeSite M N × Fin d)) :
    overwrite c (assignSite x k rep) = Function.update (overwrite c rep) x k := by
  funext y
  induction rep with
  | nil =>
    by_cases hy : y = x
    · subst hy
      simp [overwrite, assignSite]
    · rw [Function.update_of_ne hy]
      simp [overwrite, assignSite, Ne.symm hy]
  | cons q rep ih =>
    rw [assignSite]
    split
    · by_cases hy : y = x
      · subst hy
        simp [overwrite]
      · rw [Function.update_of_ne hy]
        simp [overwrite, List.find?_cons, Ne.symm hy]
    · split
      · next hx =>
        subst hx
        by_cases hy : y = q.1
        · subst hy
          simp [overwrite]
        · rw [Function.update_of_ne hy]
          simp [overwrite, Ne.symm hy]
      · next hx =>
        by_cases hq : q.1 = y
        · subst hq
          rw [Function.update_of_ne (Ne.symm hx)]
          simp [overwrite]
        · have h1 : ∀ rep' : List (LatticeSite M N × Fin d), overwrite c (q :: rep') y = overwrite c rep' y := fun rep' => by
            simp [overwrite, hq]
          rw [h1, ih]
          by_cases hy : y = x
          · subst hy
            simp
          · rw [Function.update_of_ne hy, Function.update_of_ne hy, h1]

theorem assignSpins_ok {ps : List Pos} {xs : List (LatticeSite M N)} (hp : sitesAt M N ps = .ok xs) {ss : List ℕ}
    (c : SpinConfig M N d) {c' : SpinConfig M N d} {rep : List (LatticeSite M N × Fin d)}
    (hr : rep.Pairwise fun a b => siteBefore a.1 b.1) (hc : replaceSpins (overwrite c rep) xs ss = .ok c') :
    ∃ rep' : List (LatticeSite M N × Fin d), assignSpins ps ss (codeReplacement rep) = codeReplacement rep' ∧
      (rep'.Pairwise fun a b => siteBefore a.1 b.1) ∧ overwrite c rep' = c' := by
  induction ps generalizing xs ss rep with
  | nil =>
    obtain rfl : [] = xs := by simpa [sitesAt] using hp
    exact ⟨rep, by rw [assignSpins]; simp, hr, by simpa [replaceSpins] using hc⟩
  | cons p ps ih =>
    rw [sitesAt] at hp
    obtain ⟨x, hx⟩ : ∃ x, siteAt M N p = .ok x := by
      cases h : siteAt M N p with
      | ok x => exact ⟨x, rfl⟩
      | error m => rw [h] at hp; cases hp
      | ub => rw [h] at hp; cases hp
    rw [hx, Outcome.bind] at hp
    obtain ⟨xs', hxs⟩ : ∃ xs', sitesAt M N ps = .ok xs' := by
      cases h : sitesAt M N ps with
      | ok x => exact ⟨x, rfl⟩
      | error m => rw [h] at hp; cases hp
      | ub => rw [h] at hp; cases hp
    rw [hxs, Outcome.bind] at hp
    obtain rfl : x :: xs' = xs := by simpa using hp
    cases ss with
    | nil => simp [replaceSpins] at hc
    | cons s ss =>
      rw [replaceSpins] at hc
      split at hc
      · next hs =>
        rw [← overwrite_assign] at hc
        obtain ⟨rep', r1, r2, r3⟩ := ih hxs (assignSite_sorted x ⟨s, hs⟩ hr) hc
        refine ⟨rep', ?_, r2, r3⟩
        rw [assignSpins, show p = sitePos x from (siteAt_ok hx), show s = (⟨s, hs⟩ : Fin d).val from rfl,
          assignSpin_code]
        exact r1
      · cases hc

/-! ## Values -/

theorem tensors_ok {T : LatticeSite M N → Fin d → Tensor ν NoSymmetry α}
    (hT : ∀ x (k : Fin d), siteAtSpin e (lattice x.1 x.2) k = .ok (T x k)) {st : SpinState M N ν α}
    (hst : HoldsSpins e lattice st) {c : SpinConfig M N d} (hc : ∀ x, st.conf x = some (c x).val) :
    st.tensors = .ok (slicesAt T c) := by
  have hx : ∀ x, st.site x = some (T x (c x)) := fun x => by
    obtain ⟨t, h1, h2⟩ := hst.set x _ (hc x)
    rw [hT] at h1
    rw [h2, Outcome.ok.inj h1]
  rw [SpinState.tensors, if_pos fun x => by rw [hx]; rfl]
  congr 1
  funext i j
  rw [slicesAt]
  split
  · rw [hx]
    rfl
  · rfl

/-- One value for a configuration and for those which differ from it by what can be replaced. -/
theorem slices_replace (he : AuxEnvOk e.toAuxEnv) (hs : SitesOn e.nm M N d lattice h v)
    {T : LatticeSite M N → Fin d → Tensor ν NoSymmetry α}
    (hT : ∀ x (k : Fin d), siteAtSpin e (lattice x.1 x.2) k = .ok (T x k) ∧
      HasEdges e.nm "" (T x k) (h x.1 x.2) (h x.1 (x.2 + 1)) (v x.1 x.2) (v (x.1 + 1) x.2) ∧
      ∀ l r u b, siteElem e.nm (T x k) l r u b = val (lattice x.1 x.2) (netIndex e.nm l r u b k)) :
    ∃ B, ∀ cut, Keeps B cut → ∀ (c : SpinConfig M N d) (hint : Char),
      (∀ x k, auxReplace e.toAuxEnv ⟨M, N, cut, slicesAt T c⟩ [(sitePos x, T x k)] hint =
        .ok (sitesAmp e.nm h v lattice (Function.update c x k))) ∧
      ∀ (x y : LatticeSite M N) (k k' : Fin d),
        (x.1 = y.1 ∧ x.2.val + 1 = y.2.val ∨ x.2 = y.2 ∧ x.1.val + 1 = y.1.val) →
        auxReplace e.toAuxEnv ⟨M, N, cut, slicesAt T c⟩ [(sitePos x, T x k), (sitePos y, T y k')] hint =
          .ok (sitesAmp e.nm h v lattice (Function.update (Function.update c x k) y k')) := by
  have h1 : ∀ q : SpinConfig M N d × LatticeSite M N × Fin d, ∃ B, ∀ cut, Keeps B cut → ∀ hint : Char,
      auxReplace e.toAuxEnv ⟨M, N, cut, slicesAt T q.1⟩ [(sitePos q.2.1, T q.2.1 q.2.2)] hint =
        .ok (sitesAmp e.nm h v lattice (Function.update q.1 q.2.1 q.2.2)) := by
    rintro ⟨c, x, k⟩
    obtain ⟨B, hB⟩ := C62_one he (slices_lattice hs hT c).1 x.1.2 x.2.2 (hT x k).2.1
    refine ⟨B, fun cut hc hint => ?_⟩
    rw [← (slices_lattice hs hT _).2, ← slicesAt_update]
    exact hB cut hc hint
  have h2 : ∀ q : SpinConfig M N d × (LatticeSite M N × Fin d) × LatticeSite M N × Fin d, ∃ B, ∀ cut, Keeps B cut →
      ∀ hint : Char, (q.2.1.1.1 = q.2.2.1.1 ∧ q.2.1.1.2.val + 1 = q.2.2.1.2.val ∨
          q.2.1.1.2 = q.2.2.1.2 ∧ q.2.1.1.1.val + 1 = q.2.2.1.1.val) →
        auxReplace e.toAuxEnv ⟨M, N, cut, slicesAt T q.1⟩
            [(sitePos q.2.1.1, T q.2.1.1 q.2.1.2), (sitePos q.2.2.1, T q.2.2.1 q.2.2.2)] hint =
          .ok (sitesAmp e.nm h v lattice (Function.update (Function.update q.1 q.2.1.1 q.2.1.2) q.2.2.1 q.2.2.2)) := by
    rintro ⟨c, ⟨x, k⟩, y, k'⟩
    by_cases hr : x.1 = y.1 ∧ x.2.val + 1 = y.2.val
    · have hy := (hT y k').2.1
      rw [← hr.1, ← hr.2] at hy
      obtain ⟨B, hB⟩ := C62_two_row he (slices_lattice hs hT c).1 x.1.2 (hr.2 ▸ y.2.2) (hT x k).2.1 hy
      refine ⟨B, fun cut hc hint _ => ?_⟩
      rw [← (slices_lattice hs hT _).2, ← slicesAt_update, ← slicesAt_update]
      have := hB cut hc hint
      rw [hr.2, hr.1] at this
      convert this using 3 <;> simp [sitePos, hr.1]
    · by_cases hb : x.2 = y.2 ∧ x.1.val + 1 = y.1.val
      · have hy := (hT y k').2.1
        rw [← hb.1, ← hb.2] at hy
        obtain ⟨B, hB⟩ := C62_two_column he (slices_lattice hs hT c).1 (hb.2 ▸ y.1.2) x.2.2 (hT x k).2.1 hy
        refine ⟨B, fun cut hc hint _ => ?_⟩
        rw [← (slices_lattice hs hT _).2, ← slicesAt_update, ← slicesAt_update]
        have := hB cut hc hint
        rw [hb.2, hb.1] at this
        convert this using 3 <;> simp [sitePos, hb.1]
      · exact ⟨0, fun _ _ _ h => (h.elim hr hb).elim⟩
  obtain ⟨B1, hB1⟩ := Keeps.uniform h1
  obtain ⟨B2, hB2⟩ := Keeps.uniform h2
  exact ⟨max B1 B2, fun cut hc c hint =>
    ⟨fun x k => hB1 cut (Keeps.le hc (le_max_left _ _)) (c, x, k) hint,
      fun x y k k' hxy => hB2 cut (Keeps.le hc (le_max_right _ _)) (c, (x, k), y, k') hint hxy⟩⟩

/-! ## C64 -/

/-- C64: whatever is set and in whatever order, the auxiliaries have the slices of the spins set last. -/
theorem C64_set (he : AuxEnvOk e.toAuxEnv) (hs : SitesOn e.nm M N d lattice h v)
    (l : List (LatticeSite M N × Option (Fin d))) :
    ∃ st : SpinState M N ν α, setSpins e lattice .empty (codeSets l) = .ok st ∧ HoldsSpins e lattice st ∧
      ∀ x, st.conf x = lastSpin l x := by
  obtain ⟨st, h1, h2, h3⟩ := setSpins_ok he hs l (st := .empty) ⟨fun _ _ => rfl, fun _ _ h => by cases h⟩
  refine ⟨st, h1, h2, fun x => ?_⟩
  rw [h3, lastSpin]
  cases l.reverse.find? fun p => decide (p.1 = x) <;> rfl

/-- C64: if nothing is cut, the value of a configuration is its amplitude. -/
theorem C64_value (he : AuxEnvOk e.toAuxEnv) (hs : SitesOn e.nm M N d lattice h v) (hM : 0 < M) (hN : 0 < N) :
    ∃ B, ∀ cut, (B ≤ cut ∨ cut = 2 ^ 64 - 1) → ∀ (c : SpinConfig M N d) (st : SpinState M N ν α),
      HoldsSpins e lattice st → (∀ x, st.conf x = some (c x).val) →
      spinValue e cut st = .ok (sitesAmp e.nm h v lattice c) := by
  obtain ⟨T, hT⟩ := exists_slices he hs
  have h1 : ∀ c : SpinConfig M N d, ∃ B, ∀ cut, Keeps B cut →
      auxReplace e.toAuxEnv ⟨M, N, cut, slicesAt T c⟩ [] ' ' = .ok (sitesAmp e.nm h v lattice c) := fun c => by
    obtain ⟨B, hB⟩ := C62_value he (slices_lattice hs hT c).1 hM hN
    exact ⟨B, fun cut hc => by rw [(hB cut hc ' ').1, (slices_lattice hs hT c).2]⟩
  obtain ⟨B, hB⟩ := Keeps.uniform h1
  refine ⟨B, fun cut hc c st hst hcst => ?_⟩
  rw [spinValue, tensors_ok (fun x k => (hT x k).1) hst hcst, Outcome.bind]
  exact hB cut hc c

/-- C64: if nothing is cut, the value with some spins replaced is the amplitude of the changed configuration, the
old amplitude if nothing changes, and an error if the sites which change are neither one site nor two neighbours. -/
theorem C64_replace (he : AuxEnvOk e.toAuxEnv) (hs : SitesOn e.nm M N d lattice h v) :
    ∃ B, ∀ cut, (B ≤ cut ∨ cut = 2 ^ 64 - 1) → ∀ (c c' : SpinConfig M N d) (st : SpinState M N ν α),
      HoldsSpins e lattice st → (∀ x, st.conf x = some (c x).val) →
      ∀ (ps : List Pos) (xs : List (LatticeSite M N)) (ss : List ℕ), sitesAt M N ps = .ok xs →
        replaceSpins c xs ss = .ok c' → ∀ (ws : α) (hint : Char),
        spinReplace e cut lattice st (assignSpins ps ss []) ws hint =
          replacedAmplitude (sitesAmp e.nm h v lattice) c ws c' := by
  obtain ⟨T, hT⟩ := exists_slices he hs
  obtain ⟨B, hB⟩ := slices_replace he hs hT
  refine ⟨B, fun cut hc c c' st hst hcst ps xs ss hps hss ws hint => ?_⟩
  obtain ⟨rep, r1, r2, r3⟩ := assignSpins_ok (rep := []) hps c List.Pairwise.nil hss
  rw [show assignSpins ps ss [] = codeReplacement rep from r1, spinReplace,
    realReplacement_ok (fun x k => (hT x k).1) hcst, Outcome.bind, replacedAmplitude, ← r3, changed_sites r2,
    overwrite_changes r2]
  obtain ⟨b1, b2⟩ := hB cut hc c hint
  have hsort : (changes c rep).Pairwise fun a b => siteBefore a.1 b.1 := r2.filter _
  generalize changes c rep = F at hsort ⊢
  match F, hsort with
  | [], _ => rfl
  | [(x, k)], _ =>
    rw [if_neg (by simp), tensors_ok (fun x k => (hT x k).1) hst hcst, Outcome.bind, List.map_singleton, b1]
    show _ = Outcome.ok _
    congr 2
    funext y
    by_cases hy : y = x
    · subst hy
      simp [overwrite]
    · rw [Function.update_of_ne hy]
      simp [overwrite, Ne.symm hy]
  | [(x, k), (y, k')], hsort =>
    have hxy : siteBefore x y := (List.pairwise_cons.1 hsort).1 (y, k') (List.mem_singleton.2 rfl)
    rw [if_neg (by simp), tensors_ok (fun x k => (hT x k).1) hst hcst, Outcome.bind]
    simp only [List.map_cons, List.map_nil]
    by_cases hr : x.1 = y.1 ∧ x.2.val + 1 = y.2.val ∨ x.2 = y.2 ∧ x.1.val + 1 = y.1.val
    · rw [b2 x y k k' hr, if_pos (by simpa [replaceable] using hr)]
      congr 2
      funext z
      by_cases hz : z = y
      · subst hz
        simp [overwrite, siteBefore_ne hxy]
      · rw [Function.update_of_ne hz]
        by_cases hz' : z = x
        · subst hz'
          simp [overwrite]
        · rw [Function.update_of_ne hz']
          simp [overwrite, Ne.symm hz, Ne.symm hz']
    · rw [if_neg (by simpa [replaceable] using hr)]
      refine (C62_unsupported e.toAuxEnv _ hint).2.2 _ _ _ _ ?_ ?_
      · intro hp
        refine hr (Or.inl ⟨?_, ?_⟩)
        · have := congrArg Prod.fst hp
          simp only [sitePos, Nat.cast_inj] at this
          exact Fin.ext this.symm
        · have := congrArg Prod.snd hp
          simp only [sitePos] at this
          omega
      · intro hp
        refine hr (Or.inr ⟨?_, ?_⟩)
        · have := congrArg Prod.snd hp
          simp only [sitePos, Nat.cast_inj] at this
          exact Fin.ext this.symm
        · have := congrArg Prod.fst hp
          simp only [sitePos] at this
          omega
  | p :: q :: r :: F, _ =>
    rw [if_neg (by simp), tensors_ok (fun x k => (hT x k).1) hst hcst, Outcome.bind]
    exact (C62_unsupported e.toAuxEnv _ hint).2.1 _ (by simp)

end TAT
