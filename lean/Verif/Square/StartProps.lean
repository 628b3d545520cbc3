import Verif.Square.StartModel
import Verif.Square.DenseNew
import Verif.Square.NetLegs
import Verif.Square.SimpleProps
import Verif.Square.SpinProps
import Verif.TensorMisc.Identity

/-!
# C68: what the constructors and the setters of a lattice give
-/

namespace TAT

variable {ν α β : Type} [LinearOrder ν] [Field α] [LinearOrder β] [Field β] [IsStrictOrderedRing β]
  {e : NetEnv ν α β} {M N : ℕ}

/-- The edges from left to right in a new lattice: all of dimension `D`, and none at the border. -/
def newAcross (N D : ℕ) (_ j : ℕ) : Option ℕ := if 0 < j ∧ j < N then some D else none

/-- The edges from above to below in a new lattice. -/
def newDown (M D : ℕ) (i _ : ℕ) : Option ℕ := if 0 < i ∧ i < M then some D else none

/-- The number of neighbours of a site. -/
def neighbours (M N i j : ℕ) : ℕ :=
  (if 0 < i then 1 else 0) + (if 0 < j then 1 else 0) + (if i + 1 < M then 1 else 0) + if j + 1 < N then 1 else 0

theorem find?_getElem {κ τ : Type} [LinearOrder κ] {l : List (κ × τ)} (hn : (l.map Prod.fst).Nodup) (i : ℕ)
    (hi : i < l.length) : OMap.find? l l[i].1 = some l[i].2 :=
  OMap.find?_of_mem hn (List.getElem_mem hi)

theorem siteShape_names (hnm : Function.Injective e.nm) (M N D d i j : ℕ) :
    ((siteShape e.nm M N D d i j).map Prod.fst).Nodup := by
  have h : ∀ a b : String, e.nm a = e.nm b ↔ a = b := fun a b => hnm.eq_iff
  unfold siteShape
  split_ifs <;> simp [h]

theorem siteShape_prod {i j : ℕ} (hi : i < M) (hj : j < N) (nm : String → ν) (D d : ℕ) :
    ((siteShape nm M N D d i j).map Prod.snd).prod = d * D ^ neighbours M N i j := by
  have h1 : i + 1 ≠ M ↔ i + 1 < M := by omega
  have h2 : j + 1 ≠ N ↔ j + 1 < N := by omega
  have h3 : i ≠ 0 ↔ 0 < i := by omega
  have h4 : j ≠ 0 ↔ 0 < j := by omega
  unfold siteShape neighbours
  simp only [h1, h2, h3, h4]
  split_ifs <;> simp [pow_succ, mul_assoc]

theorem siteShape_edges (hnm : Function.Injective e.nm) {D d i j : ℕ} (hi : i < M) (hj : j < N)
    {t : Tensor ν NoSymmetry α} (ht : Dense t)
    (hleg : ∀ n, leg t n = OMap.find? (siteShape e.nm M N D d i j) n) :
    SiteEdges e.nm t (newAcross N D i j) (newAcross N D i (j + 1)) (newDown M D i j) (newDown M D (i + 1) j) d := by
  have h : ∀ a b : String, e.nm a = e.nm b ↔ a = b := fun a b => hnm.eq_iff
  have h1 : i + 1 ≠ M ↔ i + 1 < M := by omega
  have h2 : j + 1 ≠ N ↔ j + 1 < N := by omega
  have h3 : i ≠ 0 ↔ 0 < i := by omega
  have h4 : j ≠ 0 ↔ 0 < j := by omega
  refine ⟨ht, ?_, ?_, ?_, ?_, ?_, ?_⟩
  iterate 5
    rw [hleg]
    unfold siteShape
    simp only [newAcross, newDown, h1, h2, h3, h4, hi, hj, and_true, Nat.succ_pos, true_and]
    split_ifs <;> simp [OMap.find?, h]
  · intro n hn
    rw [hleg, ← Option.isSome_iff_ne_none, OMap.find?_isSome] at hn
    rw [OMap.keys, siteShape] at hn
    simp only [List.map_append, List.mem_append] at hn
    rcases hn with (((hn | hn) | hn) | hn) | hn
    · exact Or.inr (Or.inr (Or.inr (Or.inr (by simpa using hn))))
    · split_ifs at hn
      · exact Or.inr (Or.inr (Or.inl (by simpa using hn)))
      · simp at hn
    · split_ifs at hn
      · exact Or.inl (by simpa using hn)
      · simp at hn
    · split_ifs at hn
      · exact Or.inr (Or.inr (Or.inr (Or.inl (by simpa using hn))))
      · simp at hn
    · split_ifs at hn
      · exact Or.inr (Or.inl (by simpa using hn))
      · simp at hn

/-- C68: a site of a new lattice.  Its elements are the random numbers divided by the largest of their moduli; it
is an error if all of them are zero. -/
theorem C68_site (he : NetEnvOk e) (habs : ∀ x y, 0 < y → e.abs (x / e.c y) = e.abs x / y) (numbers : ℕ → α)
    {D d i j : ℕ} (hD : 0 < D) (hd : 0 < d) (hi : i < M) (hj : j < N) :
    ((∀ k < d * D ^ neighbours M N i j, numbers k = 0) →
      siteNew e numbers M N D d i j = .error "division by zero") ∧
    ((∃ k < d * D ^ neighbours M N i j, numbers k ≠ 0) → ∃ t m, siteNew e numbers M N D d i j = .ok t ∧
      SiteEdges e.nm t (newAcross N D i j) (newAcross N D i (j + 1)) (newDown M D i j) (newDown M D (i + 1) j) d ∧
      (∀ k < d * D ^ neighbours M N i j, e.abs (numbers k) ≤ m) ∧
      (∃ k < d * D ^ neighbours M N i j, e.abs (numbers k) = m) ∧
      allElems t = (List.range (d * D ^ neighbours M N i j)).map (fun k => numbers k / e.c m) ∧
      (∀ x, e.abs (val t x) ≤ 1) ∧ ∃ x, e.abs (val t x) = 1) := by
  obtain ⟨shape, hshape⟩ : ∃ shape, shape = siteShape e.nm M N D d i j := ⟨_, rfl⟩
  have hout : ∀ n s, outputs (fun k => (numbers k, k + 1)) s n = (List.range' s n).map numbers := by
    intro n
    induction n with
    | zero => exact fun s => rfl
    | succ n ih => exact fun s => by rw [outputs, ih, List.range'_succ, List.map_cons]
  have hnd := siteShape_names he.inj M N D d i j
  rw [← hshape] at hnd
  have hprod := siteShape_prod hi hj e.nm D d
  rw [← hshape] at hprod
  obtain ⟨t, h1, h2, h3, h4, h5⟩ := dense_set e.junk (fun k => (numbers k, k + 1)) 0 hnd
    (dims := shape.map Prod.snd) (by simp) (by
      intro x hx
      rw [hshape, siteShape] at hx
      simp only [List.map_append, List.mem_append] at hx
      rcases hx with (((hx | hx) | hx) | hx) | hx
      · simp at hx; omega
      all_goals
        split_ifs at hx
        · simp at hx; omega
        · simp at hx)
  rw [hprod, hout, ← List.range_eq_range'] at h5
  have hleg : ∀ n, leg (setWith (fun k => (numbers k, k + 1)) 0 t) n = OMap.find? shape n := by
    intro n
    by_cases hn : n ∈ shape.map Prod.fst
    · obtain ⟨k, hk, rfl⟩ := List.mem_iff_getElem.1 hn
      rw [h4 k hk]
      have := find?_getElem hnd k (by simpa using hk)
      rw [List.getElem_map, List.getElem_map, this]
    · rw [leg_eq_none.2 (by rw [h3]; exact hn), OMap.find?_eq_none.2 hn]
  have hE := siteShape_edges he.inj hi hj h2 (by rw [← hshape]; exact hleg)
  have hnew : siteNew e numbers M N D d i j = normalised e (setWith (fun k => (numbers k, k + 1)) 0 t) := by
    rw [siteNew, ← hshape]
    have : (shape.map fun x => (⟨false, [(0, x.2)]⟩ : Edge NoSymmetry)) = (shape.map Prod.snd).map plainEdge := by
      rw [List.map_map]; rfl
    rw [this, h1]
    rfl
  generalize setWith (fun k => (numbers k, k + 1)) 0 t = T at *
  have hmem : ∀ {a}, a ∈ allElems T ↔ ∃ k < d * D ^ neighbours M N i j, numbers k = a := by
    intro a; rw [h5]; simp
  have hmax := C48_max e.abs T
  have hz : normMax e.abs T = 0 ↔ ∀ k < d * D ^ neighbours M N i j, numbers k = 0 := by
    rw [normMax_zero he h2]
    constructor
    · intro h k hk
      obtain ⟨x, -, hx⟩ := (dense_elems h2).1 (hmem.2 ⟨k, hk, rfl⟩)
      rw [← hx, h]
    · intro h x
      by_cases hv : ∀ m, leg T m ≠ none → x m < legDim T m
      · obtain ⟨k, hk, hx⟩ := hmem.1 ((dense_elems h2).2 ⟨x, hv, rfl⟩)
        rw [← hx, h k hk]
      · push Not at hv
        obtain ⟨m, hm, hx⟩ := hv
        exact val_outside h2.wf hm hx
  refine ⟨fun h => ?_, fun ⟨k, hk, hk0⟩ => ?_⟩
  · rw [hnew, normalised, if_pos (hz.2 h)]
  · have h0 : normMax e.abs T ≠ 0 := fun h => hk0 (hz.1 h k hk)
    obtain ⟨m1, m2, m3⟩ := hmax
    have hpos : 0 < normMax e.abs T := lt_of_le_of_ne m2 h0.symm
    obtain ⟨f1, f2, f3⟩ := dense_number h2 (f := fun x => x / e.c (normMax e.abs T)) (zero_div _)
    have hbound : ∀ x, e.abs (val T x) ≤ normMax e.abs T := by
      intro x
      by_cases hv : ∀ m, leg T m ≠ none → x m < legDim T m
      · exact m1 _ ((dense_elems h2).2 ⟨x, hv, rfl⟩)
      · push Not at hv
        obtain ⟨m, hm, hx⟩ := hv
        rw [val_outside h2.wf hm hx, (he.abs_zero 0).2 rfl]
        exact m2
    obtain ⟨y, hy, hy'⟩ := m3.resolve_left h0
    obtain ⟨k', hk', rfl⟩ := hmem.1 hy
    obtain ⟨x', -, hx'⟩ := (dense_elems h2).1 hy
    refine ⟨_, normMax e.abs T, by rw [hnew, normalised, if_neg h0], ?_, fun k hk => m1 _ (hmem.2 ⟨k, hk, rfl⟩),
      ⟨k', hk', hy'.symm⟩, ?_, fun x => ?_, x', ?_⟩
    · exact ⟨f1, (f2 _).trans hE.left, (f2 _).trans hE.right, (f2 _).trans hE.up, (f2 _).trans hE.down,
        (f2 _).trans hE.phys, fun n hn => hE.only n (by rwa [f2] at hn)⟩
    · have : allElems (scalarInplaceNumber (fun x => x / e.c (normMax e.abs T)) T) =
          (allElems T).map fun x => x / e.c (normMax e.abs T) := by
        rw [allElems, allElems, List.map_flatMap]
        exact List.flatMap_map ..
      rw [this, h5, List.map_map]
      rfl
    · rw [f3, habs _ _ hpos]
      exact (div_le_one₀ hpos).2 (hbound x)
    · rw [f3, habs _ _ hpos, hx', ← hy', div_self h0]

/-! ## The lattice -/

theorem mapM_fails {A B : Type} {f : A → Outcome B} {m : String} {l : List A}
    (h : ∀ x ∈ l, (∃ y, f x = .ok y) ∨ f x = .error m) (hx : ∃ x ∈ l, f x = .error m) : l.mapM f = .error m := by
  induction l with
  | nil => simp at hx
  | cons a l ih =>
    rw [List.mapM_cons]
    rcases h a (by simp) with ⟨y, hy⟩ | hy
    · obtain ⟨x, hx, hx'⟩ := hx
      rcases List.mem_cons.1 hx with rfl | hx
      · rw [hy] at hx'; cases hx'
      · rw [hy, Outcome.ok_bind, ih (fun x hx => h x (by simp [hx])) ⟨x, hx, hx'⟩, Outcome.error_bind]
    · rw [hy, Outcome.error_bind]

/-- C68: a new lattice has the edges on which the other theorems about lattices rely: dimension `D` between
neighbours, none at the border, and a physical edge of dimension `d`.  It is an error if all numbers of some site
are zero. -/
theorem C68_lattice (he : NetEnvOk e) (habs : ∀ x y, 0 < y → e.abs (x / e.c y) = e.abs x / y)
    (numbers : ℕ → ℕ → ℕ → α) {D d : ℕ} (hD : 0 < D) (hd : 0 < d) :
    ((∃ i < M, ∃ j < N, ∀ k < d * D ^ neighbours M N i j, numbers i j k = 0) →
      latticeNew e numbers M N D d = .error "division by zero") ∧
    ((∀ i < M, ∀ j < N, ∃ k < d * D ^ neighbours M N i j, numbers i j k ≠ 0) → ∃ rows,
      latticeNew e numbers M N D d = .ok rows ∧ rows.length = M ∧ (∀ row ∈ rows, row.length = N) ∧
      (∀ i < M, ∀ j < N, siteNew e (numbers i j) M N D d i j = .ok (latticeAt rows i j)) ∧
      SitesOn e.nm M N d (latticeAt rows) (newAcross N D) (newDown M D)) := by
  have hcase : ∀ i < M, ∀ j < N, (∃ t, siteNew e (numbers i j) M N D d i j = .ok t) ∨
      siteNew e (numbers i j) M N D d i j = .error "division by zero" := by
    intro i hi j hj
    obtain ⟨h1, h2⟩ := C68_site he habs (numbers i j) hD hd hi hj
    by_cases h : ∀ k < d * D ^ neighbours M N i j, numbers i j k = 0
    · exact Or.inr (h1 h)
    · push Not at h
      obtain ⟨t, _, ht, _⟩ := h2 h
      exact Or.inl ⟨t, ht⟩
  have hrow : ∀ i < M, (∃ row, ((List.range N).mapM fun j => siteNew e (numbers i j) M N D d i j) = .ok row) ∨
      ((List.range N).mapM fun j => siteNew e (numbers i j) M N D d i j) = .error "division by zero" := by
    intro i hi
    by_cases h : ∃ j < N, siteNew e (numbers i j) M N D d i j = .error "division by zero"
    · obtain ⟨j, hj, h⟩ := h
      exact Or.inr (mapM_fails (fun j hj => hcase i hi j (List.mem_range.1 hj)) ⟨j, List.mem_range.2 hj, h⟩)
    · push Not at h
      have h : ∀ j, ∃ t, j < N → siteNew e (numbers i j) M N D d i j = .ok t := by
        intro j
        by_cases hj : j < N
        · obtain ⟨t, ht⟩ := (hcase i hi j hj).resolve_right (h j hj)
          exact ⟨t, fun _ => ht⟩
        · exact ⟨oneTensor, fun h => absurd h hj⟩
      choose T hT using h
      exact Or.inl ⟨_, mapM_ok (g := T) fun j hj => hT j (List.mem_range.1 hj)⟩
  refine ⟨fun ⟨i, hi, j, hj, h⟩ => ?_, fun h => ?_⟩
  · refine mapM_fails (fun i hi => hrow i (List.mem_range.1 hi)) ⟨i, List.mem_range.2 hi, ?_⟩
    exact mapM_fails (fun j hj => hcase i hi j (List.mem_range.1 hj))
      ⟨j, List.mem_range.2 hj, (C68_site he habs (numbers i j) hD hd hi hj).1 h⟩
  · have h : ∀ i j, ∃ t, i < M → j < N → siteNew e (numbers i j) M N D d i j = .ok t ∧
        SiteEdges e.nm t (newAcross N D i j) (newAcross N D i (j + 1)) (newDown M D i j) (newDown M D (i + 1) j) d := by
      intro i j
      by_cases hi : i < M
      · by_cases hj : j < N
        · obtain ⟨t, _, h1, h2, _⟩ := (C68_site he habs (numbers i j) hD hd hi hj).2 (h i hi j hj)
          exact ⟨t, fun _ _ => ⟨h1, h2⟩⟩
        · exact ⟨oneTensor, fun _ h => absurd h hj⟩
      · exact ⟨oneTensor, fun h => absurd h hi⟩
    choose T hT using h
    have hat : ∀ i < M, ∀ j < N, latticeAt ((List.range M).map fun i => (List.range N).map fun j => T i j) i j = T i j := by
      intro i hi j hj
      simp [latticeAt, hi, hj]
    refine ⟨(List.range M).map fun i => (List.range N).map fun j => T i j, ?_, by simp, ?_, fun i hi j hj => ?_, ?_⟩
    · refine mapM_ok fun i hi => mapM_ok fun j hj => ?_
      exact (hT i j (List.mem_range.1 hi) (List.mem_range.1 hj)).1
    · intro row hrow
      obtain ⟨i, -, rfl⟩ := List.mem_map.1 hrow
      simp
    · rw [hat i hi j hj]
      exact (hT i j hi hj).1
    · refine ⟨fun i hi j hj => ?_, fun i => ?_, fun i => ?_, fun j => ?_, fun j => ?_⟩
      · rw [hat i hi j hj]
        exact (hT i j hi hj).2
      all_goals simp [newAcross, newDown]

/-- C68: the same lattice for the simple update, whose environments are empty at the beginning. -/
theorem C68_network {d : ℕ} {h v : ℕ → ℕ → Option ℕ} {rows : List (List (Tensor ν NoSymmetry α))}
    (hs : SitesOn e.nm M N d (latticeAt rows) h v) :
    NetworkOn e.nm M N d (⟨fun p => latticeAt rows p.1.toNat p.2.toNat, fun _ _ => none⟩ : NetState ν α β) h v ∧
    ∀ c : SpinConfig M N d, networkAmp e.nm e.c h v
      (⟨fun p => latticeAt rows p.1.toNat p.2.toNat, fun _ _ => none⟩ : NetState ν α β) c =
        sitesAmp e.nm h v (latticeAt rows) c := by
  refine ⟨⟨?_, ⟨fun _ _ h => (Option.some_ne_none _ h.symm).elim, fun _ _ h => (Option.some_ne_none _ h.symm).elim⟩⟩,
    fun c => ?_⟩
  · simpa using hs
  · simp [networkAmp, sitesAmp, envWeight]

/-! ## The terms -/

section

variable {H : Type} [LinearOrder TermKey]

/-- The keys a setter assigns: the sites, the pairs of a site and the one below, the pairs of a site and the one on
its right. -/
def SetBy (M N : ℕ) : Setter → TermKey → Prop
  | .site, k => ∃ x : LatticeSite M N, k = [sitePos x]
  | .vertical, k => ∃ x y : LatticeSite M N, x.1.val + 1 = y.1.val ∧ x.2 = y.2 ∧ k = [sitePos x, sitePos y]
  | .horizontal, k => ∃ x y : LatticeSite M N, x.1 = y.1 ∧ x.2.val + 1 = y.2.val ∧ k = [sitePos x, sitePos y]

theorem setTerms_find (t : H) (keys : List TermKey) (m : List (TermKey × H)) (k : TermKey) :
    OMap.find? (setTerms t keys m) k = if k ∈ keys then some t else OMap.find? m k := by
  induction keys generalizing m with
  | nil => simp [setTerms]
  | cons a keys ih =>
    rw [setTerms, List.foldl_cons, ← setTerms, ih, OMap.find?_set]
    by_cases h : k = a
    · subst h; simp
    · have h' : ¬ a = k := fun h' => h h'.symm
      simp [h, h']

theorem setTerms_sorted (t : H) (keys : List TermKey) {m : List (TermKey × H)} (h : OMap.Sorted m) :
    OMap.Sorted (setTerms t keys m) := by
  induction keys generalizing m with
  | nil => exact h
  | cons a keys ih => exact ih (h.set a t)

open Classical in
/-- C68: a setter assigns its tensor to all sites, or to all bonds of one direction, and leaves the other terms as
they are. -/
theorem C68_setter (m : List (TermKey × H)) (c : Setter × H) (k : TermKey) :
    OMap.find? (callSetter M N m c) k = if SetBy M N c.1 k then some c.2 else OMap.find? m k := by
  obtain ⟨c, t⟩ := c
  cases c
  · rw [callSetter]
    simp only
    rw [setAllSite, setTerms_find]
    congr 1
    rw [SetBy]
    simp only [List.mem_flatMap, List.mem_map, mem_counters, eq_iff_iff]
    constructor
    · rintro ⟨i, hi, j, hj, rfl⟩
      refine ⟨(⟨i.toNat, by omega⟩, ⟨j.toNat, by omega⟩), ?_⟩
      simp [sitePos, hi.1, hj.1]
    · rintro ⟨x, rfl⟩
      exact ⟨x.1.val, by have := x.1.2; omega, x.2.val, by have := x.2.2; omega, rfl⟩
  · rw [callSetter]
    simp only
    rw [setAllVertical, setTerms_find]
    congr 1
    rw [SetBy]
    simp only [List.mem_flatMap, List.mem_map, mem_counters, eq_iff_iff]
    constructor
    · rintro ⟨i, hi, j, hj, rfl⟩
      refine ⟨(⟨i.toNat, by omega⟩, ⟨j.toNat, by omega⟩), (⟨(i + 1).toNat, by omega⟩, ⟨j.toNat, by omega⟩),
        by simp only; omega, rfl, ?_⟩
      simp only [sitePos, Int.toNat_of_nonneg hi.1, Int.toNat_of_nonneg hj.1,
        Int.toNat_of_nonneg (show 0 ≤ i + 1 by omega)]
    · rintro ⟨x, y, h1, h2, rfl⟩
      refine ⟨x.1.val, by have := y.1.2; omega, x.2.val, by have := x.2.2; omega, ?_⟩
      rw [sitePos, sitePos, ← h2, ← h1]
      push_cast
      rfl
  · rw [callSetter]
    simp only
    rw [setAllHorizontal, setTerms_find]
    congr 1
    rw [SetBy]
    simp only [List.mem_flatMap, List.mem_map, mem_counters, eq_iff_iff]
    constructor
    · rintro ⟨i, hi, j, hj, rfl⟩
      refine ⟨(⟨i.toNat, by omega⟩, ⟨j.toNat, by omega⟩), (⟨i.toNat, by omega⟩, ⟨(j + 1).toNat, by omega⟩),
        rfl, by simp only; omega, ?_⟩
      simp only [sitePos, Int.toNat_of_nonneg hi.1, Int.toNat_of_nonneg hj.1,
        Int.toNat_of_nonneg (show 0 ≤ j + 1 by omega)]
    · rintro ⟨x, y, h1, h2, rfl⟩
      refine ⟨x.1.val, by have := x.1.2; omega, x.2.val, by have := y.2.2; omega, ?_⟩
      rw [sitePos, sitePos, ← h1, ← h2]
      push_cast
      rfl

theorem callSetter_sorted {m : List (TermKey × H)} (h : OMap.Sorted m) (c : Setter × H) :
    OMap.Sorted (callSetter M N m c) := by
  obtain ⟨c, t⟩ := c
  cases c <;> exact setTerms_sorted _ _ h

open Classical in
/-- C68: after any calls of the setters, a term has the tensor of the last call which assigns it.  All terms are
sites or bonds of the lattice, no bond is there twice, and neither `_markov_sampling_positions_sequence` nor
`_simple_update_positions_sequence` throws. -/
theorem C68_terms (calls : List (Setter × H)) :
    let hamiltonians := calls.foldl (callSetter M N) []
    (∀ k, OMap.find? hamiltonians k = (calls.reverse.find? fun c => decide (SetBy M N c.1 k)).map Prod.snd) ∧
    (OMap.keys hamiltonians).Nodup ∧ NoReversed (OMap.keys hamiltonians) ∧
    (∀ k ∈ OMap.keys hamiltonians, ∃ xs : List (LatticeSite M N), TermOf k xs ∧ k = xs.map sitePos) ∧
    (∃ l, markovSequence M N (OMap.keys hamiltonians) = .ok l) ∧
    ∃ groups, updateGroups (OMap.keys hamiltonians) = .ok groups := by
  intro hamiltonians
  have hfind : ∀ k, OMap.find? hamiltonians k =
      (calls.reverse.find? fun c => decide (SetBy M N c.1 k)).map Prod.snd := by
    intro k
    have : ∀ (l : List (Setter × H)), OMap.find? (l.reverse.foldl (callSetter M N) []) k =
        (l.find? fun c => decide (SetBy M N c.1 k)).map Prod.snd := by
      intro l
      induction l with
      | nil => rfl
      | cons c l ih =>
        rw [List.reverse_cons, List.foldl_append, List.foldl_cons, List.foldl_nil, C68_setter, List.find?_cons]
        by_cases h : SetBy M N c.1 k
        · simp [h]
        · rw [if_neg h, ih]
          simp [h]
    have := this calls.reverse
    rwa [List.reverse_reverse] at this
  have hsorted : OMap.Sorted hamiltonians := by
    have : ∀ (l : List (Setter × H)) (m : List (TermKey × H)), OMap.Sorted m →
        OMap.Sorted (l.foldl (callSetter M N) m) := by
      intro l
      induction l with
      | nil => exact fun _ h => h
      | cons c l ih => exact fun m h => ih _ (callSetter_sorted h c)
    exact this calls [] List.Pairwise.nil
  have hset : ∀ k ∈ OMap.keys hamiltonians, ∃ c, SetBy M N c k := by
    intro k hk
    rw [← OMap.find?_isSome, hfind, Option.isSome_map, List.find?_isSome] at hk
    obtain ⟨c, -, hc⟩ := hk
    exact ⟨c.1, by simpa using hc⟩
  have hterm : ∀ k ∈ OMap.keys hamiltonians, ∃ xs : List (LatticeSite M N), TermOf k xs ∧ k = xs.map sitePos := by
    intro k hk
    obtain ⟨c, hc⟩ := hset k hk
    cases c
    · obtain ⟨x, rfl⟩ := hc
      exact ⟨[x], Or.inl ⟨x, rfl, rfl⟩, rfl⟩
    · obtain ⟨x, y, h1, h2, rfl⟩ := hc
      exact ⟨[x, y], Or.inr ⟨x, y, Or.inr ⟨h1, congrArg Fin.val h2⟩, rfl, Or.inl rfl⟩, rfl⟩
    · obtain ⟨x, y, h1, h2, rfl⟩ := hc
      exact ⟨[x, y], Or.inr ⟨x, y, Or.inl ⟨congrArg Fin.val h1, h2⟩, rfl, Or.inl rfl⟩, rfl⟩
  have hrev : NoReversed (OMap.keys hamiltonians) := by
    have lt : ∀ p q : Pos, [p, q] ∈ OMap.keys hamiltonians → p.1 + p.2 < q.1 + q.2 := by
      intro p q hk
      obtain ⟨c, hc⟩ := hset _ hk
      cases c
      · obtain ⟨x, hx⟩ := hc; simp at hx
      all_goals
        obtain ⟨x, y, h1, h2, hx⟩ := hc
        simp only [List.cons.injEq, and_true] at hx
        obtain ⟨rfl, rfl⟩ := hx
        simp only [sitePos, h1, h2]
        omega
    intro p q h1 h2
    have := lt p q h1
    have := lt q p h2
    omega
  refine ⟨hfind, hsorted.nodup, hrev, hterm, ?_, ?_⟩
  · refine (C58_markov_supported M N _ hsorted.nodup).1.2 fun k hk => ?_
    obtain ⟨c, hc⟩ := hset k hk
    have hin : ∀ x : LatticeSite M N, Inside M N (sitePos x) := fun x => by
      have := x.1.2
      have := x.2.2
      simp [Inside, sitePos]
    cases c
    · obtain ⟨x, rfl⟩ := hc
      exact ⟨sitePos x, hin x, Or.inl rfl⟩
    · obtain ⟨x, y, h1, h2, rfl⟩ := hc
      refine ⟨sitePos x, hin x, Or.inr (Or.inr (Or.inr (Or.inl ?_)))⟩
      simp [sitePos, ← h1, ← h2]
    · obtain ⟨x, y, h1, h2, rfl⟩ := hc
      refine ⟨sitePos x, hin x, Or.inr (Or.inl ?_)⟩
      simp [sitePos, ← h1, ← h2]
  · exact (C58_groups_supported _).1.2 fun k hk => by
      obtain ⟨xs, h, -⟩ := hterm k hk
      exact h.supported

end

end TAT
