import Verif.Square.AuxLegs

/-!
# `_two_line_to_one_line` keeps the value of the lines
-/

namespace TAT

set_option linter.unusedSectionVars false

/-- The four directions. -/
inductive Side
  | up | down | left | right
  deriving DecidableEq

instance : Fintype Side := ⟨{.up, .down, .left, .right}, fun x => by cases x <;> simp⟩

/-- The suffix of a name. -/
inductive Mark
  | plain | one | two | three | hole
  deriving DecidableEq

instance : Fintype Mark := ⟨{.plain, .one, .two, .three, .hole}, fun x => by cases x <;> simp⟩

/-- A direction with a suffix. -/
abbrev Leg := Side × Mark

/-- The string of a label, `s` has the strings of the directions. -/
def legString (s : Side → String) : Leg → String
  | (a, .plain) => s a
  | (a, .one) => s a ++ "1"
  | (a, .two) => s a ++ "2"
  | (a, .three) => s a ++ "3"
  | (a, .hole) => s a ++ "0"

/-- The strings of the directions in the lattice. -/
def sideString : Side → String
  | .up => "U"
  | .down => "D"
  | .left => "L"
  | .right => "R"

variable {ν α β : Type} [LinearOrder ν] [CommRing α] [LinearOrder β] [Zero β]

/-- The name of a label. -/
def legName (nm : String → ν) (s : Side → String) (g : Leg) : ν := nm (legString s g)

/-- What is assumed: matrix multiplication and the decompositions of LAPACK are right, the names used inside
of contraction and decomposition are different from each other and from those of the lattice, and different
strings have different names.  (In the program the names inside are `QR_1`, `QR_2`, `SVD_U`, `SVD_V`.) -/
structure AuxEnvOk (e : AuxEnv ν α β) : Prop where
  gemm : GemmOk e.ce.gemm
  names : [e.cn.c0, e.cn.c1, e.cn.c2].Nodup
  qr : LapackQrOk e.lp
  svd : GesvdOk e.c e.gesvd
  inj : Function.Injective e.nm
  qn : e.qn.x1 ≠ e.qn.x2
  x1 : ∀ g, e.qn.x1 ≠ legName e.nm sideString g
  x2 : ∀ g, e.qn.x2 ≠ legName e.nm sideString g
  sn : e.sn.u ≠ e.sn.v
  u : ∀ g, e.sn.u ≠ legName e.nm sideString g
  v : ∀ g, e.sn.v ≠ legName e.nm sideString g

/-- The strings of the directions are those of `sideString`, perhaps in other places. -/
structure Dirs (s : Side → String) : Prop where
  inj : Function.Injective (legString s)
  mem : ∀ g, ∃ g', legString s g = legString sideString g'

theorem Dirs.ne {s : Side → String} (hs : Dirs s) {nm : String → ν} {n : ν} (h : ∀ g, n ≠ legName nm sideString g)
    (g : Leg) : n ≠ legName nm s g := by
  obtain ⟨g', hg⟩ := hs.mem g
  rw [legName, hg]
  exact h g'

/-- The edges of a site. -/
def siteLegs (l r u d : Option ℕ) : Leg → Option ℕ
  | (.left, .plain) => l
  | (.right, .plain) => r
  | (.up, .plain) => u
  | (.down, .plain) => d
  | _ => none

/-- The indices of a site. -/
def siteIdx (l r u d : ℕ) : Leg → ℕ
  | (.left, .plain) => l
  | (.right, .plain) => r
  | (.up, .plain) => u
  | (.down, .plain) => d
  | _ => 0

/-- The edges of a site of the double line. -/
def doubleLegs (l1 l2 r1 r2 d : Option ℕ) : Leg → Option ℕ
  | (.left, .one) => l1
  | (.left, .two) => l2
  | (.right, .one) => r1
  | (.right, .two) => r2
  | (.down, .plain) => d
  | _ => none

/-- The indices of a site of the double line. -/
def doubleIdx (l1 l2 r1 r2 d : ℕ) : Leg → ℕ
  | (.left, .one) => l1
  | (.left, .two) => l2
  | (.right, .one) => r1
  | (.right, .two) => r2
  | (.down, .plain) => d
  | _ => 0

/-- The edges of a site of the double line after the decomposition of the site on its left. -/
def halfLegs (l r1 r2 d : Option ℕ) : Leg → Option ℕ
  | (.left, .plain) => l
  | (.right, .one) => r1
  | (.right, .two) => r2
  | (.down, .plain) => d
  | _ => none

def halfIdx (l r1 r2 d : ℕ) : Leg → ℕ
  | (.left, .plain) => l
  | (.right, .one) => r1
  | (.right, .two) => r2
  | (.down, .plain) => d
  | _ => 0

section

variable (e : AuxEnv ν α β) (s : Side → String)

/-- The element of a site. -/
noncomputable def siteVal (t : Tensor ν NoSymmetry α) (l r u d : ℕ) : α :=
  gval (legName e.nm s) t (siteIdx l r u d)

/-- The tensor of a site has edges of the given dimensions. -/
def SiteOn (t : Tensor ν NoSymmetry α) (l r u d : Option ℕ) : Prop :=
  HasLegs (legName e.nm s) t (siteLegs l r u d)

end

variable {e : AuxEnv ν α β} {s : Side → String}

theorem join_ok (he : AuxEnvOk e) (hs : Dirs s) {t1 t2 : Tensor ν NoSymmetry α}
    {T1 T2 : Leg → Option ℕ} (h1 : HasLegs (legName e.nm s) t1 T1) (h2 : HasLegs (legName e.nm s) t2 T2)
    (pairs : List (Leg × Leg)) (hp1 : (pairs.map Prod.fst).Nodup) (hp2 : (pairs.map Prod.snd).Nodup)
    (hm : ∀ c ∈ pairs, T1 c.1 = T2 c.2)
    (hd : ∀ g, g ∉ pairs.map Prod.fst → g ∉ pairs.map Prod.snd → T1 g = none ∨ T2 g = none) :
    ∃ r, e.join t1 t2 (pairs.map fun p => (legString s p.1, legString s p.2)) = .ok r ∧
      HasLegs (legName e.nm s) r (contractLegs T1 T2 pairs) ∧
      ∀ f, gval (legName e.nm s) r f = sumPairs (fun g => (T1 g).getD 1)
        (fun x y => gval (legName e.nm s) t1 x * gval (legName e.nm s) t2 y) pairs f f := by
  obtain ⟨r, h⟩ := label_contract (he.inj.comp hs.inj) e.ce he.gemm he.names h1 h2 pairs hp1 hp2 hm hd
  refine ⟨r, ?_, h.2⟩
  rw [AuxEnv.join, List.map_map]
  exact h.1

theorem rename_ok (he : AuxEnvOk e) (hs : Dirs s) {t : Tensor ν NoSymmetry α}
    {T : Leg → Option ℕ} (h : HasLegs (legName e.nm s) t T) (d : List (Leg × Leg))
    (h1 : (d.map Prod.fst).Nodup) (h2 : (d.map Prod.snd).Nodup) (hd : ∀ c ∈ d, T c.2 = none) :
    HasLegs (legName e.nm s) (e.rename t (d.map fun p => (legString s p.1, legString s p.2)))
        (renameLegs T d) ∧
      ∀ f, gval (legName e.nm s) (e.rename t (d.map fun p => (legString s p.1, legString s p.2))) f =
        gval (legName e.nm s) t fun g => f (renameTo d g) := by
  rw [AuxEnv.rename, List.map_map]
  exact label_rename (he.inj.comp hs.inj) h d h1 h2 hd

theorem HasLegs.cast {ι : Leg → ν} {t : Tensor ν NoSymmetry α} {T T' : Leg → Option ℕ} (h : HasLegs ι t T)
    (hT : ∀ g, T g = T' g) : HasLegs ι t T' := ⟨h.dense, h.only, fun g => (h.legs g).trans (hT g)⟩

/-- One site of the double line. -/
theorem double_site (he : AuxEnvOk e) (hs : Dirs s)
    {t1 t2 : Tensor ν NoSymmetry α} {l1 r1 l2 r2 z d : Option ℕ} (h1 : SiteOn e s t1 l1 r1 none z)
    (h2 : SiteOn e s t2 l2 r2 z d) :
    ∃ t, e.join (e.rename t1 [(s .left, s .left ++ "1"), (s .right, s .right ++ "1")])
        (e.rename t2 [(s .left, s .left ++ "2"), (s .right, s .right ++ "2")]) [(s .down, s .up)] = .ok t ∧
      HasLegs (legName e.nm s) t (doubleLegs l1 l2 r1 r2 d) ∧
      ∀ a1 a2 b1 b2 y, gval (legName e.nm s) t (doubleIdx a1 a2 b1 b2 y) =
        ∑ k ∈ Finset.range (z.getD 1), siteVal e s t1 a1 b1 0 k * siteVal e s t2 a2 b2 k y := by
  have hι : Function.Injective (legName e.nm s) := he.inj.comp hs.inj
  obtain ⟨a1, a2⟩ := rename_ok he hs h1 [((.left, .plain), (.left, .one)), ((.right, .plain), (.right, .one))]
    (by decide) (by decide) (by simp [siteLegs])
  obtain ⟨b1, b2⟩ := rename_ok he hs h2 [((.left, .plain), (.left, .two)), ((.right, .plain), (.right, .two))]
    (by decide) (by decide) (by simp [siteLegs])
  obtain ⟨t, c1, c2, c3⟩ := join_ok he hs a1 b1 [((.down, .plain), (.up, .plain))] (by decide) (by decide)
    (by simp [renameLegs, siteLegs]) (by
      rintro ⟨x, y⟩
      cases x <;> cases y <;> simp [renameLegs, siteLegs])
  refine ⟨t, c1, c2.cast ?_, fun x1 x2 y1 y2 y => ?_⟩
  · rintro ⟨x, y⟩
    cases x <;> cases y <;> simp [contractLegs, renameLegs, siteLegs, doubleLegs]
  · rw [c3]
    simp only [sumPairs]
    refine Finset.sum_congr (by simp [renameLegs, siteLegs]) fun k _ => ?_
    rw [a2, b2]
    congr 1
    · refine gval_congr hι h1 ?_
      rintro ⟨x, y⟩
      cases x <;> cases y <;> simp [siteLegs, renameTo, siteIdx, doubleIdx, Function.update_apply]
    · refine gval_congr hι h2 ?_
      rintro ⟨x, y⟩
      cases x <;> cases y <;> simp [siteLegs, renameTo, siteIdx, doubleIdx, Function.update_apply]

/-! ## Sums over lists of indices -/

/-- Put an index in front. -/
def consIdx (k : ℕ) (z : ℕ → ℕ) : ℕ → ℕ
  | 0 => k
  | j + 1 => z j

/-- All but the first index. -/
def tailIdx (z : ℕ → ℕ) (j : ℕ) : ℕ := z (j + 1)

theorem tailIdx_cons (k : ℕ) (z : ℕ → ℕ) : tailIdx (consIdx k z) = z := rfl

theorem consIdx_inj {k k' : ℕ} {z z' : ℕ → ℕ} (h : consIdx k z = consIdx k' z') : k = k' ∧ z = z' :=
  ⟨congrFun h 0, funext fun j => congrFun h (j + 1)⟩

/-- The indices below the given dimensions, zero after the last one. -/
def indices : List ℕ → Finset (ℕ → ℕ)
  | [] => {fun _ => 0}
  | d :: ds => (Finset.range d ×ˢ indices ds).map
      ⟨fun p => consIdx p.1 p.2, fun _ _ h => Prod.ext (consIdx_inj h).1 (consIdx_inj h).2⟩

theorem sum_indices_nil (F : (ℕ → ℕ) → α) : ∑ z ∈ indices [], F z = F fun _ => 0 := by
  rw [indices, Finset.sum_singleton]

theorem sum_indices_cons (d : ℕ) (ds : List ℕ) (F : (ℕ → ℕ) → α) :
    ∑ z ∈ indices (d :: ds), F z = ∑ k ∈ Finset.range d, ∑ z ∈ indices ds, F (consIdx k z) := by
  rw [indices, Finset.sum_map, Finset.sum_product]
  rfl

theorem sum_four {κ1 κ2 κ3 κ4 : Type} (A : Finset κ1) (B : Finset κ2) (C : Finset κ3) (D : Finset κ4)
    (f : κ1 → κ3 → α) (g : κ2 → κ3 → α) (F : κ1 → κ4 → α) (G : κ2 → κ4 → α) :
    ∑ a ∈ A, ∑ b ∈ B, (∑ k ∈ C, f a k * g b k) * ∑ z ∈ D, F a z * G b z =
      ∑ k ∈ C, ∑ z ∈ D, (∑ a ∈ A, f a k * F a z) * ∑ b ∈ B, g b k * G b z := by
  simp only [Finset.sum_mul_sum]
  calc _ = ∑ a ∈ A, ∑ k ∈ C, ∑ b ∈ B, ∑ z ∈ D, f a k * g b k * (F a z * G b z) :=
        Finset.sum_congr rfl fun a _ => Finset.sum_comm
    _ = ∑ k ∈ C, ∑ a ∈ A, ∑ b ∈ B, ∑ z ∈ D, f a k * g b k * (F a z * G b z) := Finset.sum_comm
    _ = ∑ k ∈ C, ∑ a ∈ A, ∑ z ∈ D, ∑ b ∈ B, f a k * g b k * (F a z * G b z) :=
        Finset.sum_congr rfl fun k _ => Finset.sum_congr rfl fun a _ => Finset.sum_comm
    _ = ∑ k ∈ C, ∑ z ∈ D, ∑ a ∈ A, ∑ b ∈ B, f a k * g b k * (F a z * G b z) :=
        Finset.sum_congr rfl fun k _ => Finset.sum_comm
    _ = _ := by
        refine Finset.sum_congr rfl fun k _ => Finset.sum_congr rfl fun z _ => Finset.sum_congr rfl fun a _ =>
          Finset.sum_congr rfl fun b _ => ?_
        ring

theorem sum_three {κ1 κ2 κ3 : Type} (A : Finset κ1) (B : Finset κ2) (C : Finset κ3)
    (Q : κ1 → α) (T : κ2 → κ3 → α) (R : κ1 → κ2 → α) (D : κ3 → α) :
    ∑ k ∈ A, Q k * ∑ c ∈ C, (∑ b ∈ B, T b c * R k b) * D c =
      ∑ b ∈ B, (∑ k ∈ A, Q k * R k b) * ∑ c ∈ C, T b c * D c := by
  simp only [Finset.sum_mul_sum]
  simp only [Finset.sum_mul, Finset.mul_sum]
  calc _ = ∑ k ∈ A, ∑ b ∈ B, ∑ c ∈ C, Q k * (T b c * R k b * D c) :=
        Finset.sum_congr rfl fun a _ => Finset.sum_comm
    _ = ∑ b ∈ B, ∑ k ∈ A, ∑ c ∈ C, Q k * (T b c * R k b * D c) := Finset.sum_comm
    _ = _ := by
        refine Finset.sum_congr rfl fun k _ => Finset.sum_congr rfl fun z _ => Finset.sum_congr rfl fun a _ => ?_
        ring

theorem sum_three_pairs {κ κ1 κ2 κ3 κ4 : Type} (A : Finset κ) (B1 : Finset κ1) (B2 : Finset κ2)
    (C1 : Finset κ3) (C2 : Finset κ4) (Q : κ → α) (T : κ1 → κ2 → κ3 → κ4 → α) (R : κ → κ1 → κ2 → α)
    (D : κ3 → κ4 → α) :
    ∑ k ∈ A, Q k * ∑ c1 ∈ C1, ∑ c2 ∈ C2, (∑ b1 ∈ B1, ∑ b2 ∈ B2, T b1 b2 c1 c2 * R k b1 b2) * D c1 c2 =
      ∑ b1 ∈ B1, ∑ b2 ∈ B2, (∑ k ∈ A, Q k * R k b1 b2) * ∑ c1 ∈ C1, ∑ c2 ∈ C2, T b1 b2 c1 c2 * D c1 c2 := by
  have := sum_three A (B1 ×ˢ B2) (C1 ×ˢ C2) Q (fun b c => T b.1 b.2 c.1 c.2) (fun k b => R k b.1 b.2)
    (fun c => D c.1 c.2)
  simpa only [Finset.sum_product] using this

/-! ## Rows -/

/-- A list of sites, neighbours joined by edges of equal dimensions.  `a` is the edge on the left of the
first, `us` and `ds` those above and below. -/
inductive IsRow (e : AuxEnv ν α β) (s : Side → String) :
    List (Tensor ν NoSymmetry α) → Option ℕ → List (Option ℕ) → List (Option ℕ) → Prop
  | nil : IsRow e s [] none [] []
  | cons {t : Tensor ν NoSymmetry α} {a b u d : Option ℕ} {l : List (Tensor ν NoSymmetry α)}
      {us ds : List (Option ℕ)} (h : SiteOn e s t a b u d) (hl : IsRow e s l b us ds) :
      IsRow e s (t :: l) a (u :: us) (d :: ds)

/-- The number of values of an index. -/
def bondDim (o : Option ℕ) : ℕ := o.getD 1

/-- The product of the sites, summed over the edges between them, with given index on the left of the first
and given indices above and below. -/
noncomputable def rowVal (e : AuxEnv ν α β) (s : Side → String) :
    List (Tensor ν NoSymmetry α) → ℕ → (ℕ → ℕ) → (ℕ → ℕ) → α
  | [], _, _, _ => 1
  | t :: l, a, z, y => ∑ b ∈ Finset.range (bondDim (gleg (legName e.nm s) t (.right, .plain))),
      siteVal e s t a b (z 0) (y 0) * rowVal e s l b (tailIdx z) (tailIdx y)

theorem SiteOn.right {t : Tensor ν NoSymmetry α} {l r u d : Option ℕ} (h : SiteOn e s t l r u d) :
    gleg (legName e.nm s) t (.right, .plain) = r := h.legs _

/-- The double line. -/
inductive IsDouble (e : AuxEnv ν α β) (s : Side → String) :
    List (Tensor ν NoSymmetry α) → Option ℕ → Option ℕ → List (Option ℕ) → Prop
  | nil : IsDouble e s [] none none []
  | cons {t : Tensor ν NoSymmetry α} {a1 a2 b1 b2 d : Option ℕ} {l : List (Tensor ν NoSymmetry α)}
      {ds : List (Option ℕ)} (h : HasLegs (legName e.nm s) t (doubleLegs a1 a2 b1 b2 d))
      (hl : IsDouble e s l b1 b2 ds) : IsDouble e s (t :: l) a1 a2 (d :: ds)

noncomputable def doubleVal (e : AuxEnv ν α β) (s : Side → String) :
    List (Tensor ν NoSymmetry α) → ℕ → ℕ → (ℕ → ℕ) → α
  | [], _, _, _ => 1
  | t :: l, a1, a2, y => ∑ b1 ∈ Finset.range (bondDim (gleg (legName e.nm s) t (.right, .one))),
      ∑ b2 ∈ Finset.range (bondDim (gleg (legName e.nm s) t (.right, .two))),
      gval (legName e.nm s) t (doubleIdx a1 a2 b1 b2 (y 0)) * doubleVal e s l b1 b2 (tailIdx y)

theorem doubleLine_ok (he : AuxEnvOk e) (hs : Dirs s)
    {l1 l2 : List (Tensor ν NoSymmetry α)} {a1 a2 : Option ℕ} {us zs ds : List (Option ℕ)}
    (h1 : IsRow e s l1 a1 us zs) (hu : ∀ u ∈ us, u = none) (h2 : IsRow e s l2 a2 zs ds) :
    ∃ l, doubleLine e (s .up) (s .down) (s .left) (s .right) l1 l2 = .ok l ∧ IsDouble e s l a1 a2 ds ∧
      l.length = l1.length ∧
      ∀ x1 x2 y, doubleVal e s l x1 x2 y = ∑ z ∈ indices (zs.map bondDim),
        rowVal e s l1 x1 (fun _ => 0) z * rowVal e s l2 x2 z y := by
  induction h1 generalizing l2 a2 ds with
  | nil =>
    cases h2
    refine ⟨[], rfl, .nil, rfl, fun x1 x2 y => ?_⟩
    rw [List.map_nil, sum_indices_nil]
    simp [doubleVal, rowVal]
  | @cons t1 a b u z l1 us zs h hl ih =>
    cases h2 with
    | @cons t2 _ b2 _ d l2 _ ds' h' hl' =>
      obtain rfl := hu u (by simp)
      obtain ⟨l, c1, c2, c3, c4⟩ := ih (fun u hu' => hu u (by simp [hu'])) hl'
      obtain ⟨t, d1, d2, d3⟩ := double_site he hs h h'
      refine ⟨t :: l, ?_, .cons d2 c2, by simp [c3], fun x1 x2 y => ?_⟩
      · rw [doubleLine, d1, Outcome.bind, c1, Outcome.bind]
      · rw [List.map_cons, sum_indices_cons, doubleVal]
        have e1 : gleg (legName e.nm s) t (.right, .one) = b := d2.legs _
        have e2 : gleg (legName e.nm s) t (.right, .two) = b2 := d2.legs _
        rw [e1, e2]
        simp only [rowVal, h.right, h'.right, tailIdx_cons, d3, c4]
        exact sum_four _ _ _ _ _ _ _ _

/-- A row without edges above. -/
def IsLine (e : AuxEnv ν α β) (s : Side → String) (l : List (Tensor ν NoSymmetry α)) (a : Option ℕ)
    (ds : List (Option ℕ)) : Prop := IsRow e s l a (ds.map fun _ => none) ds

/-- One step of the sweep of QR decompositions. -/
theorem qr_site (he : AuxEnvOk e) (hs : Dirs s)
    {t t' : Tensor ν NoSymmetry α} {a b1 b2 c1 c2 d d' : Option ℕ}
    (h : HasLegs (legName e.nm s) t (halfLegs a b1 b2 d))
    (h' : HasLegs (legName e.nm s) t' (doubleLegs b1 b2 c1 c2 d')) :
    ∃ q r t'' K, ∃ R : ℕ → ℕ → ℕ → α, qr e.lp e.qrEnv e.qrJunk e.qn t 'r' [e.nm (s .right ++ "1"), e.nm (s .right ++ "2")]
        (e.nm (s .right)) (e.nm (s .left)) = .ok (q, r) ∧
      e.join t' r [(s .left ++ "1", s .right ++ "1"), (s .left ++ "2", s .right ++ "2")] = .ok t'' ∧
      SiteOn e s q a (some K) none d ∧
      HasLegs (legName e.nm s) t'' (halfLegs (some K) c1 c2 d') ∧
      (∀ x y1 y2 y, gval (legName e.nm s) t (halfIdx x y1 y2 y) =
        ∑ k ∈ Finset.range K, siteVal e s q x k 0 y * R k y1 y2) ∧
      ∀ k z1 z2 z, gval (legName e.nm s) t'' (halfIdx k z1 z2 z) =
        ∑ y1 ∈ Finset.range (bondDim b1), ∑ y2 ∈ Finset.range (bondDim b2),
          gval (legName e.nm s) t' (doubleIdx y1 y2 z1 z2 z) * R k y1 y2 := by
  have hι : Function.Injective (legName e.nm s) := he.inj.comp hs.inj
  obtain ⟨q, r, K, f1, f2, f3, f4⟩ := label_qr hι e.ce he.gemm he.names he.qr e.qrEnv e.qrJunk he.qn
    (hs.ne he.x1) (hs.ne he.x2) h [(.right, .one), (.right, .two)] (commonQ := (.right, .plain))
    (commonR := (.left, .plain)) (by simp [halfLegs]) (by simp)
  obtain ⟨t'', j1, j2, j3⟩ := join_ok he hs h' f3 [((.left, .one), (.right, .one)), ((.left, .two), (.right, .two))]
    (by decide) (by decide) (by simp [doubleLegs, halfLegs]) (by
      rintro ⟨x, y⟩
      cases x <;> cases y <;> simp [doubleLegs, halfLegs])
  refine ⟨q, r, t'', K, fun k y1 y2 => gval (legName e.nm s) r (halfIdx k y1 y2 0), f1, j1, f2.cast ?_,
    j2.cast ?_, fun x y1 y2 y => ?_, fun k z1 z2 z => ?_⟩
  · rintro ⟨x, y⟩
    cases x <;> cases y <;> simp [siteLegs, halfLegs]
  · rintro ⟨x, y⟩
    cases x <;> cases y <;> simp [contractLegs, doubleLegs, halfLegs]
  · rw [f4]
    refine Finset.sum_congr rfl fun k _ => ?_
    congr 1
    · refine gval_congr hι f2 ?_
      rintro ⟨x, y⟩
      cases x <;> cases y <;> simp [halfLegs, siteIdx, halfIdx, Function.update_apply]
    · refine gval_congr hι f3 ?_
      rintro ⟨x, y⟩
      cases x <;> cases y <;> simp [halfLegs, halfIdx, Function.update_apply]
  · rw [j3]
    simp only [sumPairs]
    refine Finset.sum_congr (by simp [doubleLegs, bondDim]) fun y1 _ =>
      Finset.sum_congr (by simp [doubleLegs, bondDim]) fun y2 _ => ?_
    congr 1
    · refine gval_congr hι h' ?_
      rintro ⟨x, y⟩
      cases x <;> cases y <;> simp [doubleLegs, doubleIdx, halfIdx, Function.update_apply]
    · refine gval_congr hι f3 ?_
      rintro ⟨x, y⟩
      cases x <;> cases y <;> simp [halfLegs, halfIdx, Function.update_apply]

theorem qrSweep_ok (he : AuxEnvOk e) (hs : Dirs s) (n : ℕ)
    {t : Tensor ν NoSymmetry α} {l : List (Tensor ν NoSymmetry α)} {a b1 b2 d : Option ℕ}
    {ds : List (Option ℕ)} (h : HasLegs (legName e.nm s) t (halfLegs a b1 b2 d))
    (hl : IsDouble e s l b1 b2 ds) (hn : l.length ≤ n) :
    ∃ r, qrSweep e (s .left) (s .right) n (t :: l) = .ok r ∧ IsLine e s r a (d :: ds) ∧
      ∀ x y, rowVal e s r x (fun _ => 0) y =
        ∑ y1 ∈ Finset.range (bondDim b1), ∑ y2 ∈ Finset.range (bondDim b2),
          gval (legName e.nm s) t (halfIdx x y1 y2 (y 0)) * doubleVal e s l y1 y2 (tailIdx y) := by
  have hι : Function.Injective (legName e.nm s) := he.inj.comp hs.inj
  induction hl generalizing n t a d with
  | nil =>
    have h1 : SiteOn e s t a none none d := h.cast (by
      rintro ⟨x, y⟩
      cases x <;> cases y <;> simp [siteLegs, halfLegs])
    refine ⟨[t], by cases n <;> rfl, .cons h1 .nil, fun x y => ?_⟩
    simp only [rowVal, doubleVal, h1.right, bondDim, Option.getD_none, Finset.sum_range_one, mul_one]
    refine gval_congr hι h ?_
    rintro ⟨x, y⟩
    cases x <;> cases y <;> simp [halfLegs, halfIdx, siteIdx]
  | @cons t' _ _ c1 c2 d' l ds' h' hl' ih =>
    cases n with
    | zero => simp at hn
    | succ n =>
      obtain ⟨q, r, t'', K, R, f1, f2, f3, f4, f5, f6⟩ := qr_site he hs h h'
      obtain ⟨r', g1, g2, g3⟩ := ih n f4 (by simpa using hn)
      refine ⟨q :: r', ?_, .cons f3 g2, fun x y => ?_⟩
      · rw [qrSweep, f1, Outcome.bind]
        dsimp only
        rw [f2, Outcome.bind, g1, Outcome.bind]
      · have e1 : gleg (legName e.nm s) t' (.right, .one) = c1 := h'.legs _
        have e2 : gleg (legName e.nm s) t' (.right, .two) = c2 := h'.legs _
        simp only [rowVal, doubleVal, f3.right, e1, e2]
        have hg := fun k => g3 k (tailIdx y)
        simp only [f6] at hg
        have h0 : tailIdx (fun _ : ℕ => 0) = fun _ => 0 := rfl
        simp only [h0, hg, f5]
        exact sum_three_pairs _ _ _ _ _ _ _ _ _

/-- The edges of two neighbouring sites contracted. -/
def pairLegs (l r u u' d d' : Option ℕ) : Leg → Option ℕ
  | (.left, .plain) => l
  | (.right, .plain) => r
  | (.up, .one) => u
  | (.up, .two) => u'
  | (.down, .one) => d
  | (.down, .two) => d'
  | _ => none

def pairIdx (l r u u' d d' : ℕ) : Leg → ℕ
  | (.left, .plain) => l
  | (.right, .plain) => r
  | (.up, .one) => u
  | (.up, .two) => u'
  | (.down, .one) => d
  | (.down, .two) => d'
  | _ => 0

/-- One step of the sweep of singular value decompositions. -/
theorem svd_site (he : AuxEnvOk e) (hs : Dirs s)
    {t t' : Tensor ν NoSymmetry α} {a b c u u' d d' : Option ℕ} (h : SiteOn e s t a b u d)
    (h' : SiteOn e s t' b c u' d') :
    ∃ x w v K, e.join (e.rename t [(s .up, s .up ++ "1"), (s .down, s .down ++ "1")])
        (e.rename t' [(s .up, s .up ++ "2"), (s .down, s .down ++ "2")]) [(s .right, s .left)] = .ok x ∧
      (∀ cut, Keeps K cut → ∃ U S,
        svd e.gesvd e.svdEnv e.svdJunk e.sn x [e.nm (s .left), e.nm (s .up ++ "1"), e.nm (s .down ++ "1")]
          (e.nm (s .right)) (e.nm (s .left)) cut = .ok (U, S, v) ∧
        multiple e.junk (fun x y => x * e.c y) e.inv U S (e.nm (s .right)) 'u' false = .ok w) ∧
      SiteOn e s (e.rename w [(s .up ++ "1", s .up), (s .down ++ "1", s .down)]) a (some K) u d ∧
      SiteOn e s (e.rename v [(s .up ++ "2", s .up), (s .down ++ "2", s .down)]) (some K) c u' d' ∧
      ∀ i j z z' y y', ∑ k ∈ Finset.range (bondDim b), siteVal e s t i k z y * siteVal e s t' k j z' y' =
        ∑ k ∈ Finset.range K,
          siteVal e s (e.rename w [(s .up ++ "1", s .up), (s .down ++ "1", s .down)]) i k z y *
          siteVal e s (e.rename v [(s .up ++ "2", s .up), (s .down ++ "2", s .down)]) k j z' y' := by
  have hι : Function.Injective (legName e.nm s) := he.inj.comp hs.inj
  obtain ⟨a1, a2⟩ := rename_ok he hs h [((.up, .plain), (.up, .one)), ((.down, .plain), (.down, .one))]
    (by decide) (by decide) (by simp [siteLegs])
  obtain ⟨b1, b2⟩ := rename_ok he hs h' [((.up, .plain), (.up, .two)), ((.down, .plain), (.down, .two))]
    (by decide) (by decide) (by simp [siteLegs])
  obtain ⟨x, c1, c2, c3⟩ := join_ok he hs a1 b1 [((.right, .plain), (.left, .plain))] (by decide) (by decide)
    (by simp [renameLegs, siteLegs]) (by
      rintro ⟨x, y⟩
      cases x <;> cases y <;> simp [renameLegs, siteLegs])
  have c2 : HasLegs (legName e.nm s) x (pairLegs a c u u' d d') := c2.cast (by
    rintro ⟨x, y⟩
    cases x <;> cases y <;> simp [contractLegs, renameLegs, siteLegs, pairLegs])
  obtain ⟨K, w, v, g1, g2, g3, g4⟩ := label_svd hι e.ce he.gemm he.names he.svd e.svdEnv e.svdJunk e.junk
    e.inv he.sn (hs.ne he.u) (hs.ne he.v) c2 [(.left, .plain), (.up, .one), (.down, .one)]
    (commonU := (.right, .plain)) (commonV := (.left, .plain)) (by simp) (by simp)
  obtain ⟨w1, w2⟩ := rename_ok he hs g2 [((.up, .one), (.up, .plain)), ((.down, .one), (.down, .plain))]
    (by decide) (by decide) (by simp)
  obtain ⟨v1, v2⟩ := rename_ok he hs g3 [((.up, .two), (.up, .plain)), ((.down, .two), (.down, .plain))]
    (by decide) (by decide) (by simp [pairLegs])
  refine ⟨x, w, v, K, c1, g1, w1.cast ?_, v1.cast ?_, fun i j z z' y y' => ?_⟩
  · rintro ⟨x, y⟩
    cases x <;> cases y <;> simp [renameLegs, siteLegs, pairLegs]
  · rintro ⟨x, y⟩
    cases x <;> cases y <;> simp [renameLegs, siteLegs, pairLegs]
  · have q1 := c3 (pairIdx i j z z' y y')
    rw [g4] at q1
    simp only [sumPairs, a2, b2] at q1
    refine Eq.trans ?_ (q1.symm.trans ?_)
    · refine Finset.sum_congr (by simp [renameLegs, siteLegs, bondDim]) fun k _ => ?_
      congr 1
      · refine gval_congr hι h ?_
        rintro ⟨x, y⟩
        cases x <;> cases y <;> simp [siteLegs, renameTo, siteIdx, pairIdx, Function.update_apply]
      · refine gval_congr hι h' ?_
        rintro ⟨x, y⟩
        cases x <;> cases y <;> simp [siteLegs, renameTo, siteIdx, pairIdx, Function.update_apply]
    · refine Finset.sum_congr rfl fun k _ => ?_
      congr 1
      · refine Eq.trans ?_ (w2 _).symm
        refine gval_congr hι g2 ?_
        rintro ⟨x, y⟩
        cases x <;> cases y <;> simp [renameTo, siteIdx, pairIdx, Function.update_apply]
      · refine Eq.trans ?_ (v2 _).symm
        refine gval_congr hι g3 ?_
        rintro ⟨x, y⟩
        cases x <;> cases y <;> simp [renameTo, siteIdx, pairIdx, pairLegs, Function.update_apply]

theorem Keeps.le {K B cut : ℕ} (h : Keeps B cut) (hK : K ≤ B) : Keeps K cut :=
  h.imp (fun h => hK.trans h) id

theorem svdSweep_ok (he : AuxEnvOk e) (hs : Dirs s)
    {l : List (Tensor ν NoSymmetry α)} {a : Option ℕ} {us ds : List (Option ℕ)} (hl : IsRow e s l a us ds) :
    ∃ B r, (∀ cut, Keeps B cut → svdSweep e (s .up) (s .down) (s .left) (s .right) cut l = .ok r) ∧
      IsRow e s r a us ds ∧ ∀ x z y, rowVal e s r x z y = rowVal e s l x z y := by
  induction hl with
  | nil => exact ⟨0, [], fun _ _ => rfl, .nil, fun _ _ _ => rfl⟩
  | @cons t a b u d l us ds h hl ih =>
    obtain ⟨B, r, g1, g2, g3⟩ := ih
    cases g2 with
    | nil =>
      refine ⟨B, [t], fun cut hc => ?_, .cons h .nil, fun x z y => ?_⟩
      · rw [svdSweep, g1 cut hc, Outcome.bind]
      · simp only [rowVal, ← g3]
    | @cons t' _ c u' d' l' us' ds' h' hl' =>
      obtain ⟨x, w, v, K, f1, f2, f3, f4, f5⟩ := svd_site he hs h h'
      refine ⟨max B K, _, fun cut hc => ?_, .cons f3 (.cons f4 hl'), fun x z y => ?_⟩
      · obtain ⟨U, S, k1, k2⟩ := f2 cut (hc.le (le_max_right _ _))
        rw [svdSweep, g1 cut (hc.le (le_max_left _ _)), Outcome.bind]
        dsimp only
        rw [f1, Outcome.bind, k1, Outcome.bind]
        dsimp only
        rw [k2, Outcome.bind]
      · rw [rowVal, rowVal, f3.right, h.right]
        simp only [← g3]
        simp only [rowVal, f4.right, h'.right]
        simp only [Finset.mul_sum]
        rw [Finset.sum_comm, Finset.sum_comm (s := Finset.range (bondDim b))]
        refine Finset.sum_congr rfl fun k _ => ?_
        simp only [← mul_assoc]
        rw [← Finset.sum_mul, ← Finset.sum_mul, f5]
        rfl

theorem IsRow.length {l : List (Tensor ν NoSymmetry α)} {a : Option ℕ} {us ds : List (Option ℕ)}
    (h : IsRow e s l a us ds) : us.length = l.length ∧ ds.length = l.length := by
  induction h with
  | nil => exact ⟨rfl, rfl⟩
  | cons _ _ ih => simp [ih.1, ih.2]

/-- Without truncation `_two_line_to_one_line` gives a line with the same value. -/
theorem twoLine_ok (he : AuxEnvOk e) (hs : Dirs s)
    {l1 l2 : List (Tensor ν NoSymmetry α)} {zs ds : List (Option ℕ)} (h0 : zs ≠ [])
    (h1 : IsLine e s l1 none zs) (h2 : IsRow e s l2 none zs ds) :
    ∃ B r, (∀ cut, Keeps B cut →
        twoLineToOneLine e (s .up) (s .down) (s .left) (s .right) l1 l2 cut = .ok r) ∧
      IsLine e s r none ds ∧
      ∀ y, rowVal e s r 0 (fun _ => 0) y = ∑ z ∈ indices (zs.map bondDim),
        rowVal e s l1 0 (fun _ => 0) z * rowVal e s l2 0 z y := by
  have hι : Function.Injective (legName e.nm s) := he.inj.comp hs.inj
  obtain ⟨l, d1, d2, d3, d4⟩ := doubleLine_ok he hs h1 (by simp) h2
  have n1 : zs.length = l1.length := h1.length.2
  have n2 : zs.length = l2.length := h2.length.1
  have n0 : l1.length ≠ 0 := by rw [← n1]; simpa using h0
  cases d2 with
  | nil => exact absurd d3.symm n0
  | @cons t _ _ b1 b2 d l ds ht hl =>
    have ht' : HasLegs (legName e.nm s) t (halfLegs none b1 b2 d) := ht.cast (by
      rintro ⟨x, y⟩
      cases x <;> cases y <;> simp [doubleLegs, halfLegs])
    obtain ⟨q, q1, q2, q3⟩ := qrSweep_ok he hs (t :: l).length ht' hl (by simp)
    obtain ⟨B, r, r1, r2, r3⟩ := svdSweep_ok he hs q2
    refine ⟨B, r, fun cut hc => ?_, r2, fun y => ?_⟩
    · rw [twoLineToOneLine, if_neg (by omega), if_neg n0, d1, Outcome.bind, q1, Outcome.bind, r1 cut hc]
    · rw [← d4, r3, q3, doubleVal]
      have e1 : gleg (legName e.nm s) t (.right, .one) = b1 := ht.legs _
      have e2 : gleg (legName e.nm s) t (.right, .two) = b2 := ht.legs _
      rw [e1, e2]
      refine Finset.sum_congr rfl fun y1 _ => Finset.sum_congr rfl fun y2 _ => ?_
      congr 1
      refine gval_congr hι ht ?_
      rintro ⟨x, y⟩
      cases x <;> cases y <;> simp [doubleLegs, doubleIdx, halfIdx]

end TAT
