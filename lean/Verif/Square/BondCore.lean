import Verif.Square.BondAlgebra

/-!
# The decompositions in an update of a bond
-/

namespace TAT

set_option linter.unusedSectionVars false

variable {ν α β : Type} [LinearOrder ν]

/-- The two names of a bond. -/
def BondNames (a b : NetLabel) : Prop := (a = .left ∧ b = .right) ∨ (a = .up ∧ b = .below)

/-- The labels of a site. -/
def SiteLabel (g : NetLabel) : Prop := g = .left ∨ g = .right ∨ g = .up ∨ g = .below ∨ g = .phys

/-- Three edges. -/
def legs3 (a : NetLabel) (x : Option ℕ) (b : NetLabel) (y : Option ℕ) (c : NetLabel) (z : Option ℕ)
    (g : NetLabel) : Option ℕ := if g = a then x else if g = b then y else if g = c then z else none

/-- Three indices. -/
def pt3 (a : NetLabel) (x : ℕ) (b : NetLabel) (y : ℕ) (c : NetLabel) (z : ℕ) (g : NetLabel) : ℕ :=
  if g = a then x else if g = b then y else if g = c then z else 0

/-- Four edges. -/
def legs4 (a : NetLabel) (x : Option ℕ) (b : NetLabel) (y : Option ℕ) (c : NetLabel) (z : Option ℕ)
    (d : NetLabel) (w : Option ℕ) (g : NetLabel) : Option ℕ :=
  if g = a then x else if g = b then y else if g = c then z else if g = d then w else none

/-- Four indices. -/
def pt4 (a : NetLabel) (x : ℕ) (b : NetLabel) (y : ℕ) (c : NetLabel) (z : ℕ) (d : NetLabel) (w : ℕ)
    (g : NetLabel) : ℕ := if g = a then x else if g = b then y else if g = c then z else if g = d then w else 0

variable [Field α] [LinearOrder β] [Field β] {e : NetEnv ν α β}

theorem gval3 (he : NetEnvOk e) {t : Tensor ν NoSymmetry α} {a b c : NetLabel} {x y z : Option ℕ}
    (h : HasLegs (netName e.nm) t (legs3 a x b y c z)) (f : NetLabel → ℕ) :
    gval (netName e.nm) t f = gval (netName e.nm) t (pt3 a (f a) b (f b) c (f c)) := by
  refine gval_congr (netName_inj he.inj) h fun g hg => ?_
  unfold legs3 at hg
  unfold pt3
  split_ifs at hg ⊢ with h1 h2 h3
  · rw [h1]
  · rw [h2]
  · rw [h3]
  · exact absurd rfl hg

theorem gval4 (he : NetEnvOk e) {t : Tensor ν NoSymmetry α} {a b c d : NetLabel} {x y z w : Option ℕ}
    (h : HasLegs (netName e.nm) t (legs4 a x b y c z d w)) (f : NetLabel → ℕ) :
    gval (netName e.nm) t f = gval (netName e.nm) t (pt4 a (f a) b (f b) c (f c) d (f d)) := by
  refine gval_congr (netName_inj he.inj) h fun g hg => ?_
  unfold legs4 at hg
  unfold pt4
  split_ifs at hg ⊢ with h1 h2 h3 h4
  · rw [h1]
  · rw [h2]
  · rw [h3]
  · rw [h4]
  · exact absurd rfl hg

/-- The two tensors of a bond with the operator applied and taken apart again. -/
theorem bond_core (he : NetEnvOk e) {a b : NetLabel} (hab : BondNames a b) {d : ℕ}
    {t t' U : Tensor ν NoSymmetry α} {T T' : NetLabel → Option ℕ}
    (ht : HasLegs (netName e.nm) t T) (ht' : HasLegs (netName e.nm) t' T')
    (hT : ∀ g, ¬ SiteLabel g → T g = none) (hT' : ∀ g, ¬ SiteLabel g → T' g = none)
    (hp : T .phys = some d) (hp' : T' .phys = some d) (hb : T b = T' a)
    (hU : HasLegs (netName e.nm) U (legs4 .in0 (some d) .in1 (some d) .out0 (some d) .out1 (some d))) :
    ∃ q r q' r' x y u l v A B,
      qr e.lp e.qrEnv e.qrJunk e.qn t 'r' [e.nm "P", netName e.nm b] (netName e.nm b) (netName e.nm a) = .ok (q, r) ∧
      qr e.lp e.qrEnv e.qrJunk e.qn t' 'r' [e.nm "P", netName e.nm a] (netName e.nm a) (netName e.nm b) =
        .ok (q', r') ∧
      e.join (e.rename r [("P", "P0")]) (e.rename r' [("P", "P1")]) [(b.string, a.string)] = .ok x ∧
      e.join x U [("P0", "I0"), ("P1", "I1")] = .ok y ∧
      (∀ D, Keeps l.length D → svd e.gesvd e.svdEnv e.svdJunk e.sn y [netName e.nm a, e.nm "O0"] (netName e.nm b)
        (netName e.nm a) D = .ok (u, [(0, l)], v)) ∧
      e.join u q [(a.string, b.string)] = .ok A ∧
      e.join v q' [(b.string, a.string)] = .ok B ∧
      HasLegs (netName e.nm) (e.rename A [("O0", "P")]) (Function.update T b (some l.length)) ∧
      HasLegs (netName e.nm) (e.rename B [("O1", "P")]) (Function.update T' a (some l.length)) ∧
      (∀ f f' : NetLabel → ℕ,
        ∑ k ∈ Finset.range l.length, gval (netName e.nm) (e.rename A [("O0", "P")]) (Function.update f b k) *
          e.c (l.getD k 0) * gval (netName e.nm) (e.rename B [("O1", "P")]) (Function.update f' a k) =
        ∑ p0 ∈ Finset.range d, ∑ p1 ∈ Finset.range d,
          gval (netName e.nm) U (pt4 .in0 p0 .in1 p1 .out0 (f .phys) .out1 (f' .phys)) *
          ∑ m ∈ Finset.range ((T b).getD 1),
            gval (netName e.nm) t (Function.update (Function.update f b m) .phys p0) *
            gval (netName e.nm) t' (Function.update (Function.update f' a m) .phys p1)) ∧
      ∀ D, D ≠ 0 → D ≠ 2 ^ 64 - 1 → D < l.length → ∃ u' v' A' B',
        svd e.gesvd e.svdEnv e.svdJunk e.sn y [netName e.nm a, e.nm "O0"] (netName e.nm b) (netName e.nm a) D =
          .ok (u', [(0, l.take D)], v') ∧
        e.join u' q [(a.string, b.string)] = .ok A' ∧
        e.join v' q' [(b.string, a.string)] = .ok B' ∧
        HasLegs (netName e.nm) (e.rename A' [("O0", "P")]) (Function.update T b (some D)) ∧
        HasLegs (netName e.nm) (e.rename B' [("O1", "P")]) (Function.update T' a (some D)) ∧
        (∀ f k, k < D → gval (netName e.nm) (e.rename A' [("O0", "P")]) (Function.update f b k) =
          gval (netName e.nm) (e.rename A [("O0", "P")]) (Function.update f b k)) ∧
        ∀ f k, k < D → gval (netName e.nm) (e.rename B' [("O1", "P")]) (Function.update f a k) =
          gval (netName e.nm) (e.rename B [("O1", "P")]) (Function.update f a k) := by
  have ab : a ≠ b := by rcases hab with ⟨rfl, rfl⟩ | ⟨rfl, rfl⟩ <;> simp
  have sa : SiteLabel a := by rcases hab with ⟨rfl, rfl⟩ | ⟨rfl, rfl⟩ <;> simp [SiteLabel]
  have sb : SiteLabel b := by rcases hab with ⟨rfl, rfl⟩ | ⟨rfl, rfl⟩ <;> simp [SiteLabel]
  have pa : a ≠ .phys := by rcases hab with ⟨rfl, rfl⟩ | ⟨rfl, rfl⟩ <;> simp
  have pb : b ≠ .phys := by rcases hab with ⟨rfl, rfl⟩ | ⟨rfl, rfl⟩ <;> simp
  have ne : ∀ {g}, SiteLabel g → g ≠ .phys0 ∧ g ≠ .phys1 ∧ g ≠ .in0 ∧ g ≠ .in1 ∧ g ≠ .out0 ∧ g ≠ .out1 := by
    rintro g (rfl | rfl | rfl | rfl | rfl) <;> simp
  obtain ⟨a0, a1, ai0, ai1, ao0, ao1⟩ := ne sa
  obtain ⟨b0, b1, bi0, bi1, bo0, bo1⟩ := ne sb
  have hn : ∀ g, g = .phys0 ∨ g = .phys1 ∨ g = .in0 ∨ g = .in1 ∨ g = .out0 ∨ g = .out1 → T g = none ∧ T' g = none := by
    rintro g (rfl | rfl | rfl | rfl | rfl | rfl) <;> exact ⟨hT _ (by simp [SiteLabel]), hT' _ (by simp [SiteLabel])⟩
  -- the factors
  obtain ⟨q, r, Q, e1, hq, hr, eq1⟩ := net_qr he ht [.phys, b] (commonQ := b) (commonR := a)
    (fun h => absurd (by simp) h) (fun h => by simp [pa, ab] at h)
  obtain ⟨q', r', Q', e2, hq', hr', eq2⟩ := net_qr he ht' [.phys, a] (commonQ := a) (commonR := b)
    (fun h => absurd (by simp) h) (fun h => by simp [pb, ab.symm] at h)
  have hr : HasLegs (netName e.nm) r (legs3 a (some Q) b (T b) .phys (some d)) := hr.change fun g => by
    unfold legs3
    by_cases h1 : g = a
    · simp [h1]
    · by_cases h2 : g = b
      · subst h2; simp [h1]
      · by_cases h3 : g = .phys
        · subst h3; simp [h1, h2, hp]
        · simp [h1, h2, h3]
  have hr' : HasLegs (netName e.nm) r' (legs3 b (some Q') a (T b) .phys (some d)) := hr'.change fun g => by
    unfold legs3
    by_cases h1 : g = b
    · simp [h1]
    · by_cases h2 : g = a
      · subst h2; simp [h1, hb]
      · by_cases h3 : g = .phys
        · subst h3; simp [h1, h2, hp']
        · simp [h1, h2, h3]
  obtain ⟨hrn, vrn⟩ := net_rename he hr [(.phys, .phys0)] (by simp) (by simp)
    (by simp [legs3, a0.symm, b0.symm])
  obtain ⟨hrn', vrn'⟩ := net_rename he hr' [(.phys, .phys1)] (by simp) (by simp)
    (by simp [legs3, a1.symm, b1.symm])
  have hrn : HasLegs (netName e.nm) (e.rename r [("P", "P0")]) (legs3 a (some Q) b (T b) .phys0 (some d)) :=
    hrn.change fun g => by
      unfold legs3 renameLegs
      by_cases h3 : g = .phys0
      · subst h3; simp [a0.symm, b0.symm, pa.symm, pb.symm]
      · by_cases h4 : g = .phys
        · subst h4; simp [pa.symm, pb.symm]
        · simp [h3, h4, Ne.symm h3]
  have hrn' : HasLegs (netName e.nm) (e.rename r' [("P", "P1")]) (legs3 b (some Q') a (T b) .phys1 (some d)) :=
    hrn'.change fun g => by
      unfold legs3 renameLegs
      by_cases h3 : g = .phys1
      · subst h3; simp [a1.symm, b1.symm, pa.symm, pb.symm]
      · by_cases h4 : g = .phys
        · subst h4; simp [pa.symm, pb.symm]
        · simp [h3, h4, Ne.symm h3]
  -- the product of the inner factors
  obtain ⟨x, e3, hx, vx⟩ := net_join he hrn hrn' [(b, a)] (by simp) (by simp)
    (by simp [legs3, ab, ab.symm])
    (fun g h1 h2 => by
      simp only [List.map_cons, List.map_nil, List.mem_singleton] at h1 h2
      by_cases h3 : g = .phys0
      · subst h3; right; simp [legs3, h1, h2]
      · left; simp [legs3, h1, h2, h3])
  have hx : HasLegs (netName e.nm) x (legs4 a (some Q) b (some Q') .phys0 (some d) .phys1 (some d)) :=
    hx.change fun g => by
      unfold legs4 contractLegs legs3
      by_cases h1 : g = a
      · subst h1; simp [ab]
      · by_cases h2 : g = b
        · subst h2; simp [h1]
        · by_cases h3 : g = .phys0
          · subst h3; simp [h1, h2]
          · simp [h1, h2, h3]
  -- the operator
  obtain ⟨y, e4, hy, vy⟩ := net_join he hx hU [(.phys0, .in0), (.phys1, .in1)] (by simp) (by simp)
    (by simp [legs4, a0.symm, b0.symm, a1.symm, b1.symm])
    (fun g h1 h2 => by
      simp only [List.map_cons, List.map_nil, List.mem_cons, List.not_mem_nil, or_false, not_or] at h1 h2
      by_cases h3 : g = .out0
      · subst h3; left; simp [legs4, ao0.symm, bo0.symm]
      · by_cases h4 : g = .out1
        · subst h4; left; simp [legs4, ao1.symm, bo1.symm]
        · right; simp [legs4, h2, h3, h4])
  have hy : HasLegs (netName e.nm) y (legs4 a (some Q) b (some Q') .out0 (some d) .out1 (some d)) :=
    hy.change fun g => by
      unfold contractLegs legs4
      by_cases h1 : g = a
      · subst h1; simp [a0, a1]
      · by_cases h2 : g = b
        · subst h2; simp [b0, b1, h1]
        · by_cases h3 : g = .phys0
          · subst h3; simp [h1, h2]
          · by_cases h4 : g = .phys1
            · subst h4; simp [h1, h2]
            · by_cases h5 : g = .in0
              · subst h5; simp [h1, h2]
              · by_cases h6 : g = .in1
                · subst h6; simp [h1, h2]
                · simp [h1, h2, h3, h4, h5, h6]
  -- the singular values
  obtain ⟨u, l, v, e5, hu, hv, vs, vc⟩ := net_svd he hy [a, .out0] (commonU := b) (commonV := a)
    (fun h => by simp [ab.symm, bo0] at h) (fun h => absurd (by simp) h)
  have legsU : ∀ {u : Tensor ν NoSymmetry α} {n : ℕ}, HasLegs (netName e.nm) u (fun g => if g = b then some n else
      if g ∈ [a, .out0] then legs4 a (some Q) b (some Q') .out0 (some d) .out1 (some d) g else none) →
      HasLegs (netName e.nm) u (legs3 b (some n) a (some Q) .out0 (some d)) := fun hu => hu.change fun g => by
    unfold legs4 legs3
    by_cases h1 : g = b
    · simp [h1]
    · by_cases h2 : g = a
      · simp [h2, ab]
      · by_cases h3 : g = .out0
        · subst h3; simp [h1, h2]
        · simp [h1, h2, h3]
  have legsV : ∀ {v : Tensor ν NoSymmetry α} {n : ℕ}, HasLegs (netName e.nm) v (fun g => if g = a then some n else
      if g ∈ [a, .out0] then none else legs4 a (some Q) b (some Q') .out0 (some d) .out1 (some d) g) →
      HasLegs (netName e.nm) v (legs3 a (some n) b (some Q') .out1 (some d)) := fun hv => hv.change fun g => by
    unfold legs4 legs3
    by_cases h1 : g = a
    · simp [h1]
    · by_cases h2 : g = b
      · subst h2; simp [h1, bo0]
      · by_cases h3 : g = .out0
        · subst h3; simp [h1, h2]
        · simp [h1, h2, h3]
  -- the outer factors
  have outer : ∀ {u : Tensor ν NoSymmetry α} {n : ℕ}, HasLegs (netName e.nm) u (legs3 b (some n) a (some Q) .out0 (some d)) →
      ∃ A, e.join u q [(a.string, b.string)] = .ok A ∧
        HasLegs (netName e.nm) (e.rename A [("O0", "P")]) (Function.update T b (some n)) ∧
        ∀ (f : NetLabel → ℕ) k, gval (netName e.nm) (e.rename A [("O0", "P")]) (Function.update f b k) =
          ∑ i ∈ Finset.range Q, gval (netName e.nm) u (pt3 b k a i .out0 (f .phys)) *
            gval (netName e.nm) q (Function.update f b i) := by
    intro u n hu
    obtain ⟨A, e6, hA, vA⟩ := net_join he hu hq [(a, b)] (by simp) (by simp) (by simp [legs3, ab])
      (fun g h1 h2 => by
        simp only [List.map_cons, List.map_nil, List.mem_singleton] at h1 h2
        by_cases h3 : g = .out0
        · subst h3; right; simp [h2, (hn .out0 (by simp)).1]
        · left; simp [legs3, h1, h2, h3])
    have hA : HasLegs (netName e.nm) A (Function.update (Function.update (Function.update T b (some n)) .phys none)
        .out0 (some d)) := hA.change fun g => by
      unfold contractLegs legs3
      by_cases h3 : g = .out0
      · subst h3; simp [ao0.symm, bo0.symm]
      · rw [Function.update_of_ne h3]
        by_cases h4 : g = .phys
        · subst h4; simp [pa.symm, pb.symm]
        · rw [Function.update_of_ne h4]
          by_cases h1 : g = b
          · subst h1; simp [ab.symm]
          · rw [Function.update_of_ne h1]
            by_cases h2 : g = a
            · subst h2; simp [h1, h4]
            · simp [h1, h2, h3, h4]
    obtain ⟨hAr, vAr⟩ := net_rename he hA [(.out0, .phys)] (by simp) (by simp) (by simp)
    refine ⟨A, e6, hAr.change fun g => ?_, fun f k => ?_⟩
    · unfold renameLegs
      by_cases h1 : g = .phys
      · subst h1; simp [pb.symm, hp]
      · by_cases h2 : g = .out0
        · subst h2; simp [bo0.symm, (hn .out0 (by simp)).1]
        · simp [h1, h2, Ne.symm h1]
    · refine (vAr _).trans ?_
      rw [vA, sumPairs]
      have hm : (legs3 b (some n) a (some Q) .out0 (some d) a).getD 1 = Q := by simp [legs3, ab]
      show ∑ i ∈ Finset.range ((legs3 b (some n) a (some Q) .out0 (some d) a).getD 1), _ = _
      rw [hm]
      refine Finset.sum_congr rfl fun i _ => ?_
      rw [sumPairs]
      congr 1
      · rw [gval3 he hu]
        simp [renameTo, ab.symm, pb.symm, bo0.symm, ao0.symm, bo0]
      · refine gval_congr (netName_inj he.inj) hq fun g hg => ?_
        by_cases h1 : g = b
        · subst h1; simp
        · rw [Function.update_of_ne h1, Function.update_of_ne h1]
          by_cases h2 : g = .out0
          · subst h2
            simp [h1, (hn .out0 (by simp)).1] at hg
          · simp [renameTo, Ne.symm h2, h1]
  have outer' : ∀ {v : Tensor ν NoSymmetry α} {n : ℕ}, HasLegs (netName e.nm) v (legs3 a (some n) b (some Q') .out1 (some d)) →
      ∃ B, e.join v q' [(b.string, a.string)] = .ok B ∧
        HasLegs (netName e.nm) (e.rename B [("O1", "P")]) (Function.update T' a (some n)) ∧
        ∀ (f' : NetLabel → ℕ) k, gval (netName e.nm) (e.rename B [("O1", "P")]) (Function.update f' a k) =
          ∑ j ∈ Finset.range Q', gval (netName e.nm) v (pt3 a k b j .out1 (f' .phys)) *
            gval (netName e.nm) q' (Function.update f' a j) := by
    intro v n hv
    obtain ⟨B, e7, hB, vB⟩ := net_join he hv hq' [(b, a)] (by simp) (by simp) (by simp [legs3, ab.symm])
      (fun g h1 h2 => by
        simp only [List.map_cons, List.map_nil, List.mem_singleton] at h1 h2
        by_cases h3 : g = .out1
        · subst h3; right; simp [h2, (hn .out1 (by simp)).2]
        · left; simp [legs3, h1, h2, h3])
    have hB : HasLegs (netName e.nm) B (Function.update (Function.update (Function.update T' a (some n)) .phys none)
        .out1 (some d)) := hB.change fun g => by
      unfold contractLegs legs3
      by_cases h3 : g = .out1
      · subst h3; simp [ao1.symm, bo1.symm]
      · rw [Function.update_of_ne h3]
        by_cases h4 : g = .phys
        · subst h4; simp [pa.symm, pb.symm]
        · rw [Function.update_of_ne h4]
          by_cases h1 : g = a
          · subst h1; simp [ab]
          · rw [Function.update_of_ne h1]
            by_cases h2 : g = b
            · subst h2; simp [h1, h4]
            · simp [h1, h2, h3, h4]
    obtain ⟨hBr, vBr⟩ := net_rename he hB [(.out1, .phys)] (by simp) (by simp) (by simp)
    refine ⟨B, e7, hBr.change fun g => ?_, fun f' k => ?_⟩
    · unfold renameLegs
      by_cases h1 : g = .phys
      · subst h1; simp [pa.symm, hp']
      · by_cases h2 : g = .out1
        · subst h2; simp [ao1.symm, (hn .out1 (by simp)).2]
        · simp [h1, h2, Ne.symm h1]
    · refine (vBr _).trans ?_
      rw [vB, sumPairs]
      have hm : (legs3 a (some n) b (some Q') .out1 (some d) b).getD 1 = Q' := by simp [legs3, ab.symm]
      show ∑ i ∈ Finset.range ((legs3 a (some n) b (some Q') .out1 (some d) b).getD 1), _ = _
      rw [hm]
      refine Finset.sum_congr rfl fun i _ => ?_
      rw [sumPairs]
      congr 1
      · rw [gval3 he hv]
        simp [renameTo, ab, pa.symm, bo1.symm, ao1.symm, ao1]
      · refine gval_congr (netName_inj he.inj) hq' fun g hg => ?_
        by_cases h1 : g = a
        · subst h1; simp
        · rw [Function.update_of_ne h1, Function.update_of_ne h1]
          by_cases h2 : g = .out1
          · subst h2
            simp [h1, (hn .out1 (by simp)).2] at hg
          · simp [renameTo, Ne.symm h2, h1]
  have hu := legsU hu
  have hv := legsV hv
  obtain ⟨A, e6, hAr, vA⟩ := outer hu
  obtain ⟨B, e7, hBr, vB⟩ := outer' hv
  refine ⟨q, r, q', r', x, y, u, l, v, A, B, e1, e2, e3, e4, e5, e6, e7, hAr, hBr, fun f f' => ?_,
    fun D h0 h1 h2 => ?_⟩
  · have inner : ∀ i j, ∑ k ∈ Finset.range l.length, gval (netName e.nm) u (pt3 b k a i .out0 (f .phys)) *
        e.c (l.getD k 0) * gval (netName e.nm) v (pt3 a k b j .out1 (f' .phys)) =
        ∑ p0 ∈ Finset.range d, ∑ p1 ∈ Finset.range d,
          (∑ n ∈ Finset.range ((T b).getD 1), gval (netName e.nm) r (pt3 a i b n .phys p0) *
            gval (netName e.nm) r' (pt3 b j a n .phys p1)) *
          gval (netName e.nm) U (pt4 .in0 p0 .in1 p1 .out0 (f .phys) .out1 (f' .phys)) := by
      intro i j
      have h1 := vs (pt4 a i b j .out0 (f .phys) .out1 (f' .phys))
      rw [vy] at h1
      refine Eq.trans (Finset.sum_congr rfl fun k _ => ?_) (h1.symm.trans ?_)
      · rw [gval3 he hu (Function.update _ _ _), gval3 he hv (Function.update _ _ _)]
        simp [pt4, ab, ab.symm, ao0.symm, bo0.symm, ao1.symm, bo1.symm]
      · rw [sumPairs]
        have hd0 : (legs4 a (some Q) b (some Q') .phys0 (some d) .phys1 (some d) .phys0).getD 1 = d := by
          simp [legs4, a0.symm, b0.symm]
        have hd1 : (legs4 a (some Q) b (some Q') .phys0 (some d) .phys1 (some d) .phys1).getD 1 = d := by
          simp [legs4, a1.symm, b1.symm]
        show ∑ p0 ∈ Finset.range ((legs4 a (some Q) b (some Q') .phys0 (some d) .phys1 (some d) .phys0).getD 1), _ = _
        rw [hd0]
        refine Finset.sum_congr rfl fun p0 _ => ?_
        rw [sumPairs]
        show ∑ p1 ∈ Finset.range ((legs4 a (some Q) b (some Q') .phys0 (some d) .phys1 (some d) .phys1).getD 1), _ = _
        rw [hd1]
        refine Finset.sum_congr rfl fun p1 _ => ?_
        rw [sumPairs, vx, sumPairs]
        congr 1
        · have hm : (legs3 a (some Q) b (T b) .phys0 (some d) b).getD 1 = (T b).getD 1 := by
            simp [legs3, ab.symm]
          show ∑ n ∈ Finset.range ((legs3 a (some Q) b (T b) .phys0 (some d) b).getD 1), _ = _
          rw [hm]
          refine Finset.sum_congr rfl fun n _ => ?_
          rw [sumPairs]
          congr 1
          · refine (vrn _).trans ?_
            rw [gval3 he hr, show renameTo [(.phys, .phys0)] a = a by simp [renameTo, pa.symm],
              show renameTo [(.phys, .phys0)] b = b by simp [renameTo, pb.symm]]
            simp [renameTo, pt4, ab, a0, a1, b0.symm]
          · refine (vrn' _).trans ?_
            rw [gval3 he hr', show renameTo [(.phys, .phys1)] a = a by simp [renameTo, pa.symm],
              show renameTo [(.phys, .phys1)] b = b by simp [renameTo, pb.symm]]
            simp [renameTo, pt4, ab.symm, b0, b1, a1.symm]
        · rw [gval4 he hU]
          simp [pt4, ao0.symm, bo0.symm, ao1.symm, bo1.symm]
    simp only [vA, vB]
    rw [bond_algebra (u := fun i k s => gval (netName e.nm) u (pt3 b k a i .out0 s))
      (v := fun k j s => gval (netName e.nm) v (pt3 a k b j .out1 s)) (c := fun k => e.c (l.getD k 0))
      (q := fun i => gval (netName e.nm) q (Function.update f b i))
      (q' := fun j => gval (netName e.nm) q' (Function.update f' a j))
      (r := fun i n p => gval (netName e.nm) r (pt3 a i b n .phys p))
      (r' := fun n j p => gval (netName e.nm) r' (pt3 b j a n .phys p))
      (U := fun p0 p1 => gval (netName e.nm) U (pt4 .in0 p0 .in1 p1 .out0 (f .phys) .out1 (f' .phys))) inner]
    refine Finset.sum_congr rfl fun p0 _ => Finset.sum_congr rfl fun p1 _ => ?_
    congr 1
    refine Finset.sum_congr rfl fun n _ => ?_
    rw [eq1, eq2]
    congr 1
    · refine Finset.sum_congr rfl fun i _ => ?_
      congr 1
      · refine gval_congr (netName_inj he.inj) hq fun g hg => ?_
        by_cases h1 : g = b
        · subst h1; simp
        · by_cases h2 : g = .phys
          · subst h2; simp [h1] at hg
          · simp [h1, h2]
      · rw [gval3 he hr (Function.update _ _ _)]
        simp [ab.symm, pa, pb, pa.symm, pb.symm]
    · refine Finset.sum_congr rfl fun i _ => ?_
      congr 1
      · refine gval_congr (netName_inj he.inj) hq' fun g hg => ?_
        by_cases h1 : g = a
        · subst h1; simp
        · by_cases h2 : g = .phys
          · subst h2; simp [h1] at hg
          · simp [h1, h2]
      · rw [gval3 he hr' (Function.update _ _ _)]
        simp [ab, pa, pb, pa.symm, pb.symm]
  · obtain ⟨u', v', c1, c2, c3, c4, c5⟩ := vc D h0 h1 h2
    obtain ⟨A', a1, a2, a3⟩ := outer (legsU c2)
    obtain ⟨B', b1, b2, b3⟩ := outer' (legsV c3)
    refine ⟨u', v', A', B', c1, a1, b1, a2, b2, fun f k hk => ?_, fun f k hk => ?_⟩
    · rw [a3, vA]
      refine Finset.sum_congr rfl fun i _ => ?_
      rw [c4 _ (by simpa [pt3] using hk)]
    · rw [b3, vB]
      refine Finset.sum_congr rfl fun i _ => ?_
      rw [c5 _ (by simpa [pt3] using hk)]

end TAT
