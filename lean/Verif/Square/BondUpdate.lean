import Verif.Square.BondCore
import Mathlib.Tactic.FieldSimp

/-!
# An update of a bond
-/

namespace TAT

set_option linter.unusedSectionVars false

variable {ν α β : Type} [LinearOrder ν] [Field α] [LinearOrder β] [Field β] {e : NetEnv ν α β}

/-! ## The singular values -/

theorem foldl_max_ge [IsStrictOrderedRing β] (l : List β) (m : β) :
    m ≤ l.foldl (fun m y => if m < |y| then |y| else m) m ∧
      ∀ y ∈ l, |y| ≤ l.foldl (fun m y => if m < |y| then |y| else m) m := by
  induction l generalizing m with
  | nil => simp
  | cons x l ih =>
    rw [List.foldl_cons]
    obtain ⟨h1, h2⟩ := ih (if m < |x| then |x| else m)
    have h3 : m ≤ (if m < |x| then |x| else m) ∧ |x| ≤ (if m < |x| then |x| else m) := by
      split_ifs with h
      · exact ⟨le_of_lt h, le_refl _⟩
      · exact ⟨le_refl _, not_lt.1 h⟩
    refine ⟨h3.1.trans h1, fun y hy => ?_⟩
    rcases List.mem_cons.1 hy with rfl | hy
    · exact h3.2.trans h1
    · exact h2 y hy

/-- `s /= s.norm<-1>()` -/
theorem singularNormalised_ok [IsStrictOrderedRing β] (he : NetEnvOk e) (l : List β) :
    ((∀ k, e.c (l.getD k 0) = 0) ∧ singularNormalised [((0 : NoSymmetry), l)] = .error "division by zero") ∨
    ∃ l' a, singularNormalised [((0 : NoSymmetry), l)] = .ok [(0, l')] ∧ l'.length = l.length ∧ a ≠ 0 ∧
      ∀ k, e.c (l'.getD k 0) = e.c (l.getD k 0) * a := by
  have hm : singularMax [((0 : NoSymmetry), l)] = l.foldl (fun m y => if m < |y| then |y| else m) 0 := rfl
  by_cases h : singularMax [((0 : NoSymmetry), l)] = 0
  · refine Or.inl ⟨fun k => (he.c_zero _).2 ?_, by rw [singularNormalised, if_pos h]⟩
    by_cases hk : k < l.length
    · have h1 := (foldl_max_ge l 0).2 (l.getD k 0) (by
        rw [List.getD_eq_getElem _ _ hk]
        exact List.getElem_mem hk)
      rw [← hm, h] at h1
      exact abs_eq_zero.1 (le_antisymm h1 (abs_nonneg _))
    · rw [List.getD_eq_default _ _ (by omega)]
  · refine Or.inr ⟨l.map fun y => y / singularMax [((0 : NoSymmetry), l)], (e.c (singularMax [((0 : NoSymmetry), l)]))⁻¹,
      by rw [singularNormalised, if_neg h]; rfl, by simp,
      inv_ne_zero fun h' => h ((he.c_zero _).1 h'), fun k => ?_⟩
    by_cases hk : k < l.length
    · rw [List.getD_eq_getElem _ _ (by simpa using hk), List.getElem_map, List.getD_eq_getElem _ _ hk, he.c_div,
        div_eq_mul_inv]
    · rw [List.getD_eq_default _ _ (by simp; omega), List.getD_eq_default _ _ (by omega), (he.c_zero 0).2 rfl, zero_mul]

/-! ## The bond -/

/-- What the operator makes of the two sites of a bond: the product of the two tensors, with the singular value
of the bond, at the spins after the operator. -/
noncomputable def bondValue (e : NetEnv ν α β) (d m : ℕ) (a b : NetLabel) (U t : Tensor ν NoSymmetry α)
    (E : Option (SingularTable β)) (t' : Tensor ν NoSymmetry α) (f f' : NetLabel → ℕ) : α :=
  ∑ p0 ∈ Finset.range d, ∑ p1 ∈ Finset.range d,
    gval (netName e.nm) U (pt4 .in0 p0 .in1 p1 .out0 (f .phys) .out1 (f' .phys)) *
    ∑ k ∈ Finset.range m,
      gval (netName e.nm) t (Function.update (Function.update f b k) .phys p0) * envWeight e.c E k *
      gval (netName e.nm) t' (Function.update (Function.update f' a k) .phys p1)

theorem weights_update (c : β → α) {l : List (NetLabel × Char × Option (SingularTable β))} {g : NetLabel}
    (hg : ∀ x ∈ l, x.1 ≠ g) (f : NetLabel → ℕ) (k : ℕ) : weights c l (Function.update f g k) = weights c l f := by
  rw [weights, weights]
  congr 1
  refine List.map_congr_left fun x hx => ?_
  rw [Function.update_of_ne (hg x hx)]

/-- A dimension which cuts `K` singular values down to `D`. -/
def Cuts (K D : ℕ) : Prop := D ≠ 0 ∧ D ≠ 2 ^ 64 - 1 ∧ D < K

theorem keeps_or_cuts (K : ℕ) {D : ℕ} (h : D ≠ 0) : Keeps K D ∨ Cuts K D := by
  by_cases h1 : K ≤ D
  · exact Or.inl (Or.inl h1)
  · by_cases h2 : D = 2 ^ 64 - 1
    · exact Or.inl (Or.inr h2)
    · exact Or.inr ⟨h, h2, by omega⟩

/-- simple_update_lattice.hpp 253-266: what is left of the program after the decomposition. -/
def bondTail (e : NetEnv ν α β) (l : List β) (A B : Tensor ν NoSymmetry α)
    (around around' : List (NetLabel × Char × Option (SingularTable β))) :
    Outcome (Tensor ν NoSymmetry α × SingularTable β × Tensor ν NoSymmetry α) :=
  (singularNormalised [((0 : NoSymmetry), l)]).bind fun S =>
    (tryMultiples e true A (envCalls around)).bind fun u =>
    (normalised e u).bind fun u =>
    (tryMultiples e true B (envCalls around')).bind fun v =>
    (normalised e v).bind fun v => .ok (u, S, v)

theorem bondTail_ok [IsStrictOrderedRing β] (he : NetEnvOk e) (l : List β) {A B : Tensor ν NoSymmetry α}
    {TA TB : NetLabel → Option ℕ} {around around' : List (NetLabel × Char × Option (SingularTable β))}
    (hA : HasLegs (netName e.nm) A TA) (hB : HasLegs (netName e.nm) B TB) (haA : EnvsFit around TA)
    (haB : EnvsFit around' TB) :
    ((∃ x ∈ around ++ around', ¬ NoZero x.2.2) → bondTail e l A B around around' = .error "division by zero") ∧
    ((∀ x ∈ around ++ around', NoZero x.2.2) → ∃ A1 B1,
      HasLegs (netName e.nm) A1 TA ∧ HasLegs (netName e.nm) B1 TB ∧
      (∀ f, gval (netName e.nm) A f = gval (netName e.nm) A1 f * weights e.c around f) ∧
      (∀ f, gval (netName e.nm) B f = gval (netName e.nm) B1 f * weights e.c around' f) ∧
      ((bondTail e l A B around around' = .error "division by zero" ∧ ((∀ k, e.c (l.getD k 0) = 0) ∨
          (∀ f, gval (netName e.nm) A1 f = 0) ∨ ∀ f, gval (netName e.nm) B1 f = 0)) ∨
        ((∃ k, e.c (l.getD k 0) ≠ 0) ∧ (∃ f, gval (netName e.nm) A1 f ≠ 0) ∧ (∃ f, gval (netName e.nm) B1 f ≠ 0) ∧
          ∃ A2 l' B2 ca cs cb, bondTail e l A B around around' = .ok (A2, [(0, l')], B2) ∧
            l'.length = l.length ∧ HasLegs (netName e.nm) A2 TA ∧ HasLegs (netName e.nm) B2 TB ∧
            ca ≠ 0 ∧ cs ≠ 0 ∧ cb ≠ 0 ∧ (∀ f, gval (netName e.nm) A2 f = gval (netName e.nm) A1 f * ca) ∧
            (∀ k, e.c (l'.getD k 0) = e.c (l.getD k 0) * cs) ∧
            ∀ f, gval (netName e.nm) B2 f = gval (netName e.nm) B1 f * cb))) := by
  refine ⟨fun hz => ?_, fun hz => ?_⟩
  · rw [bondTail]
    rcases singularNormalised_ok he l with ⟨-, h⟩ | ⟨l', c1, h, -⟩
    · rw [h]; rfl
    · rw [h, Outcome.bind]
      by_cases hz1 : ∀ z ∈ around, NoZero z.2.2
      · obtain ⟨A', a1, a2, -⟩ := (tryDivides_ok he around haA hA).2 hz1
        rw [a1, Outcome.bind]
        obtain ⟨n1, n2⟩ := normalised_ok he a2
        by_cases hn : ∀ f, gval (netName e.nm) A' f = 0
        · rw [n1 hn]; rfl
        · obtain ⟨A'', c2, b1, -⟩ := n2 hn
          rw [b1, Outcome.bind, (tryDivides_ok he around' haB hB).1]
          · rfl
          · intro h'
            obtain ⟨z, hz2, hz3⟩ := hz
            rcases List.mem_append.1 hz2 with hz2 | hz2
            · exact hz3 (hz1 z hz2)
            · exact hz3 (h' z hz2)
      · rw [(tryDivides_ok he around haA hA).1 hz1]; rfl
  · obtain ⟨A1, a1, a2, a3⟩ := (tryDivides_ok he around haA hA).2 fun z h => hz z (by simp [h])
    obtain ⟨B1, b1, b2, b3⟩ := (tryDivides_ok he around' haB hB).2 fun z h => hz z (by simp [h])
    refine ⟨A1, B1, a2, b2, a3, b3, ?_⟩
    rcases singularNormalised_ok he l with ⟨h0, h⟩ | ⟨l', cs, h, hl', hcs, vl⟩
    · exact Or.inl ⟨by rw [bondTail, h]; rfl, Or.inl h0⟩
    · obtain ⟨n1, n2⟩ := normalised_ok he a2
      obtain ⟨m1, m2⟩ := normalised_ok he b2
      by_cases hn : ∀ f, gval (netName e.nm) A1 f = 0
      · exact Or.inl ⟨by rw [bondTail, h, Outcome.bind, a1, Outcome.bind, n1 hn]; rfl, Or.inr (Or.inl hn)⟩
      · obtain ⟨A2, ca, c1, c2, c3, c4⟩ := n2 hn
        by_cases hm : ∀ f, gval (netName e.nm) B1 f = 0
        · exact Or.inl ⟨by
            rw [bondTail, h, Outcome.bind, a1, Outcome.bind, c1, Outcome.bind, b1, Outcome.bind, m1 hm]; rfl,
            Or.inr (Or.inr hm)⟩
        · obtain ⟨B2, cb, d1, d2, d3, d4⟩ := m2 hm
          by_cases hl : ∀ k, e.c (l.getD k 0) = 0
          · exfalso
            have : singularNormalised [((0 : NoSymmetry), l)] = .error "division by zero" := by
              have hm : singularMax [((0 : NoSymmetry), l)] = l.foldl (fun m y => if m < |y| then |y| else m) 0 := rfl
              rw [singularNormalised, if_pos]
              rw [hm]
              have h0 : ∀ y ∈ l, y = 0 := fun y hy => by
                obtain ⟨k, hk, rfl⟩ := List.getElem_of_mem hy
                have := (he.c_zero _).1 (hl k)
                rwa [List.getD_eq_getElem _ _ hk] at this
              clear h hl vl hl' hm
              induction l with
              | nil => rfl
              | cons x l ih =>
                rw [List.foldl_cons, h0 x (by simp), abs_zero, if_neg (lt_irrefl _)]
                exact ih fun y hy => h0 y (by simp [hy])
            rw [h] at this
            cases this
          · push Not at hl hn hm
            exact Or.inr ⟨hl, hn, hm, A2, l', B2, ca, cs, cb, by
              rw [bondTail, h, Outcome.bind, a1, Outcome.bind, c1, Outcome.bind, b1, Outcome.bind, d1]; rfl,
              hl', c2, d2, c3, hcs, d3, c4, vl, d4⟩

/-- A bond: `E` is its environment before, `inside` are those of the first site with the bond. -/
theorem bondUpdate_ok [IsStrictOrderedRing β] (he : NetEnvOk e) {a b : NetLabel} (hab : BondNames a b) {d : ℕ}
    {t t' U : Tensor ν NoSymmetry α} {T T' : NetLabel → Option ℕ}
    (ht : HasLegs (netName e.nm) t T) (ht' : HasLegs (netName e.nm) t' T')
    (hT : ∀ g, ¬ SiteLabel g → T g = none) (hT' : ∀ g, ¬ SiteLabel g → T' g = none)
    (hp : T .phys = some d) (hp' : T' .phys = some d) (hb : T b = T' a)
    (hU : HasLegs (netName e.nm) U (legs4 .in0 (some d) .in1 (some d) .out0 (some d) .out1 (some d)))
    {inside around around' : List (NetLabel × Char × Option (SingularTable β))} {E : Option (SingularTable β)}
    (hi : EnvsFit inside T) (ha : EnvsFit around T) (ha' : EnvsFit around' T')
    (hw : ∀ f, weights e.c inside f = weights e.c around f * envWeight e.c E (f b))
    (hna : ∀ x ∈ around, x.1 ≠ b ∧ x.1 ≠ .phys) (hna' : ∀ x ∈ around', x.1 ≠ a ∧ x.1 ≠ .phys) :
    ∃ K, (∀ D, Keeps K D ∨ Cuts K D → (∃ x ∈ around ++ around', ¬ NoZero x.2.2) →
      bondUpdate e D a.string b.string U t (envCalls inside) (envCalls around) t' (envCalls around') =
        .error "division by zero") ∧
    ((∀ x ∈ around ++ around', NoZero x.2.2) →
      (∃ A l B κ, l.length = K ∧ κ ≠ 0 ∧ (∀ D, Keeps K D → bondUpdate e D a.string b.string U t (envCalls inside)
          (envCalls around) t' (envCalls around') = .ok (A, [(0, l)], B)) ∧
        HasLegs (netName e.nm) A (Function.update T b (some K)) ∧
        HasLegs (netName e.nm) B (Function.update T' a (some K)) ∧
        (∀ f f', ∑ k ∈ Finset.range K, gval (netName e.nm) A (Function.update f b k) * e.c (l.getD k 0) *
          gval (netName e.nm) B (Function.update f' a k) =
            κ * bondValue e d ((T b).getD 1) a b U t E t' f f') ∧
        ∀ D, Cuts K D →
          (∃ A' l' B' κ', l'.length = D ∧ κ' ≠ 0 ∧ bondUpdate e D a.string b.string U t (envCalls inside)
              (envCalls around) t' (envCalls around') = .ok (A', [(0, l')], B') ∧
            HasLegs (netName e.nm) A' (Function.update T b (some D)) ∧
            HasLegs (netName e.nm) B' (Function.update T' a (some D)) ∧
            ∀ f f' k, k < D → gval (netName e.nm) A' (Function.update f b k) * e.c (l'.getD k 0) *
              gval (netName e.nm) B' (Function.update f' a k) =
                κ' * (gval (netName e.nm) A (Function.update f b k) * e.c (l.getD k 0) *
                  gval (netName e.nm) B (Function.update f' a k))) ∨
          (bondUpdate e D a.string b.string U t (envCalls inside) (envCalls around) t' (envCalls around') =
              .error "division by zero" ∧
            ∀ f f' k, k < D → gval (netName e.nm) A (Function.update f b k) * e.c (l.getD k 0) *
              gval (netName e.nm) B (Function.update f' a k) = 0)) ∨
      ((∀ D, Keeps K D ∨ Cuts K D → bondUpdate e D a.string b.string U t (envCalls inside) (envCalls around) t' (envCalls around') =
          .error "division by zero") ∧
        ∀ f f', bondValue e d ((T b).getD 1) a b U t E t' f f' = 0)) := by
  have ab : a ≠ b := by rcases hab with ⟨rfl, rfl⟩ | ⟨rfl, rfl⟩ <;> simp
  have pa : a ≠ .phys := by rcases hab with ⟨rfl, rfl⟩ | ⟨rfl, rfl⟩ <;> simp
  have pb : b ≠ .phys := by rcases hab with ⟨rfl, rfl⟩ | ⟨rfl, rfl⟩ <;> simp
  obtain ⟨t1, s1, h1, v1⟩ := tryMultiples_ok he inside hi ht
  obtain ⟨t1', s1', h1', v1'⟩ := tryMultiples_ok he around' ha' ht'
  obtain ⟨q, r, q', r', x, y, u, l, v, A, B, e1, e2, e3, e4, e5, e6, e7, hA, hB, vAB, cut⟩ :=
    bond_core he hab h1 h1' hT hT' hp hp' hb hU
  have haA : ∀ n, EnvsFit around (Function.update T b (some n)) := fun n z hz => by
    rw [Function.update_of_ne (hna z hz).1]; exact ha z hz
  have haB : ∀ n, EnvsFit around' (Function.update T' a (some n)) := fun n z hz => by
    rw [Function.update_of_ne (hna' z hz).1]; exact ha' z hz
  have run : ∀ {D u l v A B}, svd e.gesvd e.svdEnv e.svdJunk e.sn y [netName e.nm a, e.nm "O0"] (netName e.nm b)
        (netName e.nm a) D = .ok (u, [(0, l)], v) → e.join u q [(a.string, b.string)] = .ok A →
      e.join v q' [(b.string, a.string)] = .ok B →
      bondUpdate e D a.string b.string U t (envCalls inside) (envCalls around) t' (envCalls around') =
        bondTail e l (e.rename A [("O0", "P")]) (e.rename B [("O1", "P")]) around around' := by
    intro D u l v A B e5 e6 e7
    have e1 : qr e.lp e.qrEnv e.qrJunk e.qn t1 'r' [e.nm "P", e.nm b.string] (e.nm b.string) (e.nm a.string) =
      .ok (q, r) := e1
    have e2 : qr e.lp e.qrEnv e.qrJunk e.qn t1' 'r' [e.nm "P", e.nm a.string] (e.nm a.string) (e.nm b.string) =
      .ok (q', r') := e2
    have e5 : svd e.gesvd e.svdEnv e.svdJunk e.sn y [e.nm a.string, e.nm "O0"] (e.nm b.string) (e.nm a.string) D =
      .ok (u, [(0, l)], v) := e5
    rw [bondUpdate, s1]
    simp only [Outcome.bind]
    rw [s1']
    simp only [Outcome.bind]
    rw [e1]
    simp only [Outcome.bind]
    rw [e2]
    simp only [Outcome.bind]
    rw [e3]
    simp only [Outcome.bind]
    rw [e4]
    simp only [Outcome.bind]
    rw [e5]
    simp only [Outcome.bind]
    rw [e6, e7]
    rfl
  have runs : ∀ D, Keeps l.length D → bondUpdate e D a.string b.string U t (envCalls inside) (envCalls around) t'
      (envCalls around') = bondTail e l (e.rename A [("O0", "P")]) (e.rename B [("O1", "P")]) around around' :=
    fun D hD => run (e5 D hD) e6 e7
  -- the value of the bond with the weights
  have key : ∀ f f', ∑ k ∈ Finset.range l.length, gval (netName e.nm) (e.rename A [("O0", "P")]) (Function.update f b k) *
      e.c (l.getD k 0) * gval (netName e.nm) (e.rename B [("O1", "P")]) (Function.update f' a k) =
      weights e.c around f * weights e.c around' f' * bondValue e d ((T b).getD 1) a b U t E t' f f' := by
    intro f f'
    rw [vAB, bondValue, Finset.mul_sum]
    refine Finset.sum_congr rfl fun p0 _ => ?_
    rw [Finset.mul_sum]
    refine Finset.sum_congr rfl fun p1 _ => ?_
    rw [mul_left_comm]
    congr 1
    rw [Finset.mul_sum]
    refine Finset.sum_congr rfl fun k _ => ?_
    rw [v1, v1', hw, weights_update _ (fun x hx => (hna x hx).2), weights_update _ (fun x hx => (hna x hx).1),
      weights_update _ (fun x hx => (hna' x hx).2), weights_update _ (fun x hx => (hna' x hx).1),
      Function.update_of_ne pb, Function.update_self]
    ring
  -- at indices outside of the tensors
  have outside : ∀ {F : α} {f f' : NetLabel → ℕ}, (∀ z ∈ around ++ around', NoZero z.2.2) →
      weights e.c around f * weights e.c around' f' * F = weights e.c around f * weights e.c around' f' *
        bondValue e d ((T b).getD 1) a b U t E t' f f' →
      ((∃ z ∈ around, ∃ n ∈ T z.1, n ≤ f z.1) → F = 0) → ((∃ z ∈ around', ∃ n ∈ T' z.1, n ≤ f' z.1) → F = 0) →
      F = bondValue e d ((T b).getD 1) a b U t E t' f f' := by
    intro F f f' hz hF z1 z2
    by_cases o1 : ∃ z ∈ around, ∃ n ∈ T z.1, n ≤ f z.1
    · obtain ⟨z, hz1, n, hn, hf⟩ := o1
      rw [z1 ⟨z, hz1, n, hn, hf⟩, bondValue]
      symm
      refine Finset.sum_eq_zero fun p0 _ => Finset.sum_eq_zero fun p1 _ => ?_
      rw [Finset.sum_eq_zero, mul_zero]
      intro k _
      rw [gval_outside he.inj ht (g := z.1) hn, zero_mul, zero_mul]
      rw [Function.update_of_ne (hna z hz1).2, Function.update_of_ne (hna z hz1).1]
      exact hf
    · by_cases o2 : ∃ z ∈ around', ∃ n ∈ T' z.1, n ≤ f' z.1
      · obtain ⟨z, hz1, n, hn, hf⟩ := o2
        rw [z2 ⟨z, hz1, n, hn, hf⟩, bondValue]
        symm
        refine Finset.sum_eq_zero fun p0 _ => Finset.sum_eq_zero fun p1 _ => ?_
        rw [Finset.sum_eq_zero, mul_zero]
        intro k _
        rw [gval_outside he.inj ht' (g := z.1) hn, mul_zero]
        rw [Function.update_of_ne (hna' z hz1).2, Function.update_of_ne (hna' z hz1).1]
        exact hf
      · push Not at o1 o2
        refine mul_left_cancel₀ (mul_ne_zero ?_ ?_) hF
        · exact weights_ne_zero he around ha (fun z h => hz z (by simp [h])) fun z h n hn => o1 z h n hn
        · exact weights_ne_zero he around' ha' (fun z h => hz z (by simp [h])) fun z h n hn => o2 z h n hn
  have wA : ∀ f k, weights e.c around (Function.update f b k) = weights e.c around f := fun f k =>
    weights_update _ (fun x hx => (hna x hx).1) f k
  have wB : ∀ f k, weights e.c around' (Function.update f a k) = weights e.c around' f := fun f k =>
    weights_update _ (fun x hx => (hna' x hx).1) f k
  obtain ⟨tail1, tail2⟩ := bondTail_ok he l hA hB (haA l.length) (haB l.length)
  refine ⟨l.length, fun D hD hz => ?_, fun hz => ?_⟩
  · rcases hD with hD | ⟨h0, h1, h2⟩
    · rw [runs D hD, tail1 hz]
    · obtain ⟨u', v', A', B', c1, c2, c3, c4, c5, -⟩ := cut D h0 h1 h2
      rw [run c1 c2 c3, (bondTail_ok he _ c4 c5 (haA D) (haB D)).1 hz]
  · obtain ⟨A1, B1, a2, b2, a3, b3, tail⟩ := tail2 hz
    have key1 : ∀ f f', ∑ k ∈ Finset.range l.length, gval (netName e.nm) A1 (Function.update f b k) *
        e.c (l.getD k 0) * gval (netName e.nm) B1 (Function.update f' a k) =
        bondValue e d ((T b).getD 1) a b U t E t' f f' := by
      intro f f'
      refine outside hz ?_ ?_ ?_
      · rw [← key, Finset.mul_sum]
        refine Finset.sum_congr rfl fun k _ => ?_
        rw [a3, b3, wA, wB]
        ring
      · rintro ⟨z, hz1, n, hn, hf⟩
        refine Finset.sum_eq_zero fun k _ => ?_
        rw [gval_outside he.inj a2 (g := z.1) (n := n), zero_mul, zero_mul]
        · rw [Function.update_of_ne (hna z hz1).1]; exact hn
        · rw [Function.update_of_ne (hna z hz1).1]; exact hf
      · rintro ⟨z, hz1, n, hn, hf⟩
        refine Finset.sum_eq_zero fun k _ => ?_
        rw [gval_outside he.inj b2 (g := z.1) (n := n), mul_zero]
        · rw [Function.update_of_ne (hna' z hz1).1]; exact hn
        · rw [Function.update_of_ne (hna' z hz1).1]; exact hf
    -- the factors which are cut
    have first : ∀ {g : NetLabel} {T : NetLabel → Option ℕ} {ar : List (NetLabel × Char × Option (SingularTable β))}
        {X X1 Y Y1 : Tensor ν NoSymmetry α} {D n : ℕ}, EnvsFit ar T → (∀ z ∈ ar, NoZero z.2.2) → (∀ z ∈ ar, z.1 ≠ g) →
        HasLegs (netName e.nm) X1 (Function.update T g (some n)) →
        HasLegs (netName e.nm) Y1 (Function.update T g (some D)) →
        (∀ f, gval (netName e.nm) X f = gval (netName e.nm) X1 f * weights e.c ar f) →
        (∀ f, gval (netName e.nm) Y f = gval (netName e.nm) Y1 f * weights e.c ar f) →
        (∀ f k, k < D → gval (netName e.nm) Y (Function.update f g k) = gval (netName e.nm) X (Function.update f g k)) →
        (∀ f k, k < D → gval (netName e.nm) Y1 (Function.update f g k) = gval (netName e.nm) X1 (Function.update f g k)) ∧
        ((∀ f, gval (netName e.nm) X1 f = 0) → ∀ f, gval (netName e.nm) Y1 f = 0) := by
      intro g T ar X X1 Y Y1 D n hT hz hne hX1 hY1 hX hY hXY
      have h1 : ∀ f k, k < D →
          gval (netName e.nm) Y1 (Function.update f g k) = gval (netName e.nm) X1 (Function.update f g k) := by
        intro f k hk
        by_cases o : ∃ z ∈ ar, ∃ m ∈ T z.1, m ≤ f z.1
        · obtain ⟨z, hz1, m, hm, hf⟩ := o
          rw [gval_outside he.inj hX1 (g := z.1) (n := m), gval_outside he.inj hY1 (g := z.1) (n := m)]
          · rw [Function.update_of_ne (hne z hz1)]; exact hm
          · rw [Function.update_of_ne (hne z hz1)]; exact hf
          · rw [Function.update_of_ne (hne z hz1)]; exact hm
          · rw [Function.update_of_ne (hne z hz1)]; exact hf
        · push Not at o
          have h2 := hXY f k hk
          rw [hX, hY, weights_update _ hne] at h2
          exact mul_right_cancel₀ (weights_ne_zero he ar hT hz fun z h m hm => o z h m hm) h2
      refine ⟨h1, fun h0 f => ?_⟩
      by_cases hf : f g < D
      · have := h1 f (f g) hf
        rw [Function.update_eq_self] at this
        rw [this, h0]
      · exact gval_outside he.inj hY1 (g := g) (n := D) (by simp) (by omega)
    have zA : ∀ z ∈ around, NoZero z.2.2 := fun z h => hz z (by simp [h])
    have zB : ∀ z ∈ around', NoZero z.2.2 := fun z h => hz z (by simp [h])
    have take : ∀ {D k}, k < D → (l.take D).getD k 0 = l.getD k 0 := fun {D k} hk => by
      rw [List.getD_eq_getElem?_getD, List.getD_eq_getElem?_getD, List.getElem?_take_of_lt hk]
    rcases tail with ⟨t1, t2⟩ | ⟨t1, t2, t3, A2, l', B2, ca, cs, cb, r1, r2, r3, r4, r5, r6, r7, r8, r9, r10⟩
    · refine Or.inr ⟨fun D hD => ?_, fun f f' => ?_⟩
      · rcases hD with hD | ⟨h0, h1, h2⟩
        · rw [runs D hD, t1]
        · obtain ⟨u', v', A', B', c1, c2, c3, c4, c5, c6, c7⟩ := cut D h0 h1 h2
          obtain ⟨A1', B1', a2', b2', a3', b3', tail'⟩ := (bondTail_ok he (l.take D) c4 c5 (haA D) (haB D)).2 hz
          rw [run c1 c2 c3]
          rcases tail' with ⟨t1', -⟩ | ⟨⟨k, t1'⟩, ⟨f2, t2'⟩, ⟨f3, t3'⟩, -⟩
          · exact t1'
          · exfalso
            rcases t2 with t2 | t2 | t2
            · apply t1'
              by_cases hk : k < D
              · rw [take hk, t2]
              · rw [List.getD_eq_default _ _ (by rw [List.length_take]; omega), (he.c_zero 0).2 rfl]
            · exact t2' ((first ha zA (fun z h => (hna z h).1) a2 a2' a3 a3' c6).2 t2 f2)
            · exact t3' ((first ha' zB (fun z h => (hna' z h).1) b2 b2' b3 b3' c7).2 t2 f3)
      · rw [← key1]
        refine Finset.sum_eq_zero fun k _ => ?_
        rcases t2 with t2 | t2 | t2 <;> rw [t2] <;> ring
    · refine Or.inl ⟨A2, l', B2, ca * cs * cb, r2, mul_ne_zero (mul_ne_zero r5 r6) r7, fun D hD => by
        rw [runs D hD, r1], r3, r4, fun f f' => ?_, fun D hD => ?_⟩
      · rw [← key1, Finset.mul_sum]
        refine Finset.sum_congr rfl fun k _ => ?_
        rw [r8, r9, r10]
        ring
      · obtain ⟨h0, h1, h2⟩ := hD
        obtain ⟨u', v', A', B', c1, c2, c3, c4, c5, c6, c7⟩ := cut D h0 h1 h2
        obtain ⟨A1', B1', a2', b2', a3', b3', tail'⟩ := (bondTail_ok he (l.take D) c4 c5 (haA D) (haB D)).2 hz
        obtain ⟨fA, -⟩ := first ha zA (fun z h => (hna z h).1) a2 a2' a3 a3' c6
        obtain ⟨fB, -⟩ := first ha' zB (fun z h => (hna' z h).1) b2 b2' b3 b3' c7
        rw [run c1 c2 c3]
        rcases tail' with ⟨t1', t2'⟩ | ⟨-, -, -, A2', l2', B2', ca', cs', cb', r1', r2', r3', r4', r5', r6', r7', r8', r9', r10'⟩
        · refine Or.inr ⟨t1', fun f f' k hk => ?_⟩
          rw [r8, r9, r10, ← fA f k hk, ← fB f' k hk, ← take hk]
          rcases t2' with t2' | t2' | t2' <;> rw [t2'] <;> ring
        · refine Or.inl ⟨A2', l2', B2', (ca' / ca) * (cs' / cs) * (cb' / cb), ?_, ?_, r1', r3', r4', fun f f' k hk => ?_⟩
          · rw [r2', List.length_take]
            omega
          · exact mul_ne_zero (mul_ne_zero (div_ne_zero r5' r5) (div_ne_zero r6' r6)) (div_ne_zero r7' r7)
          · rw [r8, r9, r10, r8', r9', r10', fA f k hk, fB f' k hk, take hk]
            field_simp

end TAT
