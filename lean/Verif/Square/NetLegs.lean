import Verif.Square.NetSpec
import Verif.Square.AuxLegs
import Verif.TensorMisc.Multiple
import Verif.Tensor.Props

/-!
# Operations of the simple update in terms of labels
-/

namespace TAT

set_option linter.unusedSectionVars false

variable {ν α β : Type} [LinearOrder ν]

/-! ## Names -/

theorem NetLabel.string_inj : Function.Injective NetLabel.string := by
  have hd : ∀ n : ℕ, Nat.toDigits 10 n ≠ [] := fun n h => by
    have := Nat.length_toDigits_pos (b := 10) (n := n)
    rw [h] at this
    simp at this
  have hc : ∀ j, (NetLabel.string (.column j)).toList = 'D' :: Nat.toDigits 10 j := fun j => by
    rw [NetLabel.string, numberString_toList]
    simp
  have ha : ∀ i j, (NetLabel.string (.at i j)).toList =
      'P' :: '-' :: (Nat.toDigits 10 i ++ '-' :: Nat.toDigits 10 j) := physString_toList
  intro x y hxy
  have h := congrArg String.toList hxy
  cases x <;> cases y <;> first
    | rfl
    | (exfalso; revert hxy; decide)
    | (exfalso; simp only [hc, ha] at h; simp [NetLabel.string, hd] at h; done)
    | skip
  · rw [hc, hc, List.cons.injEq] at h
    rw [toDigits_inj h.2]
  · rw [ha, ha, List.cons.injEq, List.cons.injEq] at h
    obtain ⟨h1, h2⟩ := dash_split dash_not_digit dash_not_digit h.2.2
    rw [toDigits_inj h1, toDigits_inj h2]

theorem netName_inj {nm : String → ν} (h : Function.Injective nm) : Function.Injective (netName nm) :=
  h.comp NetLabel.string_inj

/-- The dimensions of a site. -/
def netLegs (l r u d p : Option ℕ) : NetLabel → Option ℕ
  | .left => l
  | .right => r
  | .up => u
  | .below => d
  | .phys => p
  | _ => none

theorem SiteEdges.legs {nm : String → ν} (hnm : Function.Injective nm) {t : Tensor ν NoSymmetry α}
    {l r u d : Option ℕ} {p : ℕ} (h : SiteEdges nm t l r u d p) :
    HasLegs (netName nm) t (netLegs l r u d (some p)) := by
  have ho : ∀ n, leg t n ≠ none → ∃ g, n = netName nm g ∧
      (g = .left ∨ g = .right ∨ g = .up ∨ g = .below ∨ g = .phys) := fun n hn => by
    rcases h.only n hn with rfl | rfl | rfl | rfl | rfl
    · exact ⟨.left, rfl, by simp⟩
    · exact ⟨.right, rfl, by simp⟩
    · exact ⟨.up, rfl, by simp⟩
    · exact ⟨.below, rfl, by simp⟩
    · exact ⟨.phys, rfl, by simp⟩
  refine ⟨h.dense, fun n hn => (ho n hn).elim fun g hg => ⟨g, hg.1⟩, fun g => ?_⟩
  by_cases hg : g = .left ∨ g = .right ∨ g = .up ∨ g = .below ∨ g = .phys
  · rcases hg with rfl | rfl | rfl | rfl | rfl
    · exact h.left
    · exact h.right
    · exact h.up
    · exact h.down
    · exact h.phys
  · have : gleg (netName nm) t g = none := by
      by_contra hne
      obtain ⟨g', h1, h2⟩ := ho _ hne
      rw [netName_inj hnm h1] at hg
      exact hg h2
    rw [this]
    cases g <;> first | rfl | exact absurd (by simp) hg

theorem HasLegs.site {nm : String → ν} {t : Tensor ν NoSymmetry α} {l r u d : Option ℕ} {p : ℕ}
    (h : HasLegs (netName nm) t (netLegs l r u d (some p))) : SiteEdges nm t l r u d p := by
  refine ⟨h.dense, h.legs .left, h.legs .right, h.legs .up, h.legs .below, h.legs .phys, fun n hn => ?_⟩
  obtain ⟨g, rfl⟩ := h.only n hn
  have := h.legs g
  cases g <;> first | exact absurd this hn | simp [netName, NetLabel.string]

/-- The element of a site in terms of labels. -/
theorem SiteEdges.val_eq [Zero α] {nm : String → ν} (hnm : Function.Injective nm) {t : Tensor ν NoSymmetry α}
    {l r u d : Option ℕ} {p : ℕ} (h : SiteEdges nm t l r u d p) (f : NetLabel → ℕ) :
    gval (netName nm) t f = val t (netIndex nm (f .left) (f .right) (f .up) (f .below) (f .phys)) := by
  rw [val_eq_gval (netName_inj hnm) (h.legs hnm)]
  refine gval_congr (netName_inj hnm) (h.legs hnm) fun g hg => ?_
  have e : ∀ a b : NetLabel, netName nm a = nm b.string ↔ a = b := fun a b => (netName_inj hnm).eq_iff
  unfold netIndex
  rw [show nm "L" = nm (NetLabel.string .left) from rfl, show nm "R" = nm (NetLabel.string .right) from rfl,
    show nm "U" = nm (NetLabel.string .up) from rfl, show nm "D" = nm (NetLabel.string .below) from rfl,
    show nm "P" = nm (NetLabel.string .phys) from rfl]
  simp only [e]
  cases g <;> first | exact absurd rfl hg | simp

/-! ## Multiplication by singular values -/

theorem dense_multiple [CommRing α] [Zero β] (junk : List NoSymmetry → ℕ → α) (c : β → α) (inv : β → β)
    {t : Tensor ν NoSymmetry α} (ht : Dense t) {S : List β} {n : ν} {direction : Char}
    (hd : IsDirection direction) (division : Bool) (hS : leg t n = some S.length) :
    ∃ r, multiple junk (fun x y => x * c y) inv t [(0, S)] n direction division = .ok r ∧ Dense r ∧
      (∀ m, leg r m = leg t m) ∧
      ∀ x, val r x = val t x * c (if division then inv (S.getD (x n) 0) else S.getD (x n) 0) := by
  have hn : n ∈ t.names := leg_ne_none.1 (by rw [hS]; simp)
  have hm := ht.map hn
  have hl : legDim t n = S.length := by rw [legDim, hS]; rfl
  have hfind : ∀ s : NoSymmetry, OMap.find? [((0 : NoSymmetry), S)] s = some S := fun s => by
    rw [noSym_eq s 0]
    simp [OMap.find?]
  obtain ⟨r, h1, h2, h3, h4, h5⟩ := C31_multiple junk (fun x y => x * c y) inv ht.wf [(0, S)] hn hd division (by
    intro s _
    refine ⟨S, hfind _, ?_⟩
    rw [hm, hl, noSym_eq s 0]
    simp [dimM, OMap.find?])
  have hleg : ∀ m, leg r m = leg t m := leg_eq_of h3 h4
  have hr : Dense r := ht.of_eq h2 hleg
  refine ⟨r, h1, hr, hleg, fun x => ?_⟩
  have hdim : ∀ m, legDim r m = legDim t m := fun m => by rw [legDim, legDim, hleg]
  by_cases hv : ∀ m, leg t m ≠ none → x m < legDim t m
  · obtain ⟨y, w, a1, a2, a3⟩ := h5 (fun m => (0, x m)) ((dense_valid ht.wf).2 fun m hm => hv m (leg_ne_none.2 hm))
    have b1 := elem_val ht.wf (x := x) hv
    have b2 := elem_val h2 (x := x) (fun m hm => by rw [hdim]; exact hv m (by rwa [hleg] at hm))
    rw [a1] at b1
    rw [a3] at b2
    rw [← Option.some.inj b1, ← Option.some.inj b2]
    rw [tableAt, hfind] at a2
    have a2 : S[x n]? = some w := a2
    have : S.getD (x n) 0 = w := by rw [List.getD_eq_getElem?_getD, a2]; rfl
    rw [this]
  · push Not at hv
    obtain ⟨m, hm, hx⟩ := hv
    rw [val_outside ht.wf hm hx, val_outside h2 (by rw [hleg]; exact hm) (by rw [hdim]; exact hx), zero_mul]

theorem multiple_missing [Zero β] (junk : List NoSymmetry → ℕ → α) (mulS : α → β → α) (inv : β → β)
    {t : Tensor ν NoSymmetry α} (ht : Dense t) (S : SingularTable β) {n : ν} {direction : Char}
    (hd : IsDirection direction) (division : Bool) (hn : leg t n = none) :
    multiple junk mulS inv t S n direction division = .ok t := by
  rw [multiple_eq junk mulS inv t S n hd, multipleRun, nameToIndex_find ht.wf.nodup,
    if_neg (leg_eq_none.1 hn)]

section

variable [Field α] [LinearOrder β] [Field β] {e : NetEnv ν α β}

theorem NetEnvOk.c_inv (he : NetEnvOk e) (x : β) : e.c x⁻¹ = (e.c x)⁻¹ := by
  by_cases hx : x = 0
  · subst hx
    rw [inv_zero, (he.c_zero 0).2 rfl, inv_zero]
  · have h0 : e.c x ≠ 0 := fun h => hx ((he.c_zero x).1 h)
    have h1 : e.c 1 = 1 := by
      have h := he.c_mul 1 1
      rw [mul_one] at h
      have hne : e.c 1 ≠ 0 := fun h => one_ne_zero ((he.c_zero 1).1 h)
      exact (mul_left_cancel₀ hne (by rw [mul_one]; exact h)).symm
    refine eq_inv_of_mul_eq_one_left ?_
    rw [← he.c_mul, inv_mul_cancel₀ hx, h1]

theorem NetEnvOk.c_div (he : NetEnvOk e) (x y : β) : e.c (x / y) = e.c x / e.c y := by
  rw [div_eq_mul_inv, he.c_mul, he.c_inv, div_eq_mul_inv]

/-- A table for an edge. -/
def TableOn (S : Option (SingularTable β)) (o : Option ℕ) : Prop :=
  ∀ T ∈ S, ∃ l, T = [(0, l)] ∧ o = some l.length

/-- One multiplication or division by an environment. -/
theorem tryMultiple_ok (he : NetEnvOk e) {t : Tensor ν NoSymmetry α} {T : NetLabel → Option ℕ}
    (ht : HasLegs (netName e.nm) t T) (g : NetLabel) {direction : Char} (hd : IsDirection direction)
    {S : Option (SingularTable β)} (hS : TableOn S (T g)) :
    ∃ r, tryMultiple e false t (g.string, direction, S) = .ok r ∧ HasLegs (netName e.nm) r T ∧
      ∀ f, gval (netName e.nm) r f = gval (netName e.nm) t f * envWeight e.c S (f g) := by
  cases S with
  | none => exact ⟨t, rfl, ht, fun f => by simp [envWeight]⟩
  | some S =>
    obtain ⟨l, rfl, hl⟩ := hS S rfl
    obtain ⟨r, h1, h2, h3, h4⟩ := dense_multiple e.junk e.c (fun x => x⁻¹) ht.dense (n := netName e.nm g) hd false
      (S := l) (by rw [← hl]; exact ht.legs g)
    refine ⟨r, ?_, ⟨h2, fun n hn => ht.only n (by rwa [h3] at hn), fun g => (h3 _).trans (ht.legs g)⟩, fun f => ?_⟩
    · simpa [tryMultiple, netName] using h1
    · rw [gval, h4, (netName_inj he.inj).extend_apply]
      simp [envWeight, OMap.find?, gval]

/-- All singular values of a table are not zero. -/
def NoZero (S : Option (SingularTable β)) : Prop := ∀ T ∈ S, ∀ y ∈ T, ∀ z ∈ y.2, z ≠ 0

theorem tryDivide_ok (he : NetEnvOk e) {t : Tensor ν NoSymmetry α} {T : NetLabel → Option ℕ}
    (ht : HasLegs (netName e.nm) t T) (g : NetLabel) {direction : Char} (hd : IsDirection direction)
    {S : Option (SingularTable β)} (hS : TableOn S (T g)) :
    (¬ NoZero S → tryMultiple e true t (g.string, direction, S) = .error "division by zero") ∧
    (NoZero S → ∃ r, tryMultiple e true t (g.string, direction, S) = .ok r ∧ HasLegs (netName e.nm) r T ∧
      ∀ f, gval (netName e.nm) t f = gval (netName e.nm) r f * envWeight e.c S (f g)) := by
  cases S with
  | none => exact ⟨fun h => absurd (fun T hT => by simp at hT) h, fun _ => ⟨t, rfl, ht, fun f => by simp [envWeight]⟩⟩
  | some S =>
    obtain ⟨l, rfl, hl⟩ := hS S rfl
    refine ⟨fun h => ?_, fun h => ?_⟩
    · show (if _ then _ else _) = _
      rw [if_pos]
      refine ⟨rfl, ?_⟩
      simpa [NoZero] using h
    · obtain ⟨r, h1, h2, h3, h4⟩ := dense_multiple e.junk e.c (fun x => x⁻¹) ht.dense (n := netName e.nm g) hd true
        (S := l) (by rw [← hl]; exact ht.legs g)
      have hr : HasLegs (netName e.nm) r T :=
        ⟨h2, fun n hn => ht.only n (by rwa [h3] at hn), fun g => (h3 _).trans (ht.legs g)⟩
      have hz : ∀ z ∈ l, z ≠ 0 := h [(0, l)] rfl (0, l) (by simp)
      refine ⟨r, ?_, hr, fun f => ?_⟩
      · show (if _ then _ else _) = _
        rw [if_neg]
        · exact h1
        · simpa using fun h0 : (0 : β) ∈ l => hz 0 h0 rfl
      · rw [gval, gval, h4, (netName_inj he.inj).extend_apply]
        by_cases hf : f g < l.length
        · have hne : e.c (l.getD (f g) 0) ≠ 0 := fun h => by
            have hm : l.getD (f g) 0 ∈ l := by
              rw [List.getD_eq_getElem _ _ hf]
              exact List.getElem_mem hf
            exact hz _ hm ((he.c_zero _).1 h)
          have hw : envWeight e.c (some [(0, l)]) (f g) = e.c (l.getD (f g) 0) := by simp [envWeight, OMap.find?]
          rw [if_pos rfl, he.c_inv, mul_assoc, hw, inv_mul_cancel₀ hne, mul_one]
        · rw [val_outside ht.dense.wf (n := netName e.nm g), zero_mul, zero_mul]
          · rw [show leg t (netName e.nm g) = T g from ht.legs g, hl]
            simp
          · rw [(netName_inj he.inj).extend_apply, legDim, show leg t (netName e.nm g) = T g from ht.legs g, hl]
            simpa using hf

/-! ## Normalisation -/

theorem normMax_zero (he : NetEnvOk e) {t : Tensor ν NoSymmetry α} (ht : Dense t) :
    normMax e.abs t = 0 ↔ ∀ x, val t x = 0 := by
  obtain ⟨h1, h2, h3⟩ := C48_max e.abs t
  constructor
  · intro h0 x
    by_cases hv : ∀ m, leg t m ≠ none → x m < legDim t m
    · have := h1 _ ((dense_elems ht).2 ⟨x, hv, rfl⟩)
      rw [h0] at this
      exact (he.abs_zero _).1 (le_antisymm this (he.abs_nonneg _))
    · push Not at hv
      obtain ⟨m, hm, hx⟩ := hv
      exact val_outside ht.wf hm hx
  · intro h
    rcases h3 with h3 | ⟨y, hy, h3⟩
    · exact h3
    · obtain ⟨x, -, rfl⟩ := (dense_elems ht).1 hy
      rw [h3, h x]
      exact (he.abs_zero 0).2 rfl

/-- `t /= t.norm<-1>()` -/
theorem normalised_ok (he : NetEnvOk e) {t : Tensor ν NoSymmetry α} {T : NetLabel → Option ℕ}
    (ht : HasLegs (netName e.nm) t T) :
    ((∀ f, gval (netName e.nm) t f = 0) → normalised e t = .error "division by zero") ∧
    (¬ (∀ f, gval (netName e.nm) t f = 0) → ∃ r a, normalised e t = .ok r ∧ HasLegs (netName e.nm) r T ∧ a ≠ 0 ∧
      ∀ f, gval (netName e.nm) r f = gval (netName e.nm) t f * a) := by
  have hz : (∀ x, val t x = 0) ↔ ∀ f, gval (netName e.nm) t f = 0 :=
    ⟨fun h f => h _, fun h x => by rw [val_eq_gval (netName_inj he.inj) ht]; exact h _⟩
  refine ⟨fun h => ?_, fun h => ?_⟩
  · rw [normalised, if_pos ((normMax_zero he ht.dense).2 (hz.2 h))]
  · have hn : normMax e.abs t ≠ 0 := fun hn => h (hz.1 ((normMax_zero he ht.dense).1 hn))
    obtain ⟨h1, h2, h3⟩ := dense_number ht.dense (f := fun x => x / e.c (normMax e.abs t)) (zero_div _)
    refine ⟨_, (e.c (normMax e.abs t))⁻¹, by rw [normalised, if_neg hn],
      ⟨h1, fun n hn => ht.only n (by rwa [h2] at hn), fun g => (h2 _).trans (ht.legs g)⟩,
      inv_ne_zero fun h => hn ((he.c_zero _).1 h), fun f => ?_⟩
    rw [gval, h3, div_eq_mul_inv]
    rfl

end

end TAT
