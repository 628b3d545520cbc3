import Verif.Torus.Path
import Verif.Torus.Trace
import Verif.Grid.Exact
import Verif.Grid.Transfer

/-!
# The steps of the contraction of two lines on a torus, site by site

The names with the suffixes `_1` and `_2` belong to `tools.hpp`, those with `1` and `2` to `PBC.cpp`.
-/

namespace TAT.Torus

open TAT.Grid (IsSite sides GridEnvOk freeNames namesOf)

set_option linter.unusedSectionVars false
set_option linter.unusedSimpArgs false

variable {ν α β : Type} [LinearOrder ν] [Field α] [LinearOrder β] [Zero β] {e : AuxEnv ν α β}

/-- The string of a label. -/
def ringString : Leg → String
  | (a, .plain) => sides a
  | (a, .one) => sides a ++ "_1"
  | (a, .two) => sides a ++ "_2"
  | (a, .three) => sides a ++ "1"
  | (a, .hole) => sides a ++ "2"

theorem ringString_injective : Function.Injective ringString := by
  rintro ⟨x, m⟩ ⟨y, n⟩ h
  revert h
  cases x <;> cases m <;> cases y <;> cases n <;> decide

/-- The name of a label. -/
def ringName (e : AuxEnv ν α β) (g : Leg) : ν := e.nm (ringString g)

theorem ringName_inj (he : GridEnvOk e sides) : Function.Injective (ringName e) := he.inj.comp ringString_injective

/-- The edges of a site: those on the left, on the right, above and below. -/
def full (a a1 a2 b b1 b2 u d : Option ℕ) : Leg → Option ℕ
  | (.left, .plain) => a
  | (.left, .one) => a1
  | (.left, .two) => a2
  | (.right, .plain) => b
  | (.right, .one) => b1
  | (.right, .two) => b2
  | (.up, .plain) => u
  | (.down, .plain) => d
  | _ => none

/-- Indices of the edges. -/
def fidx (a a1 a2 b b1 b2 u d : ℕ) : Leg → ℕ
  | (.left, .plain) => a
  | (.left, .one) => a1
  | (.left, .two) => a2
  | (.right, .plain) => b
  | (.right, .one) => b1
  | (.right, .two) => b2
  | (.up, .plain) => u
  | (.down, .plain) => d
  | _ => 0

/-- The element. -/
noncomputable def fval (e : AuxEnv ν α β) (t : Tensor ν NoSymmetry α) (a a1 a2 b b1 b2 u d : ℕ) : α :=
  gval (ringName e) t (fidx a a1 a2 b b1 b2 u d)

theorem ring_join (he : GridEnvOk e sides) {t1 t2 : Tensor ν NoSymmetry α}
    {T1 T2 : Leg → Option ℕ} (h1 : HasLegs (ringName e) t1 T1) (h2 : HasLegs (ringName e) t2 T2)
    (pairs : List (Leg × Leg)) (hp1 : (pairs.map Prod.fst).Nodup) (hp2 : (pairs.map Prod.snd).Nodup)
    (hm : ∀ c ∈ pairs, T1 c.1 = T2 c.2)
    (hd : ∀ g, g ∉ pairs.map Prod.fst → g ∉ pairs.map Prod.snd → T1 g = none ∨ T2 g = none) :
    ∃ r, e.join t1 t2 (pairs.map fun p => (ringString p.1, ringString p.2)) = .ok r ∧
      HasLegs (ringName e) r (contractLegs T1 T2 pairs) ∧
      ∀ f, gval (ringName e) r f = sumPairs (fun g => (T1 g).getD 1)
        (fun x y => gval (ringName e) t1 x * gval (ringName e) t2 y) pairs f f := by
  obtain ⟨r, h⟩ := label_contract (ringName_inj he) e.ce he.gemm he.names h1 h2 pairs hp1 hp2 hm hd
  refine ⟨r, ?_, h.2⟩
  rw [AuxEnv.join, List.map_map]
  exact h.1

theorem ring_rename (he : GridEnvOk e sides) {t : Tensor ν NoSymmetry α}
    {T : Leg → Option ℕ} (h : HasLegs (ringName e) t T) (d : List (Leg × Leg))
    (h1 : (d.map Prod.fst).Nodup) (h2 : (d.map Prod.snd).Nodup) (hd : ∀ c ∈ d, T c.2 = none) :
    HasLegs (ringName e) (e.rename t (d.map fun p => (ringString p.1, ringString p.2))) (renameLegs T d) ∧
      ∀ f, gval (ringName e) (e.rename t (d.map fun p => (ringString p.1, ringString p.2))) f =
        gval (ringName e) t fun g => f (renameTo d g) := by
  rw [AuxEnv.rename, List.map_map]
  exact label_rename (ringName_inj he) h d h1 h2 hd

theorem IsSite.ring (he : GridEnvOk e sides) {t : Tensor ν NoSymmetry α} {l r u d : Option ℕ}
    (h : IsSite e.nm sides t l r u d) : HasLegs (ringName e) t (full l none none r none none u d) ∧
      ∀ a b z y, fval e t a 0 0 b 0 0 z y = Grid.elem e.nm sides t a b z y := by
  have hι := ringName_inj he
  have h1 : HasLegs (ringName e) t (full l none none r none none u d) := by
    refine ⟨h.dense, fun n hn => ?_, ?_⟩
    · obtain ⟨x, rfl⟩ := h.only n hn
      exact ⟨(x, .plain), rfl⟩
    have off : ∀ x m, m ≠ .plain → gleg (ringName e) t (x, m) = none := by
      intro x m hm
      by_contra hne
      obtain ⟨g, hg⟩ := h.only _ hne
      have := hι (show ringName e (x, m) = ringName e (g, .plain) from hg)
      simp at this
      exact hm this.2
    rintro ⟨x, m⟩
    cases m
    · cases x
      · exact h.up
      · exact h.down
      · exact h.left
      · exact h.right
    all_goals
      rw [off x _ (by simp)]
      cases x <;> rfl
  refine ⟨h1, fun a b z y => ?_⟩
  have hinj : ∀ x y, e.nm (sides x) = e.nm (sides y) ↔ x = y := fun x y => by
    have := hι.eq_iff (a := (x, .plain)) (b := (y, .plain))
    simp only [Prod.mk.injEq, and_true] at this
    exact this
  rw [Grid.elem, val_eq_gval hι h1]
  refine gval_congr hι h1 ?_
  rintro ⟨x, m⟩ hne
  cases m
  · show fidx a 0 0 b 0 0 z y (x, .plain) = Grid.at4 e.nm sides _ _ _ _ (e.nm (sides x))
    cases x <;> simp [Grid.at4, hinj, fidx]
  all_goals cases x <;> exact absurd rfl hne

theorem isSite_ring {t : Tensor ν NoSymmetry α} {l r u d : Option ℕ}
    (h : HasLegs (ringName e) t (full l none none r none none u d)) : IsSite e.nm sides t l r u d := by
  refine ⟨h.dense, h.legs (.left, .plain), h.legs (.right, .plain), h.legs (.up, .plain), h.legs (.down, .plain),
    fun n hn => ?_⟩
  obtain ⟨⟨x, m⟩, rfl⟩ := h.only n hn
  have hne : full l none none r none none u d (x, m) ≠ none := by
    rw [← h.legs (x, m)]
    exact hn
  cases m
  · exact ⟨x, rfl⟩
  all_goals cases x <;> exact absurd rfl hne

/-- One site of the double line. -/
theorem ring_double (he : GridEnvOk e sides) {t1 t2 : Tensor ν NoSymmetry α} {l1 r1 l2 r2 u z d : Option ℕ}
    (h1 : HasLegs (ringName e) t1 (full l1 none none r1 none none u z))
    (h2 : HasLegs (ringName e) t2 (full l2 none none r2 none none z d)) :
    ∃ t, e.join (e.rename t1 [("left", "left_1"), ("right", "right_1")])
        (e.rename t2 [("left", "left_2"), ("right", "right_2")]) [("down", "up")] = .ok t ∧
      HasLegs (ringName e) t (full none l1 l2 none r1 r2 u d) ∧
      ∀ a1 a2 b1 b2 x y, fval e t 0 a1 a2 0 b1 b2 x y =
        ∑ k ∈ Finset.range (bondDim z), fval e t1 a1 0 0 b1 0 0 x k * fval e t2 a2 0 0 b2 0 0 k y := by
  have hι := ringName_inj he
  obtain ⟨a1, a2⟩ := ring_rename he h1 [((.left, .plain), (.left, .one)), ((.right, .plain), (.right, .one))]
    (by decide) (by decide) (by simp [full])
  obtain ⟨b1, b2⟩ := ring_rename he h2 [((.left, .plain), (.left, .two)), ((.right, .plain), (.right, .two))]
    (by decide) (by decide) (by simp [full])
  obtain ⟨t, c1, c2, c3⟩ := ring_join he a1 b1 [((.down, .plain), (.up, .plain))] (by decide) (by decide)
    (by simp [renameLegs, full]) (by
      rintro ⟨x, y⟩
      cases x <;> cases y <;> simp [renameLegs, full])
  refine ⟨t, c1, c2.cast ?_, fun x1 x2 y1 y2 x y => ?_⟩
  · rintro ⟨x, y⟩
    cases x <;> cases y <;> simp [contractLegs, renameLegs, full]
  · rw [fval, c3]
    simp only [sumPairs]
    refine Finset.sum_congr (by simp [renameLegs, full, bondDim]) fun k _ => ?_
    rw [a2, b2]
    congr 1
    · refine gval_congr hι h1 ?_
      rintro ⟨x, y⟩
      cases x <;> cases y <;> simp [full, renameTo, fidx, Function.update_apply]
    · refine gval_congr hι h2 ?_
      rintro ⟨x, y⟩
      cases x <;> cases y <;> simp [full, renameTo, fidx, Function.update_apply]

end TAT.Torus
