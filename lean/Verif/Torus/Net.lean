import Verif.Square.AuxLegs
import Mathlib.Algebra.BigOperators.Ring.Finset
import Mathlib.Data.Fintype.BigOperators

/-!
# Sums over the indices of a part of the bonds of a network
-/

namespace TAT.Torus

set_option linter.unusedSectionVars false

variable {α B P : Type} [CommRing α] [Fintype B] [DecidableEq B] [DecidableEq P]

/-- The sets of indices of the bonds: all indices for those of `C`, those of `φ` for the others. -/
def boxes (dim : B → ℕ) (C : Finset B) (φ : B → ℕ) (b : B) : Finset ℕ :=
  if b ∈ C then Finset.range (dim b) else {φ b}

/-- The product of the sites of `D`, summed over the indices of the bonds of `C`. -/
def net (dim : B → ℕ) (S : P → (B → ℕ) → α) (C : Finset B) (D : Finset P) (φ : B → ℕ) : α :=
  ∑ x ∈ Fintype.piFinset (boxes dim C φ), ∏ p ∈ D, S p x

/-- The element of a site depends only on the indices of its bonds. -/
def Local (S : P → (B → ℕ) → α) (touch : P → B → Prop) : Prop :=
  ∀ p x y, (∀ b, touch p b → x b = y b) → S p x = S p y

variable {dim : B → ℕ} {S : P → (B → ℕ) → α} {touch : P → B → Prop}

theorem net_bond {C : Finset B} {b : B} (hb : b ∉ C) (D : Finset P) (φ : B → ℕ) :
    ∑ k ∈ Finset.range (dim b), net dim S C D (Function.update φ b k) = net dim S (insert b C) D φ := by
  unfold net
  rw [← Finset.sum_fiberwise_of_maps_to (s := Fintype.piFinset (boxes dim (insert b C) φ))
    (t := Finset.range (dim b)) (g := fun x => x b)]
  · refine Finset.sum_congr rfl fun k hk => Finset.sum_congr ?_ fun _ _ => rfl
    ext x
    simp only [Fintype.mem_piFinset, Finset.mem_filter, boxes]
    constructor
    · intro h
      refine ⟨fun c => ?_, by simpa [hb] using h b⟩
      by_cases hc : c = b
      · subst hc
        have := h c
        simp only [hb, if_false, Function.update_self, Finset.mem_singleton] at this
        simpa [this] using hk
      · have := h c
        simpa [hc, Function.update_of_ne hc] using this
    · rintro ⟨h, rfl⟩ c
      by_cases hc : c = b
      · subst hc
        simp [hb]
      · have := h c
        simpa [hc, Function.update_of_ne hc] using this
  · intro x hx
    have := Fintype.mem_piFinset.1 hx b
    simpa [boxes] using this

theorem net_site (hS : Local S touch) {C : Finset B} {D : Finset P} {p : P} (hp : p ∉ D)
    (hC : ∀ b, touch p b → b ∉ C) (φ : B → ℕ) : net dim S C D φ * S p φ = net dim S C (insert p D) φ := by
  unfold net
  rw [Finset.sum_mul]
  refine Finset.sum_congr rfl fun x hx => ?_
  rw [Finset.prod_insert hp, mul_comm]
  congr 1
  refine hS p _ _ fun b hb => ?_
  have := Fintype.mem_piFinset.1 hx b
  rw [boxes, if_neg (hC b hb), Finset.mem_singleton] at this
  exact this.symm

theorem net_congr (hS : Local S touch) {C : Finset B} {D : Finset P} {φ ψ : B → ℕ}
    (h : ∀ b, b ∉ C → (∃ p ∈ D, touch p b) → φ b = ψ b) : net dim S C D φ = net dim S C D ψ := by
  unfold net
  refine Finset.sum_nbij' (fun x b => if b ∈ C then x b else ψ b) (fun x b => if b ∈ C then x b else φ b) ?_ ?_ ?_ ?_ ?_
  · intro x hx
    rw [Fintype.mem_piFinset] at hx ⊢
    intro b
    have := hx b
    by_cases hb : b ∈ C <;> simp_all [boxes]
  · intro x hx
    rw [Fintype.mem_piFinset] at hx ⊢
    intro b
    have := hx b
    by_cases hb : b ∈ C <;> simp_all [boxes]
  · intro x hx
    rw [Fintype.mem_piFinset] at hx
    funext b
    have := hx b
    by_cases hb : b ∈ C <;> simp_all [boxes]
  · intro x hx
    rw [Fintype.mem_piFinset] at hx
    funext b
    have := hx b
    by_cases hb : b ∈ C <;> simp_all [boxes]
  · intro x hx
    rw [Fintype.mem_piFinset] at hx
    refine Finset.prod_congr rfl fun p hp => hS p _ _ fun b hb => ?_
    have := hx b
    by_cases hc : b ∈ C
    · simp [hc]
    · have := h b hc ⟨p, hp, hb⟩
      simp_all [boxes]

/-- Contraction of a part of the network with one more site: `lab1` and `lab2` are the labels of the open bonds of
the part and of the bonds of the site, `bs` are the bonds which are closed. -/
theorem net_step {G : Type} [DecidableEq G] {dims : G → ℕ} {lab1 lab2 : B → G}
    {F : (G → ℕ) → (G → ℕ) → α} {D : Finset P} {p : P} (bs : List B) (C : Finset B) (hn : bs.Nodup)
    (hC : ∀ b ∈ bs, b ∉ C) (hd : ∀ b ∈ bs, dims (lab1 b) = dim b)
    (hF : ∀ x y φ, (∀ b, b ∉ C → (∃ q ∈ D, touch q b) → φ b = x (lab1 b)) →
      (∀ b, touch p b → φ b = y (lab2 b)) → F x y = net dim S C (insert p D) φ)
    (i1 : ∀ b ∈ bs, ∀ b', b' ∉ C → (∃ q ∈ D, touch q b') → lab1 b' = lab1 b → b' = b)
    (i2 : ∀ b ∈ bs, ∀ b', touch p b' → lab2 b' = lab2 b → b' = b) (x y : G → ℕ) (φ : B → ℕ)
    (h1 : ∀ b, b ∉ C → (∃ q ∈ D, touch q b) → b ∉ bs → φ b = x (lab1 b))
    (h2 : ∀ b, touch p b → b ∉ bs → φ b = y (lab2 b)) :
    sumPairs dims F (bs.map fun b => (lab1 b, lab2 b)) x y = net dim S (C ∪ bs.toFinset) (insert p D) φ := by
  suffices H : ∀ l : List B, l.Sublist bs → ∀ x y φ,
      (∀ b, b ∉ C → (∃ q ∈ D, touch q b) → b ∉ l → φ b = x (lab1 b)) →
      (∀ b, touch p b → b ∉ l → φ b = y (lab2 b)) →
      sumPairs dims F (l.map fun b => (lab1 b, lab2 b)) x y = net dim S (C ∪ l.toFinset) (insert p D) φ from
    H bs (List.Sublist.refl _) x y φ h1 h2
  intro l hl
  induction l with
  | nil =>
    intro x y φ h1 h2
    simp only [List.map_nil, sumPairs, List.toFinset_nil, Finset.union_empty]
    exact hF x y φ (fun b hb hq => h1 b hb hq (by simp)) fun b hb => h2 b hb (by simp)
  | cons b l ih =>
    intro x y φ h1 h2
    have hb : b ∈ bs := hl.subset (by simp)
    have hbl : b ∉ l := (List.nodup_cons.1 (hl.nodup hn)).1
    rw [List.map_cons, sumPairs, List.toFinset_cons, Finset.union_insert, ← net_bond (by simp [hC b hb, hbl])]
    refine Finset.sum_congr (by rw [hd b hb]) fun k _ => ?_
    refine ih ((List.sublist_cons_self b l).trans hl) _ _ _ (fun b' hb' hq hl' => ?_) fun b' hb' hl' => ?_
    · by_cases e : b' = b
      · subst e
        simp
      · rw [Function.update_of_ne e, Function.update_of_ne fun h => e (i1 b hb b' hb' hq h)]
        exact h1 b' hb' hq (by simp [e, hl'])
    · by_cases e : b' = b
      · subst e
        simp
      · rw [Function.update_of_ne e, Function.update_of_ne fun h => e (i2 b hb b' hb' h)]
        exact h2 b' hb' (by simp [e, hl'])

end TAT.Torus
