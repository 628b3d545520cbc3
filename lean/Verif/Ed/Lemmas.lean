import Verif.Ed.Spec
import Verif.Diag.Lemmas

/-!
# Lemmas for `examples/square_heisenberg_ed.cpp`
-/

namespace TAT.Ed

set_option linter.unusedSectionVars false

open Diag (DiagEnvOk)

variable {ν α β P : Type} [LinearOrder ν] [Field α] [LinearOrder β] [Field β] [DecidableEq P] {e : NetEnv ν α β}
  {nm : String → ν} {node : P → String}

/-! ## names -/

/-- The names of edges. -/
inductive Lab (P : Type)
  | site (p : P)
  | prime (p : P)
  | op (k : Fin 4)
deriving DecidableEq

/-- The string of a label. -/
def labText (node : P → String) : Lab P → String
  | .site p => node p
  | .prime p => "_" ++ node p
  | .op 0 => "I1"
  | .op 1 => "I2"
  | .op 2 => "O1"
  | .op 3 => "O2"

theorem op_mem (node : P → String) (k : Fin 4) : labText node (.op k) ∈ ["I1", "I2", "O1", "O2"] := by
  match k with
  | 0 => simp [labText]
  | 1 => simp [labText]
  | 2 => simp [labText]
  | 3 => simp [labText]

theorem prime_op (x : String) : "_" ++ x ∉ ["I1", "I2", "O1", "O2"] := by
  have h : ∀ y : String, y.toList.head? ≠ some '_' → "_" ++ x ≠ y := by
    rintro y hy rfl
    exact hy (by simp [String.toList_append])
  simp only [List.mem_cons, List.not_mem_nil, or_false, not_or]
  exact ⟨h _ (by decide), h _ (by decide), h _ (by decide), h _ (by decide)⟩

theorem labText_injective (hn : NodesOk node) : Function.Injective (labText node) := by
  have h1 : ∀ p k, labText node (.site p) ≠ labText node (.op k) := fun p k h => hn.op p (by
    have := op_mem node k
    rwa [← h] at this)
  have h2 : ∀ p k, labText node (.prime p) ≠ labText node (.op k) := fun p k h =>
    prime_op (node p) (by
      have := op_mem node k
      rwa [← h] at this)
  intro g g' h
  match g, g' with
  | .site p, .site q => rw [hn.inj h]
  | .site p, .prime q => exact absurd h (hn.prime p q)
  | .prime p, .site q => exact absurd h.symm (hn.prime q p)
  | .prime p, .prime q =>
    have h : "_" ++ node p = "_" ++ node q := h
    have h' := congrArg String.toList h
    rw [String.toList_append, String.toList_append] at h'
    rw [hn.inj (String.toList_inj.1 (List.append_cancel_left h'))]
  | .site p, .op k => exact absurd h (h1 p k)
  | .op k, .site p => exact absurd h.symm (h1 p k)
  | .prime p, .op k => exact absurd h (h2 p k)
  | .op k, .prime p => exact absurd h.symm (h2 p k)
  | .op k, .op k' =>
    congr 1
    revert k k'
    have : ∀ k k', (["I1", "I2", "O1", "O2"].getD k.val "" = ["I1", "I2", "O1", "O2"].getD k'.val "") →
      (k : Fin 4) = k' := by decide
    intro k k' h
    refine this k k' ?_
    have hk : ∀ k : Fin 4, labText node (.op k) = ["I1", "I2", "O1", "O2"].getD k.val "" := fun k => by
      match k with
      | 0 => rfl
      | 1 => rfl
      | 2 => rfl
      | 3 => rfl
    rw [← hk, ← hk]
    exact h

/-- The name of a label. -/
def labName (nm : String → ν) (node : P → String) (g : Lab P) : ν := nm (labText node g)

/-- The edges of a state. -/
def stateLegs : Lab P → Option ℕ
  | .site _ => some 2
  | _ => none

/-- The edges of a bond. -/
def bondLegs (i j : P) : Lab P → Option ℕ
  | .site p => if p = i ∨ p = j then some 2 else none
  | .prime p => if p = i ∨ p = j then some 2 else none
  | .op _ => none

/-- The indices of a configuration. -/
def spinsOf (s : Spins P) : Lab P → ℕ
  | .site p => (s p).val
  | _ => 0

/-! ## states -/

theorem spinsAt_site (hi : Function.Injective nm) (hn : NodesOk node) (s : Spins P) (p : P) :
    spinsAt nm node s (nm (node p)) = (s p).val :=
  (hi.comp hn.inj).extend_apply _ _ p

theorem IsState.leg_eq {t r : Tensor ν NoSymmetry α} (ht : IsState nm node t) (hr : IsState nm node r) (m : ν) :
    leg r m = leg t m := by
  by_cases h : ∃ p, m = nm (node p)
  · obtain ⟨p, rfl⟩ := h
    rw [ht.site, hr.site]
  · have h1 : leg t m = none := by
      by_contra hn
      exact h (ht.only m hn)
    have h2 : leg r m = none := by
      by_contra hn
      exact h (hr.only m hn)
    rw [h1, h2]

theorem IsState.of_leg {t r : Tensor ν NoSymmetry α} (ht : IsState nm node t) (hr : Dense r)
    (hl : ∀ m, leg r m = leg t m) : IsState nm node r :=
  ⟨hr, fun k => by rw [hl, ht.site], fun m hm => ht.only m (by rwa [hl] at hm)⟩

/-- The stored elements are the amplitudes. -/
theorem IsState.elems (hi : Function.Injective nm) (hn : NodesOk node) {t : Tensor ν NoSymmetry α}
    (ht : IsState nm node t) {a : α} : a ∈ allElems t ↔ ∃ s : Spins P, ampOf nm node t s = a := by
  rw [dense_elems ht.dense]
  constructor
  · rintro ⟨x, hx, rfl⟩
    have hb : ∀ p, x (nm (node p)) < 2 := fun p => by
      have := hx (nm (node p)) (by rw [ht.site]; simp)
      rwa [legDim, ht.site] at this
    refine ⟨fun p => ⟨x (nm (node p)), hb p⟩, val_congr fun m hm => ?_⟩
    obtain ⟨p, rfl⟩ := ht.only m hm
    rw [spinsAt_site hi hn]
  · rintro ⟨s, rfl⟩
    refine ⟨spinsAt nm node s, fun m hm => ?_, rfl⟩
    obtain ⟨p, rfl⟩ := ht.only m hm
    rw [spinsAt_site hi hn, legDim, ht.site]
    exact (s p).isLt

/-- `norm<-1>` is the largest modulus of the amplitudes. -/
theorem normMax_greatest (he : DiagEnvOk e) (hn : NodesOk node) {t : Tensor ν NoSymmetry α}
    (ht : IsState e.nm node t) :
    IsGreatest (Set.range fun s : Spins P => e.abs (ampOf e.nm node t s)) (normMax e.abs t) := by
  obtain ⟨h1, h2, h3⟩ := C48_max e.abs t
  refine ⟨?_, ?_⟩
  · rcases h3 with h3 | ⟨x, hx, h3⟩
    · refine ⟨fun _ => 0, ?_⟩
      have := h1 _ ((ht.elems he.inj hn).2 ⟨fun _ => 0, rfl⟩)
      rw [h3] at this ⊢
      exact le_antisymm this (he.abs_nonneg _)
    · obtain ⟨s, rfl⟩ := (ht.elems he.inj hn).1 hx
      exact ⟨s, h3.symm⟩
  · rintro _ ⟨s, rfl⟩
    exact h1 _ ((ht.elems he.inj hn).2 ⟨s, rfl⟩)

theorem mapped_state {t : Tensor ν NoSymmetry α} (ht : IsState nm node t) {f : α → α} (hf : f 0 = 0) :
    IsState nm node (scalarInplaceNumber f t) ∧
      ∀ s : Spins P, ampOf nm node (scalarInplaceNumber f t) s = f (ampOf nm node t s) := by
  obtain ⟨h1, h2, h3⟩ := dense_number ht.dense hf
  exact ⟨ht.of_leg h1 h2, fun s => h3 _⟩

theorem state_legs (hi : Function.Injective nm) (hn : NodesOk node) {t : Tensor ν NoSymmetry α}
    (ht : IsState nm node t) : HasLegs (labName nm node) t stateLegs := by
  have hι : Function.Injective (labName nm node) := hi.comp (labText_injective hn)
  refine ⟨ht.dense, fun m hm => ?_, fun g => ?_⟩
  · obtain ⟨p, rfl⟩ := ht.only m hm
    exact ⟨.site p, rfl⟩
  · by_cases h : ∃ p, g = .site p
    · obtain ⟨p, rfl⟩ := h
      exact ht.site p
    · have h0 : gleg (labName nm node) t g = none := by
        by_contra h1
        obtain ⟨p, hp⟩ := ht.only _ h1
        exact h ⟨p, hι (a₂ := .site p) hp⟩
      rw [h0]
      cases g with
      | site p => exact absurd ⟨p, rfl⟩ h
      | prime p => rfl
      | op k => rfl

theorem state_of {t : Tensor ν NoSymmetry α} (ht : HasLegs (labName nm node) t stateLegs) : IsState nm node t := by
  refine ⟨ht.dense, fun p => ht.legs (.site p), fun m hm => ?_⟩
  obtain ⟨g, rfl⟩ := ht.only m hm
  have h := ht.legs g
  have hm : gleg (labName nm node) t g ≠ none := hm
  rw [h] at hm
  cases g with
  | site p => exact ⟨p, rfl⟩
  | prime p => exact absurd rfl hm
  | op k => exact absurd rfl hm

theorem ampOf_gval (hi : Function.Injective nm) (hn : NodesOk node) {t : Tensor ν NoSymmetry α}
    (ht : IsState nm node t) (s : Spins P) : ampOf nm node t s = gval (labName nm node) t (spinsOf s) := by
  have hι : Function.Injective (labName nm node) := hi.comp (labText_injective hn)
  rw [ampOf, val_eq_gval hι (state_legs hi hn ht)]
  refine gval_congr hι (state_legs hi hn ht) fun g hg => ?_
  cases g with
  | site p => exact spinsAt_site hi hn s p
  | prime p => exact absurd rfl hg
  | op k => exact absurd rfl hg

/-! ## bonds -/

theorem bond_legs (hi : Function.Injective nm) (hn : NodesOk node) {t : Tensor ν NoSymmetry α}
    {b : (P × P) × Matrix4 α} (hb : IsBond nm node t b) :
    HasLegs (labName nm node) t (bondLegs b.1.1 b.1.2) ∧ ∀ f, gval (labName nm node) t f =
      b.2 (f (.site b.1.1)) (f (.site b.1.2)) (f (.prime b.1.1)) (f (.prime b.1.2)) := by
  obtain ⟨⟨i, j⟩, h⟩ := b
  obtain ⟨hij, hm, hv⟩ := hb
  simp only at hij hm hv ⊢
  have hι : Function.Injective (labName nm node) := hi.comp (labText_injective hn)
  have hmem : ∀ g : Lab P, labName nm node g ∈ t.names ↔ bondLegs i j g ≠ none := by
    intro g
    have h4 : ([nm (node i), nm (node j), nm ("_" ++ node i), nm ("_" ++ node j)] : List ν) =
      ([.site i, .site j, .prime i, .prime j] : List (Lab P)).map (labName nm node) := rfl
    rw [hm.names, h4, List.mem_map_of_injective hι]
    cases g <;> simp [bondLegs, or_iff_not_imp_left]
  have h1 : HasLegs (labName nm node) t (bondLegs i j) := by
    refine ⟨hm.dense, fun m hm' => ?_, fun g => ?_⟩
    · rw [leg_ne_none, hm.names] at hm'
      simp only [List.mem_cons, List.not_mem_nil, or_false] at hm'
      rcases hm' with rfl | rfl | rfl | rfl
      exacts [⟨.site i, rfl⟩, ⟨.site j, rfl⟩, ⟨.prime i, rfl⟩, ⟨.prime j, rfl⟩]
    · by_cases hg : bondLegs i j g = none
      · rw [hg]
        by_contra h0
        exact (hmem g).1 (leg_ne_none.1 h0) hg
      · have := hm.legs (labName nm node g) (hm.names ▸ (hmem g).2 hg)
        rw [gleg, this]
        cases g with
        | site p =>
          rw [bondLegs] at hg ⊢
          split at hg
          · next h => rw [if_pos h]
          · exact absurd rfl hg
        | prime p =>
          rw [bondLegs] at hg ⊢
          split at hg
          · next h => rw [if_pos h]
          · exact absurd rfl hg
        | op k => exact absurd rfl hg
  refine ⟨h1, fun f => ?_⟩
  rw [← hv, matrixOf, val_eq_gval hι h1]
  refine gval_congr hι h1 fun g hg => ?_
  have hne : ∀ g g' : Lab P, g ≠ g' → ¬ labName nm node g = labName nm node g' := fun g g' h h' => h (hι h')
  show f g = if labName nm node g = labName nm node (.site i) then _ else
    if labName nm node g = labName nm node (.site j) then _ else
    if labName nm node g = labName nm node (.prime i) then _ else
    if labName nm node g = labName nm node (.prime j) then _ else _
  simp only [hι.eq_iff]
  cases g with
  | site p =>
    by_cases hp : p = i
    · subst hp
      simp
    · by_cases hq : p = j
      · subst hq
        simp [hp]
      · exact absurd (by simp [bondLegs, hp, hq]) hg
  | prime p =>
    by_cases hp : p = i
    · subst hp
      simp
    · by_cases hq : p = j
      · subst hq
        simp [hp]
      · exact absurd (by simp [bondLegs, hp, hq]) hg
  | op k => exact absurd rfl hg

theorem bondTerm_ok (he : DiagEnvOk e) (hn : NodesOk node) {t bond : Tensor ν NoSymmetry α}
    {b : (P × P) × Matrix4 α} (ht : IsState e.nm node t) (hb : IsBond e.nm node bond b) :
    ∃ r, bondTerm e t bond = .ok r ∧ IsState e.nm node r ∧
      ∀ s : Spins P, ampOf e.nm node r s = applyTo b.2 (ampOf e.nm node t) b.1 s := by
  obtain ⟨b1, b2⟩ := bond_legs he.inj hn hb
  have hnames := hb.2.1.names
  have hij := hb.1
  obtain ⟨⟨i, j⟩, h⟩ := b
  simp only at hij b1 b2 hnames ⊢
  have hι : Function.Injective (labName e.nm node) := he.inj.comp (labText_injective hn)
  have h1 := state_legs he.inj hn ht
  have l1 : ∀ g, leg t (labName e.nm node g) = stateLegs g := h1.legs
  have l2 : ∀ g, leg bond (labName e.nm node g) = bondLegs i j g := b1.legs
  obtain ⟨r, r1, r2, r3, r4⟩ := dense_all e.ce he.gemm he.names ht.dense b1.dense
    (ns := [labName e.nm node (.site i), labName e.nm node (.site j)])
    (by simp [hι.eq_iff, hij]) (fun m => by
      constructor
      · intro hm
        simp only [List.mem_cons, List.not_mem_nil, or_false] at hm
        rcases hm with rfl | rfl <;> simp [l1, l2, stateLegs, bondLegs]
      · rintro ⟨m1, m2⟩
        obtain ⟨p, rfl⟩ := ht.only m m1
        have m2 : leg bond (labName e.nm node (.site p)) ≠ none := m2
        rw [l2, bondLegs] at m2
        split at m2
        · next h =>
          rcases h with rfl | rfl
          · exact List.mem_cons_self
          · exact List.mem_cons_of_mem _ List.mem_cons_self
        · exact absurd rfl m2) (fun m hm => by
      simp only [List.mem_cons, List.not_mem_nil, or_false] at hm
      rcases hm with rfl | rfl <;> simp [l1, l2, stateLegs, bondLegs])
  have c2 : HasLegs (labName e.nm node) r (fun g => if g = .site i ∨ g = .site j then none else
      (stateLegs g).or (bondLegs i j g)) := by
    refine ⟨r2, fun m hm => ?_, fun g => ?_⟩
    · rw [r3] at hm
      split at hm
      · exact absurd rfl hm
      · by_cases h0 : leg t m = none
        · rw [h0] at hm
          exact b1.only m hm
        · obtain ⟨p, rfl⟩ := ht.only m h0
          exact ⟨.site p, rfl⟩
    · rw [gleg, r3, l1, l2]
      refine if_congr ?_ rfl rfl
      simp [hι.eq_iff]
  have c3 : ∀ f, gval (labName e.nm node) r f = ∑ a ∈ Finset.range 2, ∑ c ∈ Finset.range 2,
      gval (labName e.nm node) t (Function.update (Function.update f (.site i) a) (.site j) c) *
      gval (labName e.nm node) bond (Function.update (Function.update f (.site i) a) (.site j) c) := fun f => by
    rw [gval, r4]
    simp only [sumNames, legDim, l1, stateLegs, Option.getD_some, extend_update hι]
    rfl
  obtain ⟨d1, d2⟩ := label_rename hι c2 [(.prime i, .site i), (.prime j, .site j)] (by simp [hij]) (by simp [hij])
    (by simp)
  have d1 : HasLegs (labName e.nm node) _ stateLegs := ⟨d1.dense, d1.only, fun g => (d1.legs g).trans (by
    cases g with
    | site p =>
      by_cases h1 : i = p
      · subst h1
        simp [renameLegs, stateLegs, bondLegs]
      · by_cases h2 : j = p
        · subst h2
          simp [renameLegs, stateLegs, bondLegs, h1]
        · have h1' : ¬ p = i := fun h => h1 h.symm
          have h2' : ¬ p = j := fun h => h2 h.symm
          simp [renameLegs, stateLegs, bondLegs, h1, h2, h1', h2']
    | prime p =>
      by_cases h1 : p = i <;> by_cases h2 : p = j <;> simp [renameLegs, stateLegs, bondLegs, h1, h2]
    | op k => simp [renameLegs, stateLegs, bondLegs])⟩
  have hs := state_of d1
  refine ⟨_, ?_, hs, fun s => ?_⟩
  · rw [bondTerm, r1, Outcome.bind, hnames]
    rfl
  · rw [ampOf_gval he.inj hn hs, d2, c3]
    rw [applyTo, Finset.sum_range]
    refine Finset.sum_congr rfl fun a _ => ?_
    rw [Finset.sum_range]
    refine Finset.sum_congr rfl fun c _ => ?_
    rw [ampOf_gval he.inj hn ht, b2]
    congr 1
    · refine gval_congr hι h1 fun g hg => ?_
      cases g with
      | prime p => exact absurd rfl hg
      | op k => exact absurd rfl hg
      | site p =>
        rw [spinsOf]
        by_cases h2 : p = j
        · subst h2
          simp
        · by_cases h1 : p = i
          · subst h1
            rw [Function.update_of_ne (by simpa using h2), Function.update_self, Function.update_of_ne h2,
              Function.update_self]
          · rw [Function.update_of_ne (by simpa using h2), Function.update_of_ne (by simpa using h1),
              Function.update_of_ne h2, Function.update_of_ne h1]
            simp [renameTo, spinsOf]
    · simp [renameTo, spinsOf, hij]

theorem addBonds_ok (he : DiagEnvOk e) (hn : NodesOk node) (env : Env NoSymmetry α) {t : Tensor ν NoSymmetry α}
    (ht : IsState e.nm node t) {bonds : List (Tensor ν NoSymmetry α)} {bs : List ((P × P) × Matrix4 α)}
    (hb : List.Forall₂ (IsBond e.nm node) bonds bs) {acc : Tensor ν NoSymmetry α} (ha : IsState e.nm node acc) :
    ∃ r, addBonds e env t bonds acc = .ok r ∧ IsState e.nm node r ∧
      ∀ s, ampOf e.nm node r s = ampOf e.nm node acc s + hamiltonian bs (ampOf e.nm node t) s := by
  induction hb generalizing acc with
  | nil => exact ⟨acc, rfl, ha, fun s => (add_zero _).symm⟩
  | cons h hs ih =>
    obtain ⟨a, a1, a2, a3⟩ := bondTerm_ok he hn ht h
    obtain ⟨b, b1, b2, b3, b4⟩ := dense_inplace env (op := fun x y => x + y) (add_zero _) ha.dense a2.dense
      (ha.leg_eq a2)
    obtain ⟨r, r1, r2, r3⟩ := ih (ha.of_leg b2 b3)
    refine ⟨r, ?_, r2, fun s => ?_⟩
    · rw [addBonds, a1, Outcome.bind, b1, Outcome.bind]
      exact r1
    · rw [r3, ampOf, b4]
      show ampOf e.nm node acc s + ampOf e.nm node a s + _ = _
      rw [a3, add_assoc]
      rfl

theorem applyTo_smul (h : Matrix4 α) (c : α) (ψ : Spins P → α) (l : P × P) (s : Spins P) :
    applyTo h (fun s => c * ψ s) l s = c * applyTo h ψ l s := by
  simp only [applyTo, Finset.mul_sum, mul_assoc]

theorem hamiltonian_smul (bs : List ((P × P) × Matrix4 α)) (c : α) (ψ : Spins P → α) (s : Spins P) :
    hamiltonian bs (fun s => c * ψ s) s = c * hamiltonian bs ψ s := by
  simp only [hamiltonian, applyTo_smul, List.sum_map_mul_left]

theorem shifted_smul (a : α) (bs : List ((P × P) × Matrix4 α)) (c : α) (ψ : Spins P → α) (s : Spins P) :
    shifted a bs (fun s => c * ψ s) s = c * shifted a bs ψ s := by
  rw [shifted, shifted, hamiltonian_smul]
  ring

/-- An update divides by the largest modulus and applies `a - H`. -/
theorem update_ok [IsStrictOrderedRing β] (he : DiagEnvOk e) (hn : NodesOk node) (env : Env NoSymmetry α)
    {lat : Lattice ν α β} {bs : List ((P × P) × Matrix4 α)} (hl : IsLattice e.nm node lat bs) :
    ((∀ s : Spins P, ampOf e.nm node lat.state s = 0) ∧ update e env lat = .error "division by zero") ∨
    ∃ lat' m, update e env lat = .ok lat' ∧ IsLattice e.nm node lat' bs ∧ lat'.approximate = lat.approximate ∧
      IsGreatest (Set.range fun s : Spins P => e.abs (ampOf e.nm node lat.state s)) m ∧ 0 < m ∧ e.c m ≠ 0 ∧
      lat'.energy = some (lat.approximate - m) ∧
      ∀ s : Spins P, ampOf e.nm node lat'.state s =
        (e.c m)⁻¹ * shifted (e.c lat.approximate) bs (ampOf e.nm node lat.state) s := by
  have ht := hl.state
  have hg := normMax_greatest he hn ht
  obtain ⟨h1, h2, h3⟩ := C48_max e.abs lat.state
  by_cases hz : normMax e.abs lat.state = 0
  · refine Or.inl ⟨fun s => ?_, by rw [update, normalised, if_pos hz]; rfl⟩
    have := hg.2 ⟨s, rfl⟩
    rw [hz] at this
    exact (he.abs_zero _).1 (le_antisymm this (he.abs_nonneg _))
  · right
    have hc : e.c (normMax e.abs lat.state) ≠ 0 := fun h => by
      have := he.abs_c _ h2
      rw [h, (he.abs_zero 0).2 rfl] at this
      exact hz this.symm
    obtain ⟨k1, k2⟩ := mapped_state ht (f := fun x => x / e.c (normMax e.abs lat.state)) (zero_div _)
    obtain ⟨z, z1, z2, z3, z4⟩ := dense_zero e.junk k1.dense
    obtain ⟨r, r1, r2, r3⟩ := addBonds_ok he hn env k1 hl.bonds (k1.of_leg z2 z3)
    obtain ⟨q1, q2⟩ := mapped_state k1 (f := fun x => x * e.c lat.approximate) (zero_mul _)
    obtain ⟨b, b1, b2, b3, b4⟩ := dense_inplace env (op := fun x y => x - y) (sub_zero _) q1.dense r2.dense
      (q1.leg_eq r2)
    refine ⟨⟨b, lat.bonds, some (lat.approximate - normMax e.abs lat.state), lat.approximate⟩, _, ?_,
      ⟨q1.of_leg b2 b3, hl.bonds⟩, rfl, hg, lt_of_le_of_ne h2 (Ne.symm hz), hc, rfl, fun s => ?_⟩
    · rw [update, normalised, if_neg hz, Outcome.bind]
      show (sameShape e.junk (scalarInplaceNumber (fun x => x / e.c (normMax e.abs lat.state)) lat.state)).bind _ = _
      rw [z1, Outcome.bind, r1, Outcome.bind, b1, Outcome.bind]
    · rw [ampOf, b4]
      show ampOf e.nm node _ s - ampOf e.nm node r s = _
      have hk : (ampOf e.nm node (scalarInplaceNumber (fun x => x / e.c (normMax e.abs lat.state)) lat.state) : Spins P → α)
          = fun s => (e.c (normMax e.abs lat.state))⁻¹ * ampOf e.nm node lat.state s := by
        funext s
        rw [k2, div_eq_mul_inv, mul_comm]
      rw [q2, r3, hk, hamiltonian_smul, ampOf, z4, zero_add, shifted]
      ring

theorem bond_ok (hi : Function.Injective e.nm) (hn : NodesOk node) {matrix : Tensor ν NoSymmetry α}
    (hm : IsMatrix matrix (e.nm "I1") (e.nm "I2") (e.nm "O1") (e.nm "O2")) {i j : P} (hij : i ≠ j) :
    IsBond e.nm node (e.rename matrix [("I1", node i), ("I2", node j), ("O1", "_" ++ node i), ("O2", "_" ++ node j)])
      ((i, j), matrixOf matrix (e.nm "I1") (e.nm "I2") (e.nm "O1") (e.nm "O2")) := by
  have hι : Function.Injective (labName e.nm node) := hi.comp (labText_injective hn)
  have hji : j ≠ i := hij.symm
  let L : Lab P → ν := labName e.nm node
  let d : List (ν × ν) := [(L (.op 0), L (.site i)), (L (.op 1), L (.site j)), (L (.op 2), L (.prime i)),
    (L (.op 3), L (.prime j))]
  have hL : ∀ g g', L g = L g' ↔ g = g' := fun g g' => hι.eq_iff
  have hnames : matrix.names = [L (.op 0), L (.op 1), L (.op 2), L (.op 3)] := hm.names
  have hlegs : ∀ k, leg matrix (L (.op k)) = some 2 := fun k => by
    refine hm.legs _ ?_
    rw [← hm.names, hnames]
    match k with
    | 0 => simp
    | 1 => simp
    | 2 => simp
    | 3 => simp
  have d1 : (d.map Prod.fst).Nodup := by simp [d, hL]
  obtain ⟨q1, q2, q3⟩ := dense_rename hm.dense (d := d) d1 (by simp [d, hL, hij]) (fun c hc => by
    rw [leg_eq_none, hnames]
    simp only [d, List.mem_cons, List.not_mem_nil, or_false] at hc
    rcases hc with rfl | rfl | rfl | rfl <;> simp [hL])
  have hnew : ∀ n, newName (OMap.ofList d) n = (OMap.find? d n).getD n := fun n => by rw [newName, find?_ofList d1]
  have hr : e.rename matrix [("I1", node i), ("I2", node j), ("O1", "_" ++ node i), ("O2", "_" ++ node j)] =
    edgeRename matrix (OMap.ofList d) := rfl
  have hf : ∀ k : Fin 4, (OMap.find? d (L (.op k))).getD (L (.op k)) =
      match k with
      | 0 => L (.site i)
      | 1 => L (.site j)
      | 2 => L (.prime i)
      | 3 => L (.prime j) := by
    intro k
    match k with
    | 0 => simp [d, OMap.find?]
    | 1 => simp [d, OMap.find?, hL]
    | 2 => simp [d, OMap.find?, hL]
    | 3 => simp [d, OMap.find?, hL]
  rw [hr]
  refine ⟨hij, ⟨q1, ?_, fun m hm' => ?_⟩, fun x y a c => ?_⟩
  · show matrix.names.map (newName (OMap.ofList d)) = _
    rw [hnames]
    simp only [List.map_cons, List.map_nil, hnew, hf]
    rfl
  · have hm' : m ∈ [L (.site i), L (.site j), L (.prime i), L (.prime j)] := hm'
    rw [q2]
    simp only [List.mem_cons, List.not_mem_nil, or_false] at hm'
    rcases hm' with rfl | rfl | rfl | rfl
    · simp only [d, List.find?_cons, decide_true]
      exact hlegs _
    · simp only [d, List.find?_cons, hL, hij, Lab.site.injEq, decide_true, decide_false]
      exact hlegs _
    · simp only [d, List.find?_cons, hL, reduceCtorEq, decide_true, decide_false]
      exact hlegs _
    · simp only [d, List.find?_cons, hL, hij, Lab.prime.injEq, reduceCtorEq, decide_true, decide_false]
      exact hlegs _
  · refine (q3 _).trans ?_
    show _ = matrixOf matrix (e.nm "I1") (e.nm "I2") (e.nm "O1") (e.nm "O2") x y a c
    rw [matrixOf]
    refine val_congr fun n hn' => ?_
    show (if _ = L (.site i) then x else if _ = L (.site j) then y else if _ = L (.prime i) then a else
      if _ = L (.prime j) then c else 0) = if n = L (.op 0) then x else if n = L (.op 1) then y else
      if n = L (.op 2) then a else if n = L (.op 3) then c else 0
    rw [leg_ne_none, hnames] at hn'
    simp only [List.mem_cons, List.not_mem_nil, or_false] at hn'
    rcases hn' with rfl | rfl | rfl | rfl <;> rw [hf] <;> simp [hL, hji]

theorem updates_succ (env : Env NoSymmetry α) (N : ℕ) (lat : Lattice ν α β) :
    updates e env (N + 1) lat = (updates e env N lat).bind (update e env) := by
  induction N generalizing lat with
  | zero =>
    show (update e env lat).bind _ = update e env lat
    cases update e env lat <;> rfl
  | succ N ih =>
    rw [updates, updates]
    cases h : update e env lat with
    | ok l =>
      simp only [Outcome.bind]
      exact ih l
    | error s => rfl
    | ub => rfl

/-- Many updates apply `a - H` so many times. -/
theorem updates_ok [IsStrictOrderedRing β] (he : DiagEnvOk e) (hn : NodesOk node) (env : Env NoSymmetry α) (N : ℕ)
    {lat : Lattice ν α β} {bs : List ((P × P) × Matrix4 α)} (hl : IsLattice e.nm node lat bs) :
    (∃ k < N, (∀ s : Spins P, (shifted (e.c lat.approximate) bs)^[k] (ampOf e.nm node lat.state) s = 0) ∧
      updates e env N lat = .error "division by zero") ∨
    ∃ lat' c, updates e env N lat = .ok lat' ∧ IsLattice e.nm node lat' bs ∧ lat'.approximate = lat.approximate ∧
      c ≠ 0 ∧ ∀ s : Spins P, ampOf e.nm node lat'.state s =
        c * (shifted (e.c lat.approximate) bs)^[N] (ampOf e.nm node lat.state) s := by
  induction N with
  | zero => exact Or.inr ⟨lat, 1, rfl, hl, rfl, one_ne_zero, fun s => (one_mul _).symm⟩
  | succ N ih =>
    rcases ih with ⟨k, k1, k2, k3⟩ | ⟨l, c, l1, l2, l3, l4, l5⟩
    · exact Or.inl ⟨k, by omega, k2, by rw [updates_succ, k3, Outcome.bind]⟩
    · rcases update_ok he hn env l2 with ⟨u1, u2⟩ | ⟨l', m, u1, u2, u3, u4, u5, u6, u7, u8⟩
      · refine Or.inl ⟨N, by omega, fun s => ?_, by rw [updates_succ, l1, Outcome.bind, u2]⟩
        have := u1 s
        rw [l5] at this
        exact (mul_eq_zero.1 this).resolve_left l4
      · refine Or.inr ⟨l', (e.c m)⁻¹ * c, by rw [updates_succ, l1, Outcome.bind, u1], u2, u3.trans l3,
          mul_ne_zero (inv_ne_zero u6) l4, fun s => ?_⟩
        have hl5 : (ampOf e.nm node l.state : Spins P → α) =
          fun s => c * (shifted (e.c lat.approximate) bs)^[N] (ampOf e.nm node lat.state) s := funext l5
        rw [u8, l3, hl5, shifted_smul, Function.iterate_succ_apply', mul_assoc]

end TAT.Ed
