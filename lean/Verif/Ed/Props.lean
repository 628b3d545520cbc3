import Verif.Ed.Grid
import Verif.Mps.UpdateProps
import Mathlib.Tactic.FieldSimp

/-!
# C89: the largest eigenvalue of `a - H` for the Heisenberg model
-/

namespace TAT.Ed

set_option linter.unusedSectionVars false

open Diag (DiagEnvOk)
open Mps

variable {ν α β P : Type} [LinearOrder ν] [Field α] [LinearOrder β] [Field β] [DecidableEq P] {e : NetEnv ν α β}
  {node : P → String}

/-- **C89**: the constructor gives a state with the numbers of the generator and no bonds, for any sites with
different names. -/
theorem C89_new {S : Type} (hi : Function.Injective e.nm) (hn : NodesOk node) (gen : S → α × S) (s : S)
    {ps : List P} (hp : ps.Nodup) (hall : ∀ p, p ∈ ps) (a : β) :
    ∃ lat, newLattice e gen s (ps.map node) a = .ok lat ∧ IsLattice e.nm node lat ([] : List ((P × P) × Matrix4 α)) ∧
      allElems lat.state = outputs gen s (2 ^ ps.length) ∧ lat.state.names = ps.map (fun p => e.nm (node p)) ∧
      lat.energy = none ∧ lat.approximate = |a| := by
  have hnd : ((ps.map node).map e.nm).Nodup := (hp.map hn.inj).map hi
  obtain ⟨t, t1, t2, t3, t4, t5⟩ := dense_set e.junk gen s (dims := List.replicate ps.length 2) hnd (by simp)
    (fun d hd => by rw [List.eq_of_mem_replicate hd]; decide)
  have hmap : ((ps.map node).map fun _ => (⟨false, [(0, 2)]⟩ : Edge NoSymmetry)) =
      (List.replicate ps.length 2).map plainEdge := by
    rw [List.map_replicate, List.map_const', List.length_map]
    rfl
  refine ⟨_, by rw [newLattice, hmap, t1, Outcome.bind], ⟨⟨t2, fun p => ?_, fun m hm => ?_⟩, .nil⟩, ?_, ?_, rfl, rfl⟩
  · obtain ⟨k, hk, rfl⟩ := List.getElem_of_mem (hall p)
    have := t4 k (by simpa using hk)
    simpa using this
  · rw [leg_ne_none, t3, List.map_map] at hm
    obtain ⟨p, -, rfl⟩ := List.mem_map.1 hm
    exact ⟨p, rfl⟩
  · show allElems (setWith gen s t) = _
    rw [t5, List.prod_replicate]
  · show (setWith gen s t).names = _
    rw [t3, List.map_map]
    rfl

/-- **C89**: `set_bond` adds an operator to the Hamiltonian. -/
theorem C89_set_bond (hi : Function.Injective e.nm) (hn : NodesOk node) {lat : Lattice ν α β}
    {bs : List ((P × P) × Matrix4 α)} (hl : IsLattice e.nm node lat bs) {matrix : Tensor ν NoSymmetry α}
    (hm : IsMatrix matrix (e.nm "I1") (e.nm "I2") (e.nm "O1") (e.nm "O2")) {i j : P} (hij : i ≠ j) :
    IsLattice e.nm node (setBond e lat (node i) (node j) matrix)
      (bs ++ [((i, j), matrixOf matrix (e.nm "I1") (e.nm "I2") (e.nm "O1") (e.nm "O2"))]) ∧
    (setBond e lat (node i) (node j) matrix).state = lat.state ∧
    (setBond e lat (node i) (node j) matrix).approximate = lat.approximate :=
  ⟨⟨hl.state, List.rel_append hl.bonds (.cons (bond_ok hi hn hm hij) .nil)⟩, rfl, rfl⟩

/-- **C89**: one `update` divides the state by its largest modulus and applies `a - H`.  The energy is `a` without the
largest modulus before the update.  If the state is zero, there is a division by zero. -/
theorem C89_update [IsStrictOrderedRing β] (he : DiagEnvOk e) (hn : NodesOk node) (env : Env NoSymmetry α)
    {lat : Lattice ν α β} {bs : List ((P × P) × Matrix4 α)} (hl : IsLattice e.nm node lat bs) :
    ((∀ s : Spins P, ampOf e.nm node lat.state s = 0) ∧ update e env lat = .error "division by zero") ∨
    ∃ lat' m, update e env lat = .ok lat' ∧ IsLattice e.nm node lat' bs ∧ lat'.approximate = lat.approximate ∧
      IsGreatest (Set.range fun s : Spins P => e.abs (ampOf e.nm node lat.state s)) m ∧ 0 < m ∧ e.c m ≠ 0 ∧
      lat'.energy = some (lat.approximate - m) ∧
      ∀ s : Spins P, ampOf e.nm node lat'.state s =
        (e.c m)⁻¹ * shifted (e.c lat.approximate) bs (ampOf e.nm node lat.state) s :=
  update_ok he hn env hl

/-- **C89**: `N` updates apply `a - H` to the state `N` times, up to a factor which is not zero.  There is a division
by zero only if a state before the last one is zero. -/
theorem C89_steps [IsStrictOrderedRing β] (he : DiagEnvOk e) (hn : NodesOk node) (env : Env NoSymmetry α) (N : ℕ)
    {lat : Lattice ν α β} {bs : List ((P × P) × Matrix4 α)} (hl : IsLattice e.nm node lat bs) :
    (∃ k < N, (∀ s : Spins P, (shifted (e.c lat.approximate) bs)^[k] (ampOf e.nm node lat.state) s = 0) ∧
      updates e env N lat = .error "division by zero") ∨
    ∃ lat' c, updates e env N lat = .ok lat' ∧ IsLattice e.nm node lat' bs ∧ lat'.approximate = lat.approximate ∧
      c ≠ 0 ∧ ∀ s : Spins P, ampOf e.nm node lat'.state s =
        c * (shifted (e.c lat.approximate) bs)^[N] (ampOf e.nm node lat.state) s :=
  updates_ok he hn env N hl

/-- **C89**: the energy after `N + 2` updates is `a` without the quotient of the largest moduli of
`(a - H) ^ (N + 1) ψ` and `(a - H) ^ N ψ`. -/
theorem C89_energy [IsStrictOrderedRing β] (he : DiagEnvOk e) (hn : NodesOk node) (env : Env NoSymmetry α) (N : ℕ)
    {lat lat' : Lattice ν α β} {bs : List ((P × P) × Matrix4 α)} (hl : IsLattice e.nm node lat bs)
    (h : updates e env (N + 2) lat = .ok lat') :
    ∃ m m', 0 < m ∧
      IsGreatest (Set.range fun s : Spins P =>
        e.abs ((shifted (e.c lat.approximate) bs)^[N] (ampOf e.nm node lat.state) s)) m ∧
      IsGreatest (Set.range fun s : Spins P =>
        e.abs ((shifted (e.c lat.approximate) bs)^[N + 1] (ampOf e.nm node lat.state) s)) m' ∧
      lat'.energy = some (lat.approximate - m' / m) := by
  have abs_pos : ∀ x, x ≠ 0 → 0 < e.abs x := fun x hx =>
    lt_of_le_of_ne (he.abs_nonneg x) fun h => hx ((he.abs_zero x).1 h.symm)
  have scale : ∀ (c : α) (ψ : Spins P → α) (m : β), c ≠ 0 → IsGreatest (Set.range fun s => e.abs (c * ψ s)) m →
      IsGreatest (Set.range fun s => e.abs (ψ s)) (m / e.abs c) := by
    rintro c ψ m hc ⟨⟨s, hs⟩, h2⟩
    have hp := abs_pos c hc
    have hs : e.abs (c * ψ s) = m := hs
    refine ⟨⟨s, ?_⟩, ?_⟩
    · show e.abs (ψ s) = _
      rw [← hs, he.abs_mul, mul_div_cancel_left₀ _ hp.ne']
    · rintro _ ⟨s', rfl⟩
      have : e.abs (c * ψ s') ≤ m := h2 ⟨s', rfl⟩
      rw [he.abs_mul] at this
      show e.abs (ψ s') ≤ _
      rw [le_div_iff₀ hp, mul_comm]
      exact this
  rcases updates_ok he hn env N hl with ⟨k, k1, k2, k3⟩ | ⟨l, c, l1, l2, l3, l4, l5⟩
  · rw [updates_succ, updates_succ, k3] at h
    exact absurd h (by simp [Outcome.bind])
  · rw [updates_succ, updates_succ, l1, Outcome.bind] at h
    rcases update_ok he hn env l2 with ⟨u1, u2⟩ | ⟨l', m, u1, u2, u3, u4, u5, u6, u7, u8⟩
    · rw [u2] at h
      exact absurd h (by simp [Outcome.bind])
    · rw [u1, Outcome.bind] at h
      rcases update_ok he hn env u2 with ⟨v1, v2⟩ | ⟨l'', m', v1, v2, v3, v4, v5, v6, v7, v8⟩
      · rw [v2] at h
        exact absurd h (by simp)
      · rw [v1] at h
        obtain rfl : l'' = lat' := by simpa using h
        have hl5 : (ampOf e.nm node l.state : Spins P → α) =
          fun s => c * (shifted (e.c lat.approximate) bs)^[N] (ampOf e.nm node lat.state) s := funext l5
        have hu8 : (ampOf e.nm node l'.state : Spins P → α) =
            fun s => ((e.c m)⁻¹ * c) * (shifted (e.c lat.approximate) bs)^[N + 1] (ampOf e.nm node lat.state) s := by
          funext s
          rw [u8, l3, hl5, shifted_smul, Function.iterate_succ_apply', mul_assoc]
        rw [hl5] at u4
        rw [hu8] at v4
        have hc := abs_pos c l4
        refine ⟨m / e.abs c, m' / e.abs ((e.c m)⁻¹ * c), div_pos u5 hc, scale _ _ _ l4 u4,
          scale _ _ _ (mul_ne_zero (inv_ne_zero u6) l4) v4, ?_⟩
        rw [v7, u3, l3]
        have hinv : e.abs (e.c m)⁻¹ * m = 1 := by
          have h1 : e.abs 1 = 1 := by
            have h := he.abs_mul 1 1
            rw [mul_one] at h
            exact (mul_right_cancel₀ (abs_pos 1 one_ne_zero).ne' (by rw [one_mul]; exact h)).symm
          have h := he.abs_mul (e.c m)⁻¹ (e.c m)
          rw [inv_mul_cancel₀ u6, h1, he.abs_c _ u5.le] at h
          exact h.symm
        have hx : e.abs (e.c m)⁻¹ ≠ 0 := fun h0 => by
          rw [h0, zero_mul] at hinv
          exact zero_ne_one hinv
        rw [he.abs_mul]
        congr 2
        have : e.abs (e.c m)⁻¹ = m⁻¹ := eq_inv_of_mul_eq_one_left hinv
        rw [this]
        have hm := u5.ne'
        have hc' := hc.ne'
        field_simp

/-- **C89**: for an eigenvector of the Hamiltonian the energy after two or more updates is `a - |a - x|`, where `x` is
the eigenvalue.  This is `x` if `a - x` is not negative, and not otherwise. -/
theorem C89_eigen [IsStrictOrderedRing β] (he : DiagEnvOk e) (hn : NodesOk node) (env : Env NoSymmetry α) (N : ℕ)
    {lat lat' : Lattice ν α β} {bs : List ((P × P) × Matrix4 α)} (hl : IsLattice e.nm node lat bs) {x : α}
    (hx : ∀ s : Spins P, hamiltonian bs (ampOf e.nm node lat.state) s = x * ampOf e.nm node lat.state s)
    (h : updates e env (N + 2) lat = .ok lat') :
    lat'.energy = some (lat.approximate - e.abs (e.c lat.approximate - x)) := by
  have hit : ∀ k (s : Spins P), (shifted (e.c lat.approximate) bs)^[k] (ampOf e.nm node lat.state) s =
      (e.c lat.approximate - x) ^ k * ampOf e.nm node lat.state s := by
    intro k
    induction k with
    | zero =>
      intro s
      rw [pow_zero, one_mul, Function.iterate_zero_apply]
    | succ k ih =>
      intro s
      have : (shifted (e.c lat.approximate) bs)^[k] (ampOf e.nm node lat.state) =
        fun s : Spins P => (e.c lat.approximate - x) ^ k * ampOf e.nm node lat.state s := funext ih
      rw [Function.iterate_succ_apply', this, shifted_smul, shifted, hx]
      ring
  obtain ⟨m, m', h0, h1, h2, h3⟩ := C89_energy he hn env N hl h
  rw [h3]
  have : m' = e.abs (e.c lat.approximate - x) * m := by
    refine h2.unique ⟨?_, ?_⟩
    · obtain ⟨s, hs⟩ := h1.1
      refine ⟨s, ?_⟩
      have hs : e.abs _ = m := hs
      show e.abs _ = _
      rw [← hs, ← he.abs_mul, hit, hit, pow_succ']
      congr 1
      ring
    · rintro _ ⟨s, rfl⟩
      have hs : e.abs _ ≤ m := h1.2 ⟨s, rfl⟩
      show e.abs _ ≤ _
      rw [hit, pow_succ', mul_assoc, he.abs_mul, ← hit]
      exact mul_le_mul_of_nonneg_left hs (he.abs_nonneg _)
  rw [this, mul_div_cancel_right₀ _ h0.ne']

/-- **C89**: the lattice of `fired_main` has the operator on all neighbours, each pair once, and no other ones. -/
theorem C89_square [IsStrictOrderedRing β] {S : Type} (hi : Function.Injective e.nm) (gen : S → α × S) (s : S)
    {matrix : Tensor ν NoSymmetry α} (hm : IsMatrix matrix (e.nm "I1") (e.nm "I2") (e.nm "O1") (e.nm "O2"))
    (n1 n2 : ℕ) :
    ∃ lat, ∃ ls : List ((Fin n1 × Fin n2) × (Fin n1 × Fin n2)),
      squareLattice e gen s matrix n1 n2 = .ok lat ∧ ls.Nodup ∧ (∀ p q, (p, q) ∈ ls ↔ Neighbours p q) ∧
      IsLattice e.nm (squareNode n1 n2) lat
        (ls.map fun l => (l, matrixOf matrix (e.nm "I1") (e.nm "I2") (e.nm "O1") (e.nm "O2"))) ∧
      allElems lat.state = outputs gen s (2 ^ (n1 * n2)) ∧ lat.approximate = 1 := by
  have hn := squareNode_ok n1 n2
  obtain ⟨lat, h1, h2, h3, -, -, h4⟩ := C89_new hi hn gen s (sites_nodup n1 n2) mem_sites (1 : β)
  obtain ⟨ls, l1, l2, l3⟩ := squareBonds_eq n1 n2
  have key : ∀ (ls : List ((Fin n1 × Fin n2) × (Fin n1 × Fin n2))) (lat : Lattice ν α β)
      (bs : List (((Fin n1 × Fin n2) × (Fin n1 × Fin n2)) × Matrix4 α)), (∀ l ∈ ls, l.1 ≠ l.2) →
      IsLattice e.nm (squareNode n1 n2) lat bs →
      let lat' := (ls.map fun l => ((l.1.1.val, l.1.2.val), (l.2.1.val, l.2.2.val))).foldl
        (fun lattice p => setBond e lattice (nodeName p.1) (nodeName p.2) matrix) lat
      IsLattice e.nm (squareNode n1 n2) lat'
        (bs ++ ls.map fun l => (l, matrixOf matrix (e.nm "I1") (e.nm "I2") (e.nm "O1") (e.nm "O2"))) ∧
      lat'.state = lat.state ∧ lat'.approximate = lat.approximate := by
    intro ls
    induction ls with
    | nil =>
      intro lat bs _ h
      refine ⟨?_, rfl, rfl⟩
      rw [List.map_nil (f := fun l => (l, matrixOf matrix (e.nm "I1") (e.nm "I2") (e.nm "O1") (e.nm "O2"))),
        List.append_nil]
      exact h
    | cons l ls ih =>
      intro lat bs hne h
      obtain ⟨a1, a2, a3⟩ := C89_set_bond hi hn h hm (hne l List.mem_cons_self)
      obtain ⟨b1, b2, b3⟩ := ih _ _ (fun l hl => hne l (List.mem_cons_of_mem _ hl)) a1
      rw [List.append_assoc] at b1
      exact ⟨b1, b2.trans a2, b3.trans a3⟩
  have hne : ∀ l ∈ ls, l.1 ≠ l.2 := by
    rintro ⟨p, q⟩ hl hpq
    have hpq : p = q := hpq
    subst hpq
    rcases (l2 p p).1 hl with ⟨h, -⟩ | ⟨-, h⟩ <;> omega
  obtain ⟨k1, k2, k3⟩ := key ls lat [] hne h2
  rw [← l3] at k1 k2 k3
  refine ⟨_, ls, by rw [squareLattice, nodeNames_eq, h1, Outcome.bind], l1, l2, k1, ?_, k3.trans (h4.trans abs_one)⟩
  rw [k2, h3, sites, List.length_product, List.length_finRange, List.length_finRange]

/-- **C89**: what `fired_main` computes.  With the numbers of the generator as the first state `ψ`, the energy after
`N + 2` updates is `1` without the quotient of the largest moduli of `(1 - H) ^ (N + 1) ψ` and `(1 - H) ^ N ψ`, where
`H` is the sum of the operator over all neighbours. -/
theorem C89_run [IsStrictOrderedRing β] (he : DiagEnvOk e) (env : Env NoSymmetry α) {S : Type} (gen : S → α × S)
    (s : S) {matrix : Tensor ν NoSymmetry α}
    (hm : IsMatrix matrix (e.nm "I1") (e.nm "I2") (e.nm "O1") (e.nm "O2")) (n1 n2 N : ℕ) {lat : Lattice ν α β}
    (h : ((squareLattice e gen s matrix n1 n2).bind fun lattice => updates e env (N + 2) lattice) = .ok lat) :
    ∃ t, IsState e.nm (squareNode n1 n2) t ∧ allElems t = outputs gen s (2 ^ (n1 * n2)) ∧
    ∃ ls : List ((Fin n1 × Fin n2) × (Fin n1 × Fin n2)), ls.Nodup ∧ (∀ p q, (p, q) ∈ ls ↔ Neighbours p q) ∧
    let ψ : Spins (Fin n1 × Fin n2) → α := ampOf e.nm (squareNode n1 n2) t
    let step := shifted (e.c 1) (ls.map fun l => (l, matrixOf matrix (e.nm "I1") (e.nm "I2") (e.nm "O1") (e.nm "O2")))
    ∃ m m', 0 < m ∧ IsGreatest (Set.range fun s => e.abs (step^[N] ψ s)) m ∧
      IsGreatest (Set.range fun s => e.abs (step^[N + 1] ψ s)) m' ∧ lat.energy = some (1 - m' / m) := by
  obtain ⟨l, ls, h1, h2, h3, h4, h5, h6⟩ := C89_square he.inj gen s hm n1 n2
  rw [h1, Outcome.bind] at h
  have := C89_energy he (squareNode_ok n1 n2) env N h4 h
  rw [h6] at this
  exact ⟨l.state, h4.state, h5, ls, h2, h3, this⟩

end TAT.Ed
