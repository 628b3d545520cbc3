import Verif.Mps.UpdateCut
import Verif.Square.DenseNew
import Verif.Square.DenseGrad
import Mathlib.Tactic.IntervalCases

/-!
# C85: what updates do to the state of a chain
-/

namespace TAT

set_option linter.unusedSectionVars false

open Mps Finset

variable {ν α β : Type} [LinearOrder ν] [Field α] [LinearOrder β] [Field β] {e : NetEnv ν α β}

/-- **C85**: if no singular value is cut, `update_once` gives a chain whose state is, up to a factor, the
one with the operator applied to the bonds from the left to the right, and then, with its two sites
exchanged, to the bonds from the right to the left.  If a tensor is zero on the way, so is this state. -/
theorem C85_update_once (he : MpsNetOk e) {d D : ℕ} {op : Tensor ν NoSymmetry α} (ho : IsOperator e.nm d op)
    {chain : List (Tensor ν NoSymmetry α)} (hc : IsChain e.nm d none chain) (hn : chain ≠ [])
    (hD : Keeps (d ^ (chain.length - 1)) D) :
    let target := sweeps chain.length d (operatorVal e.nm op) (exchanged (operatorVal e.nm op))
      (psi (mpsSites e.nm chain) 0)
    (NoState chain.length d target ∧ mpsUpdateOnce e D op chain = .error "division by zero") ∨
    ∃ chain', mpsUpdateOnce e D op chain = .ok chain' ∧ chain'.length = chain.length ∧
      IsChain e.nm d none chain' ∧ SameState chain.length d (psi (mpsSites e.nm chain') 0) target :=
  update_once he ho hc hn hD

/-- **C85**: the operator applied is the one which `energy` measures, in both directions, if it is not
changed by the exchange of its sites.  Without this the statement is false: `C85_exchanged`. -/
theorem C85_update_once_partial (he : MpsNetOk e) {d D : ℕ} {op : Tensor ν NoSymmetry α}
    (ho : IsOperator e.nm d op) (hs : ∀ x y a b, operatorVal e.nm op x y a b = operatorVal e.nm op y x b a)
    {chain : List (Tensor ν NoSymmetry α)} (hc : IsChain e.nm d none chain) (hn : chain ≠ [])
    (hD : Keeps (d ^ (chain.length - 1)) D) :
    let target := sweeps chain.length d (operatorVal e.nm op) (operatorVal e.nm op)
      (psi (mpsSites e.nm chain) 0)
    (NoState chain.length d target ∧ mpsUpdateOnce e D op chain = .error "division by zero") ∨
    ∃ chain', mpsUpdateOnce e D op chain = .ok chain' ∧ chain'.length = chain.length ∧
      IsChain e.nm d none chain' ∧ SameState chain.length d (psi (mpsSites e.nm chain') 0) target := by
  have := update_once he ho hc hn hD
  rwa [show exchanged (operatorVal e.nm op) = operatorVal e.nm op from by
    funext x y a b
    exact (hs x y a b).symm] at this

/-- **C85**: with any dimension other than zero, also one that cuts singular values, `update_once` gives
a chain of the same length, with no bond above this dimension; or a tensor is zero on the way. -/
theorem C85_cut (he : MpsNetOk e) {d D : ℕ} {op : Tensor ν NoSymmetry α} (ho : IsOperator e.nm d op)
    {chain : List (Tensor ν NoSymmetry α)} (hc : IsChain e.nm d none chain) (hn : chain ≠ []) (hD : D ≠ 0) :
    mpsUpdateOnce e D op chain = .error "division by zero" ∨
    ∃ chain', mpsUpdateOnce e D op chain = .ok chain' ∧ chain'.length = chain.length ∧
      IsChain e.nm d none chain' ∧
      (D ≠ 2 ^ 64 - 1 → ∀ t ∈ chain', legDim t (e.nm "Left") ≤ D ∧ legDim t (e.nm "Right") ≤ D) :=
  once_any he ho hc hn hD

/-- A chain without a site. -/
theorem C85_empty (D : ℕ) (op : Tensor ν NoSymmetry α) : mpsUpdateOnce e D op [] = .ub := rfl

theorem filled_val {n0 n1 n2 n3 : ν} {data : List α} (x : ν → ℕ) (h0 : x n0 < 2) (h1 : x n1 < 2)
    (h2 : x n2 < 2) (h3 : x n3 < 2) :
    val (⟨[n0, n1, n2, n3], [plainEdge 2, plainEdge 2, plainEdge 2, plainEdge 2],
      [([0, 0, 0, 0], data)]⟩ : Tensor ν NoSymmetry α) x =
      data.getD (8 * x n0 + 4 * x n1 + 2 * x n2 + x n3) 0 := by
  rw [val, amp, if_pos]
  · rw [elem, elemAt, keyOf, idxOf]
    simp only [List.map_cons, List.map_nil]
    rw [List.getD_eq_getElem?_getD]
    generalize x n0 = a at *
    generalize x n1 = b at *
    generalize x n2 = c at *
    generalize x n3 = d at *
    interval_cases a <;> interval_cases b <;> interval_cases c <;> interval_cases d <;> rfl
  · refine ⟨?_, rfl⟩
    intro y hy
    simp only [List.zip_cons_cons, List.zip_nil_right, List.mem_cons, List.not_mem_nil, or_false] at hy
    rcases hy with rfl | rfl | rfl | rfl
    · exact h0
    · exact h1
    · exact h2
    · exact h3

/-- The tensor which `mpsFilled` gives. -/
def filledTensor (nm : String → ν) (data : List α) : Tensor ν NoSymmetry α :=
  ⟨[nm "I0", nm "I1", nm "O0", nm "O1"], [plainEdge 2, plainEdge 2, plainEdge 2, plainEdge 2],
    [([0, 0, 0, 0], data)]⟩

theorem filled_names (hi : Function.Injective e.nm) : [e.nm "I0", e.nm "I1", e.nm "O0", e.nm "O1"].Nodup := by
  have h : ["I0", "I1", "O0", "O1"].Nodup := by decide
  exact h.map hi

theorem list16 {data : List α} (hd : data.length = 16) :
    data = (List.range 16).map fun i => data.getD i 0 := by
  refine List.ext_getElem (by simpa using hd) fun i h1 h2 => ?_
  rw [List.getElem_map, List.getElem_range, List.getD_eq_getElem _ _ h1]

theorem filled_ok (hi : Function.Injective e.nm) {data : List α} (hd : data.length = 16) :
    mpsFilled e.toAuxEnv data 0 [e.nm "I0", e.nm "I1", e.nm "O0", e.nm "O1"]
      [plainEdge 2, plainEdge 2, plainEdge 2, plainEdge 2] = .ok (filledTensor e.nm data) := by
  have key := mkTensor_eq e.junk [e.nm "I0", e.nm "I1", e.nm "O0", e.nm "O1"]
    ([2, 2, 2, 2].map plainEdge) false (fun e h => by
      obtain ⟨d, -, rfl⟩ := List.mem_map.1 h
      exact List.pairwise_singleton _ _) rfl (filled_names hi)
  rw [show arrowed ([2, 2, 2, 2].map plainEdge) false = [2, 2, 2, 2].map plainEdge from rfl, prunedEdges_plain,
    freshBlocks, blockShapes_plain] at key
  have key' : mkTensor e.junk [e.nm "I0", e.nm "I1", e.nm "O0", e.nm "O1"]
    [plainEdge 2, plainEdge 2, plainEdge 2, plainEdge 2] = .ok ⟨[e.nm "I0", e.nm "I1", e.nm "O0", e.nm "O1"],
      [plainEdge 2, plainEdge 2, plainEdge 2, plainEdge 2],
      [([0, 0, 0, 0], (List.range 16).map (e.junk [0, 0, 0, 0]))]⟩ := key
  rw [mpsFilled, key', Outcome.bind, if_pos (by rw [hd]; exact le_of_eq rfl)]
  have : filledTensor e.nm data = filledTensor e.nm ((List.range 16).map fun i => data.getD i 0) :=
    congrArg _ (list16 hd)
  rw [this]
  rfl

theorem filled_operator (hi : Function.Injective e.nm) {data : List α} (hd : data.length = 16) :
    IsOperator e.nm 2 (filledTensor e.nm data) ∧ ∀ x y a b, x < 2 → y < 2 → a < 2 → b < 2 →
      operatorVal e.nm (filledTensor e.nm data) x y a b = data.getD (8 * x + 4 * y + 2 * a + b) 0 := by
  obtain ⟨h1, h2⟩ := dense_plain (t := filledTensor e.nm data) (dims := [2, 2, 2, 2]) (filled_names hi) rfl rfl
    (by simp [filledTensor, hd]) (by simp)
  refine ⟨⟨h1, fun n => ?_⟩, fun x y a b hx hy ha hb => ?_⟩
  · split
    · next h =>
      simp only [List.mem_cons, List.not_mem_nil, or_false] at h
      rcases h with rfl | rfl | rfl | rfl
      · exact h2 0 (by simp [filledTensor])
      · exact h2 1 (by simp [filledTensor])
      · exact h2 2 (by simp [filledTensor])
      · exact h2 3 (by simp [filledTensor])
    · next h => exact leg_eq_none.2 h
  · have hne : ∀ s t : String, s ≠ t → e.nm s ≠ e.nm t := fun s t h h' => h (hi h')
    have e1 := hne "I1" "I0" (by decide)
    have e2 := hne "O0" "I0" (by decide)
    have e3 := hne "O0" "I1" (by decide)
    have e4 := hne "O1" "I0" (by decide)
    have e5 := hne "O1" "I1" (by decide)
    have e6 := hne "O1" "O0" (by decide)
    rw [operatorVal, filledTensor, filled_val]
    all_goals simp [e1, e2, e3, e4, e5, e6, hx, hy, ha, hb]

theorem updater_ok (hi : Function.Injective e.nm) (env : Env NoSymmetry α) {h : List α} (hh : h.length = 16) (δ : α) :
    ∃ ham op, mpsHamiltonian e.toAuxEnv h 0 = .ok ham ∧ mpsUpdater e.toAuxEnv env δ ham = .ok op ∧
      IsOperator e.nm 2 ham ∧ IsOperator e.nm 2 op ∧ ∀ x y a b, x < 2 → y < 2 → a < 2 → b < 2 →
        operatorVal e.nm ham x y a b = h.getD (8 * x + 4 * y + 2 * a + b) 0 ∧
        operatorVal e.nm op x y a b = updaterOf δ h x y a b := by
  obtain ⟨f1, f2⟩ := filled_operator hi hh
  obtain ⟨g1, g2⟩ := filled_operator hi (data := [1, 0, 0, 0, 0, 1, 0, 0, 0, 0, 1, 0, 0, 0, 0, 1]) rfl
  obtain ⟨s, s1, s2, s3, s4⟩ := dense_scalarNumber e.junk f1.dense (f := fun x => δ * x) (mul_zero _)
  obtain ⟨r, r1, r2, r3, r4⟩ := dense_binary env e.junk (op := fun x y => x - y) (sub_zero _) g1.dense s2
    (fun n => by rw [s3, f1.legs, g1.legs])
  refine ⟨filledTensor e.nm h, r, filled_ok hi hh, ?_, f1, ⟨r2, fun n => (r3 n).trans (g1.legs n)⟩,
    fun x y a b hx hy ha hb => ⟨f2 x y a b hx hy ha hb, ?_⟩⟩
  · have := filled_ok hi (data := [1, 0, 0, 0, 0, 1, 0, 0, 0, 0, 1, 0, 0, 0, 0, 1]) rfl
    have h' : mpsFilled e.toAuxEnv [1, 0, 0, 0, 0, 1, 0, 0, 0, 0, 1, 0, 0, 0, 0, 1] 0
        (filledTensor e.nm h).names (filledTensor e.nm h).core.edges = _ := this
    rw [mpsUpdater, h', Outcome.bind, s1, Outcome.bind, r1]
  · rw [operatorVal, r4, s4]
    have k1 := g2 x y a b hx hy ha hb
    have k2 := f2 x y a b hx hy ha hb
    rw [operatorVal] at k1 k2
    rw [k1, k2, updaterOf]
    congr 1
    interval_cases x <;> interval_cases y <;> interval_cases a <;> interval_cases b <;> rfl

/-- **C85**: the Hamiltonian of the first object, and the operator with which it is updated. -/
theorem C85_updater (he : MpsNetOk e) (env : Env NoSymmetry α) {h : List α} (hh : h.length = 16) (δ : α) :
    ∃ ham op, mpsHamiltonian e.toAuxEnv h 0 = .ok ham ∧ mpsUpdater e.toAuxEnv env δ ham = .ok op ∧
      IsOperator e.nm 2 ham ∧ IsOperator e.nm 2 op ∧ ∀ x y a b, x < 2 → y < 2 → a < 2 → b < 2 →
        operatorVal e.nm ham x y a b = h.getD (8 * x + 4 * y + 2 * a + b) 0 ∧
        operatorVal e.nm op x y a b = updaterOf δ h x y a b :=
  updater_ok he.net.inj env hh δ

/-- **C85**: the counter of the constructor is not set to zero again.  A second object in the same program
reads after the end of the list. -/
theorem C85_second (he : MpsNetOk e) {h : List α} (hh : h.length = 16) :
    mpsHamiltonian e.toAuxEnv h 16 = .ub := by
  have key := mkTensor_eq e.junk [e.nm "I0", e.nm "I1", e.nm "O0", e.nm "O1"]
    ([2, 2, 2, 2].map plainEdge) false (fun e h => by
      obtain ⟨d, -, rfl⟩ := List.mem_map.1 h
      exact List.pairwise_singleton _ _) rfl (filled_names he.net.inj)
  rw [show arrowed ([2, 2, 2, 2].map plainEdge) false = [2, 2, 2, 2].map plainEdge from rfl, prunedEdges_plain,
    freshBlocks, blockShapes_plain] at key
  have key' : mkTensor e.junk [e.nm "I0", e.nm "I1", e.nm "O0", e.nm "O1"]
    [⟨false, [(0, 2)]⟩, ⟨false, [(0, 2)]⟩, ⟨false, [(0, 2)]⟩, ⟨false, [(0, 2)]⟩] =
      .ok ⟨[e.nm "I0", e.nm "I1", e.nm "O0", e.nm "O1"],
      [plainEdge 2, plainEdge 2, plainEdge 2, plainEdge 2],
      [([0, 0, 0, 0], (List.range 16).map (e.junk [0, 0, 0, 0]))]⟩ := key
  rw [mpsHamiltonian, mpsFilled, key', Outcome.bind, if_neg]
  rw [hh]
  show ¬ 32 ≤ 16
  omega

/-! ### the run -/

theorem apply_congr {n d i : ℕ} {h h' : ℕ → ℕ → ℕ → ℕ → α} (hi : i + 1 < n)
    (hh : ∀ x y a b, x < d → y < d → a < d → b < d → h x y a b = h' x y a b) (φ : List ℕ → α) :
    SameState n d (applyAt d h i φ) (applyAt d h' i φ) := by
  refine ⟨1, one_ne_zero, fun s h1 h2 => ?_⟩
  rw [one_mul, applyAt, applyAt]
  refine sum_congr rfl fun x hx => sum_congr rfl fun y hy => ?_
  rw [hh _ _ _ _ (mem_range.1 hx) (mem_range.1 hy)]
  · rw [List.getD_eq_getElem _ _ (by omega)]
    exact h2 _ (List.getElem_mem _)
  · rw [List.getD_eq_getElem _ _ (by omega)]
    exact h2 _ (List.getElem_mem _)

theorem same_self {n d : ℕ} (φ : List ℕ → α) : SameState n d φ φ := ⟨1, one_ne_zero, fun _ _ _ => (one_mul _).symm⟩

theorem all_congr {n d : ℕ} {h h' : ℕ → ℕ → ℕ → ℕ → α}
    (hh : ∀ x y a b, x < d → y < d → a < d → b < d → h x y a b = h' x y a b) :
    ∀ (is : List ℕ) (_ : ∀ i ∈ is, i + 1 < n) (φ : List ℕ → α),
      SameState n d (applyAll d h is φ) (applyAll d h' is φ)
  | [], _, φ => same_self φ
  | i :: is, hi, φ => (all_congr hh is (fun j hj => hi j (by simp [hj])) _).trans
      ((apply_congr (hi i (by simp)) hh φ).all _ _)

theorem sweeps_same {n d : ℕ} {φ φ' : List ℕ → α} (hs : SameState n d φ φ') (h h' : ℕ → ℕ → ℕ → ℕ → α) :
    SameState n d (sweeps n d h h' φ) (sweeps n d h h' φ') := (hs.all _ _).all _ _

theorem sweeps_none {n d : ℕ} {φ : List ℕ → α} (hs : NoState n d φ) (h h' : ℕ → ℕ → ℕ → ℕ → α) :
    NoState n d (sweeps n d h h' φ) := (hs.all _ _).all _ _

theorem sweeps_congr {n d : ℕ} {h h' g g' : ℕ → ℕ → ℕ → ℕ → α}
    (hh : ∀ x y a b, x < d → y < d → a < d → b < d → h x y a b = h' x y a b)
    (hg : ∀ x y a b, x < d → y < d → a < d → b < d → g x y a b = g' x y a b) (φ : List ℕ → α) :
    SameState n d (sweeps n d h g φ) (sweeps n d h' g' φ) :=
  (all_congr hg _ (fun i hi => by rw [List.mem_reverse, List.mem_range] at hi; omega) _).trans
    ((all_congr hh _ (fun i hi => by rw [List.mem_range] at hi; omega) _).all _ _)

theorem iterate_none {n d : ℕ} {φ : List ℕ → α} (hs : NoState n d φ) (h h' : ℕ → ℕ → ℕ → ℕ → α) :
    ∀ m, NoState n d ((sweeps n d h h')^[m] φ)
  | 0 => hs
  | m + 1 => iterate_none (sweeps_none hs h h') h h' m

theorem iterate_same {n d : ℕ} {φ φ' : List ℕ → α} (hs : SameState n d φ φ') (h h' : ℕ → ℕ → ℕ → ℕ → α) :
    ∀ m, SameState n d ((sweeps n d h h')^[m] φ) ((sweeps n d h h')^[m] φ')
  | 0 => hs
  | m + 1 => iterate_same (sweeps_same hs h h') h h' m

theorem run_ok (he : MpsNetOk e) {d D : ℕ} {op : Tensor ν NoSymmetry α} (ho : IsOperator e.nm d op)
    {h : ℕ → ℕ → ℕ → ℕ → α}
    (hh : ∀ x y a b, x < d → y < d → a < d → b < d → operatorVal e.nm op x y a b = h x y a b) :
    ∀ (is : List ℕ) (chain : List (Tensor ν NoSymmetry α)), IsChain e.nm d none chain → chain ≠ [] →
      Keeps (d ^ (chain.length - 1)) D →
      SweepDoes e d chain.length
        ((sweeps chain.length d h (exchanged h))^[is.length] (psi (mpsSites e.nm chain) 0))
        (mpsSweep (fun chain _ => mpsUpdateOnce e D op chain) is chain)
  | [], chain, hc, _, _ => Or.inr ⟨chain, rfl, rfl, hc, same_self _⟩
  | i :: is, chain, hc, hn, hD => by
    rw [mpsSweep]
    have hcong := sweeps_congr (n := chain.length) hh (g := exchanged (operatorVal e.nm op)) (g' := exchanged h)
      (fun x y a b hx hy ha hb => hh y x b a hy hx hb ha) (psi (mpsSites e.nm chain) 0)
    rcases update_once he ho hc hn hD with ⟨z1, z2⟩ | ⟨chain1, o1, o2, o3, o4⟩
    · exact Or.inl ⟨iterate_none (hcong.none z1) _ _ _, by rw [z2]; rfl⟩
    · have := run_ok he ho hh is chain1 o3 (by rintro rfl; simp at o2; exact hn (by simpa using o2.symm))
        (by rwa [o2])
      rw [o1, Outcome.bind]
      rw [o2] at this
      have same := iterate_same (o4.trans hcong) h (exchanged h) is.length
      rcases this with ⟨z1, z2⟩ | ⟨chain2, q1, q2, q3, q4⟩
      · exact Or.inl ⟨same.none z1, z2⟩
      · exact Or.inr ⟨chain2, q1, q2, q3, q4.trans same⟩

/-- **C85**: what `update` does to the state in any number of steps, if no singular value is cut. -/
theorem C85_run (he : MpsNetOk e) (env : Env NoSymmetry α) {D : ℕ} {h : List α} (hh : h.length = 16) (δ : α)
    {chain : List (Tensor ν NoSymmetry α)} (hc : IsChain e.nm 2 none chain) (hn : chain ≠ [])
    (hD : Keeps (2 ^ (chain.length - 1)) D) (time : ℕ) :
    let target := (sweeps chain.length 2 (updaterOf δ h) (exchanged (updaterOf δ h)))^[time]
      (psi (mpsSites e.nm chain) 0)
    ∃ ham, mpsHamiltonian e.toAuxEnv h 0 = .ok ham ∧
      ((NoState chain.length 2 target ∧ mpsUpdate e env D ham time δ chain = .error "division by zero") ∨
      ∃ chain', mpsUpdate e env D ham time δ chain = .ok chain' ∧ chain'.length = chain.length ∧
        IsChain e.nm 2 none chain' ∧ SameState chain.length 2 (psi (mpsSites e.nm chain') 0) target) := by
  intro target
  obtain ⟨ham, op, h1, h2, -, h4, h5⟩ := C85_updater he env hh δ
  refine ⟨ham, h1, ?_⟩
  have := run_ok he h4 (fun x y a b hx hy ha hb => (h5 x y a b hx hy ha hb).2) (List.range time) chain hc hn hD
  rw [List.length_range] at this
  rw [mpsUpdate, h2, Outcome.bind]
  exact this

theorem run_any (he : MpsNetOk e) {d D : ℕ} {op : Tensor ν NoSymmetry α} (ho : IsOperator e.nm d op) (hD : D ≠ 0) :
    ∀ (is : List ℕ) (chain : List (Tensor ν NoSymmetry α)), IsChain e.nm d none chain → chain ≠ [] →
      mpsSweep (fun chain _ => mpsUpdateOnce e D op chain) is chain = .error "division by zero" ∨
      ∃ chain', mpsSweep (fun chain _ => mpsUpdateOnce e D op chain) is chain = .ok chain' ∧
        chain'.length = chain.length ∧ IsChain e.nm d none chain' ∧
        (is ≠ [] → D ≠ 2 ^ 64 - 1 → ∀ t ∈ chain', legDim t (e.nm "Left") ≤ D ∧ legDim t (e.nm "Right") ≤ D)
  | [], chain, hc, _ => Or.inr ⟨chain, rfl, rfl, hc, fun h => absurd rfl h⟩
  | i :: is, chain, hc, hn => by
    rw [mpsSweep]
    rcases once_any he ho hc hn hD with z | ⟨chain1, o1, o2, o3, o4⟩
    · exact Or.inl (by rw [z]; rfl)
    rw [o1, Outcome.bind]
    rcases run_any he ho hD is chain1 o3 (by rintro rfl; exact hn (by simpa using o2.symm)) with
      z | ⟨chain2, q1, q2, q3, q4⟩
    · exact Or.inl z
    · refine Or.inr ⟨chain2, q1, q2.trans o2, q3, fun _ => ?_⟩
      by_cases h : is = []
      · subst h
        rw [mpsSweep, Outcome.ok.injEq] at q1
        subst q1
        exact o4
      · exact q4 h

/-- **C85**: any number of steps with any dimension other than zero. -/
theorem C85_run_cut (he : MpsNetOk e) (env : Env NoSymmetry α) {D : ℕ} (hD : D ≠ 0) {h : List α}
    (hh : h.length = 16) (δ : α) {chain : List (Tensor ν NoSymmetry α)} (hc : IsChain e.nm 2 none chain)
    (hn : chain ≠ []) (time : ℕ) :
    ∃ ham, mpsHamiltonian e.toAuxEnv h 0 = .ok ham ∧
      (mpsUpdate e env D ham time δ chain = .error "division by zero" ∨
      ∃ chain', mpsUpdate e env D ham time δ chain = .ok chain' ∧ chain'.length = chain.length ∧
        IsChain e.nm 2 none chain' ∧ (time ≠ 0 → D ≠ 2 ^ 64 - 1 →
          ∀ t ∈ chain', legDim t (e.nm "Left") ≤ D ∧ legDim t (e.nm "Right") ≤ D)) := by
  obtain ⟨ham, op, h1, h2, -, h4, -⟩ := C85_updater he env hh δ
  refine ⟨ham, h1, ?_⟩
  rw [mpsUpdate, h2, Outcome.bind]
  rcases run_any he h4 hD (List.range time) chain hc hn with z | ⟨c, q1, q2, q3, q4⟩
  · exact Or.inl z
  · exact Or.inr ⟨c, q1, q2, q3, fun h => q4 (by simpa using h)⟩

end TAT
