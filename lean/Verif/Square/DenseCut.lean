import Verif.Square.DenseDecomp
import Verif.Svd.Props

/-!
# Singular values which are cut, without symmetry

Without symmetry there is one sector, so that the search for the largest singular value takes the first ones
whatever they are.
-/

namespace TAT

set_option linter.unusedSectionVars false

variable {ν α β : Type} [LinearOrder ν]

/-! ## The plan -/

theorem pick_single [LinearOrder β] [Zero β] (l : List β) {k : ℕ} (hk : k < l.length) :
    ∃ x, pick [((0 : NoSymmetry), l)] [(0, k)] = .ok (0, x) := by
  have h1 : OMap.find? [((0 : NoSymmetry), k)] 0 = some k := by simp [OMap.find?]
  have h2 : l[k]? = some l[k] := List.getElem?_eq_getElem hk
  simp only [pick, List.foldl_cons, List.foldl_nil, pickStep, Outcome.bind, h1, if_neg hk.ne, h2]
  split
  · exact ⟨_, rfl⟩
  · exact ⟨_, rfl⟩

theorem cutLoop_single [LinearOrder β] [Zero β] (l : List β) (n k : ℕ) (hk : k + n ≤ l.length) :
    cutLoop [((0 : NoSymmetry), l)] n [(0, k)] [(0, k)] = .ok ([(0, k + n)], [(0, k + n)]) := by
  induction n generalizing k with
  | zero => rfl
  | succ n ih =>
    obtain ⟨x, hx⟩ := pick_single l (k := k) (by omega)
    have h1 : bump [((0 : NoSymmetry), k)] 0 = .ok [(0, k + 1)] := by simp [bump, OMap.find?, OMap.set]
    rw [cutLoop, hx, Outcome.bind, h1, Outcome.bind, Outcome.bind,
      ih (k + 1) (by omega)]
    rw [show k + 1 + n = k + (n + 1) by omega]

theorem cutPlan_single [LinearOrder β] [Zero β] (l : List β) {D : ℕ} (h0 : D ≠ 0) (h1 : D ≠ 2 ^ 64 - 1)
    (h2 : D < l.length) :
    cutPlan [((0 : NoSymmetry), l)] D = .ok ([(0, l.take D)], [(0, D)], [(0, D)]) := by
  have h3 : D < totalDimension [((0 : NoSymmetry), l)] := by simpa [totalDimension] using h2
  have h4 : resizeTo l D = l.take D := by
    rw [resizeTo, Nat.sub_eq_zero_of_le h2.le, List.replicate_zero, List.append_nil]
  rw [cutPlan, if_pos ⟨h1, h3⟩]
  have h5 : [((0 : NoSymmetry), l)].foldl (fun m e => OMap.set m e.1 0) [] = [((0 : NoSymmetry), 0)] := by
    simp [OMap.set]
  rw [h5, cutLoop_single l D 0 (by omega), Outcome.bind, Nat.zero_add]
  simp [shorten, Outcome.bind, h0, OMap.find?, OMap.set, h4]

theorem cutPlan_whole [LinearOrder β] [Zero β] (S : List (NoSymmetry × List β)) :
    cutPlan S (2 ^ 64 - 1) = .ok (S, [], []) := by
  rw [cutPlan, if_neg]
  exact fun h => h.1 rfl

/-! ## The factors -/

/-- The first tensor has the first elements of the second one along one edge. -/
structure FirstOf (n : ν) (D : ℕ) [Zero α] (B A : Tensor ν NoSymmetry α) : Prop where
  dense : Dense B
  legs : ∀ m, leg B m = if m = n then some D else leg A m
  vals : ∀ x, x n < D → val B x = val A x

theorem HalfOf.firstOf [CommRing α] {t A B : Tensor ν NoSymmetry α} {G : List ν} {n : ν} {left arrow : Bool}
    {DA : List (NoSymmetry × ℕ)} {K D : ℕ} {a : (ν → NoSymmetry × ℕ) → α} (hA : HalfOf t G n left DA arrow A a)
    (hB : HalfOf t G n left (cutMap [(0, D)] DA) arrow B a) (ht : WF t) (hd : Dense A)
    (hK : OMap.find? DA 0 = some K) (h0 : D ≠ 0) (h1 : D < K) : FirstOf n D B A := by
  have hf : OMap.find? (cutMap [((0 : NoSymmetry), D)] DA) 0 = some D := by
    rw [(cutMap_spec _ hA.sorted).2, hK]
    simp [cutDim, OMap.find?, h0, h1.le]
  have hm : dimM (cutMap [((0 : NoSymmetry), D)] DA) 0 = D := by rw [dimM, hf]; rfl
  obtain ⟨c1, c2⟩ := hA.cut_valid hB ht fun s d hs => ⟨K, hK, by
    rw [show s = 0 from rfl, hf] at hs
    exact (Option.some.inj hs) ▸ h1.le⟩
  have hnames : B.names = A.names := hB.names.trans hA.names.symm
  have hn : n ∈ A.names := hA.perm.mem_iff.2 (by simp)
  have hAn : legDim A n = K := by
    rw [legDim_of_mem hn, (hA.view ht).2.1, dimM, hK]; rfl
  have key : ∀ x : ν → ℕ, (∀ m ∈ A.names, x m < legDim B m) ↔ (∀ m ∈ A.names, x m < legDim A m) ∧ x n < D := by
    intro x
    have := c1 fun m => (0, x m)
    rw [dense_valid hB.wf, dense_valid hA.wf, hnames, hm] at this
    exact this
  have pos : ∀ m ∈ A.names, 0 < legDim B m := (key fun _ => 0).2 ⟨fun m _ => hd.pos m, Nat.pos_of_ne_zero h0⟩
  have dim : ∀ m ∈ A.names, legDim B m = if m = n then D else legDim A m := by
    intro m hm
    have one : ∀ k, k < legDim B m ↔ k < legDim A m ∧ (m = n → k < D) := by
      intro k
      have := key (Function.update (fun _ => 0) m k)
      have e1 : ∀ {F : ν → ℕ}, (∀ m ∈ A.names, 0 < F m) →
          ((∀ m' ∈ A.names, Function.update (fun _ => 0) m k m' < F m') ↔ k < F m) := by
        intro F hF
        constructor
        · intro h
          simpa using h m hm
        · intro h m' hm'
          by_cases e : m' = m
          · subst e; simpa using h
          · rw [Function.update_of_ne e]; exact hF m' hm'
      rw [e1 pos, e1 fun m _ => hd.pos m] at this
      rw [this]
      refine and_congr_right fun _ => ?_
      by_cases e : n = m
      · subst e; simp
      · rw [Function.update_of_ne e]
        simp [Ne.symm e, Nat.pos_of_ne_zero h0]
    by_cases e : m = n
    · subst e
      rw [if_pos rfl]
      rw [hAn] at one
      have a1 := one D
      have a2 := one (D - 1)
      simp only [true_implies] at a1 a2
      omega
    · rw [if_neg e]
      have a1 := one (legDim A m)
      have a2 := one (legDim B m)
      simp only [e, false_implies, and_true] at a1 a2
      omega
  refine ⟨⟨hB.wf, fun m => ?_⟩, fun m => ?_, fun x hx => ?_⟩
  · by_cases hm : m ∈ A.names
    · exact pos m hm
    · rw [legDim, leg_eq_none.2 (by rw [hnames]; exact hm)]
      exact Nat.one_pos
  · by_cases hm : m ∈ A.names
    · have h2 := dim m hm
      rw [legDim_of_mem (by rw [hnames]; exact hm)] at h2
      rw [leg_of_mem (by rw [hnames]; exact hm), h2, leg_of_mem hm, legDim_of_mem hm]
      split <;> rfl
    · have e : m ≠ n := fun h => hm (h ▸ hn)
      rw [if_neg e, leg_eq_none.2 hm, leg_eq_none.2 (by rw [hnames]; exact hm)]
  · have hv : ValidPos B (fun m => (0, x m)) ↔ ValidPos A (fun m => (0, x m)) := by
      rw [c1]
      refine and_iff_left ?_
      dsimp only
      rw [hm]; exact hx
    by_cases h : ValidPos A (fun m => (0, x m))
    · have h2 := c2 _ (hv.2 h)
      have e1 := amp_valid hB.wf (hv.2 h)
      have e2 := amp_valid hA.wf h
      rw [h2, e2] at e1
      exact (Option.some.inj e1).symm
    · rw [val, val, amp_zero hA.wf h, amp_zero hB.wf fun h' => h (hv.1 h')]

/-- `svd` with a cut of a tensor without symmetry keeps the first singular values. -/
theorem dense_svd_cut [CommRing α] [LinearOrder β] [Zero β] {c : β → α} {gesvd : Gesvd α β}
    (hsvd : GesvdOk c gesvd) (env : DecompEnv NoSymmetry α)
    (junk : ℕ → α) {sn : SvdNames ν}
    (hx : sn.u ≠ sn.v) {t : Tensor ν NoSymmetry α} (ht : Dense t)
    (set : List ν) {commonU commonV : ν} (hU1 : sn.u ≠ commonU) (hV1 : sn.v ≠ commonV)
    (hU : commonU ∈ set → leg t commonU = none) (hV : commonV ∉ set → leg t commonV = none)
    {u v : Tensor ν NoSymmetry α} {l : List β}
    (h : svd gesvd env junk sn t set commonU commonV (2 ^ 64 - 1) = .ok (u, [(0, l)], v))
    (hu : Dense u) (hv : Dense v) {D : ℕ} (h0 : D ≠ 0) (h1 : D ≠ 2 ^ 64 - 1) (h2 : D < l.length) :
    ∃ u' v', svd gesvd env junk sn t set commonU commonV D = .ok (u', [(0, l.take D)], v') ∧
      FirstOf commonU D u' u ∧ FirstOf commonV D v' v := by
  have nU : commonU ∉ t.names.filter fun n => decide (n ∈ set) := fun h => by
    obtain ⟨a, b⟩ := List.mem_filter.1 h
    exact leg_eq_none.1 (hU (by simpa using b)) a
  have nV : commonV ∉ t.names.filter fun n => !decide (n ∈ set) := fun h => by
    obtain ⟨a, b⟩ := List.mem_filter.1 h
    exact leg_eq_none.1 (hV (by simpa using b)) a
  obtain ⟨S, DU, DV, aU, aV, sp, hs⟩ := svd_spec hsvd env junk hx ht.wf set hU1 hV1 nU nV
  obtain ⟨u0, v0, e0, hu0, hv0⟩ := (hs (2 ^ 64 - 1)).1 _ (cutPlan_whole S)
  rw [h] at e0
  simp only [Outcome.ok.injEq, Prod.mk.injEq] at e0
  obtain ⟨rfl, rfl, rfl⟩ := e0
  obtain ⟨u', v', e1, hu', hv'⟩ := (hs D).1 _ (cutPlan_single l h0 h1 h2)
  rw [cutMap_nil sp.sortedU] at hu0
  rw [cutMap_nil sp.sortedV] at hv0
  have hKU : OMap.find? DU 0 = some l.length := by
    rw [← sp.table]
    simp [OMap.find?]
  have hKV : OMap.find? DV 0 = some l.length := by
    rw [← hKU, sp.opposite]
  exact ⟨u', v', e1, hu0.firstOf hu' ht.wf hu hKU h0 h2, hv0.firstOf hv' ht.wf hv hKV h0 h2⟩

end TAT
