import Verif.Square.DenseArith
import Verif.TensorMisc.Conjugate
import Verif.Shrink.Props

/-!
# Conjugation, expansion and operators of tensors without symmetry
-/

namespace TAT

set_option linter.unusedSectionVars false

variable {ν α β : Type} [LinearOrder ν]

theorem dense_scalarNumber [Zero α] (junk : List NoSymmetry → ℕ → α) {t : Tensor ν NoSymmetry α} (h : Dense t)
    {f : α → α} (hf : f 0 = 0) :
    ∃ r, scalarNumber junk f t = .ok r ∧ Dense r ∧ (∀ n, leg r n = leg t n) ∧ ∀ x, val r x = f (val t x) := by
  obtain ⟨h1, h2⟩ := C24_number junk f h.wf
  have hw : WF (mapTensor f t) := mapTensor_wf f h.wf
  have hl : ∀ n, leg (mapTensor f t) n = leg t n := leg_eq_of rfl rfl
  exact ⟨_, h1, h.of_eq hw hl, hl, val_map h.wf hw hl hf h2⟩

theorem dense_conjugate [CommRing α] (junk : List NoSymmetry → ℕ → α) {conj : α → α} {isReal : Bool}
    (hreal : isReal = true → ∀ x, conj x = x) (h0 : conj 0 = 0) {t : Tensor ν NoSymmetry α} (h : Dense t) :
    ∃ r, conjugate junk conj isReal t = .ok r ∧ Dense r ∧ (∀ n, leg r n = leg t n) ∧
      ∀ x, val r x = conj (val t x) := by
  obtain ⟨r, h1, h2, h3, -, h5, -, h7⟩ := C26_conjugate junk conj isReal hreal h.wf
  have hl : ∀ n, leg r n = leg t n := fun n => by
    unfold leg
    rw [h3]
    by_cases hn : n ∈ t.names
    · rw [if_pos hn, if_pos hn, dimM, dimM]
      have := h5 n hn 0
      rw [show (-(0 : NoSymmetry)) = 0 from rfl] at this
      rw [this]
    · rw [if_neg hn, if_neg hn]
  have hd : ∀ n, legDim r n = legDim t n := fun n => by rw [legDim, legDim, hl]
  refine ⟨r, h1, h.of_eq h2 hl, hl, fun x => ?_⟩
  by_cases hv : ∀ n, leg t n ≠ none → x n < legDim t n
  · have e1 := elem_val h.wf hv
    have e2 := elem_val h2 (x := x) fun n hn => by rw [hd]; exact hv n (by rwa [hl] at hn)
    have e3 := h7 (fun n => (0, x n)) ((dense_valid h.wf).2 fun n hn => hv n (leg_ne_none.2 hn))
    rw [show negPos (fun n => ((0 : NoSymmetry), x n)) = fun n => (0, x n) from rfl, e2, e1, conjSign,
      if_neg (by decide), applySign_one] at e3
    exact Option.some.inj e3
  · push Not at hv
    obtain ⟨n, hn, hx⟩ := hv
    rw [val_outside h.wf hn hx, val_outside h2 (by rw [hl]; exact hn) (by rw [hd]; exact hx), h0]

/-- One new edge, at one index. -/
theorem dense_expand [CommRing α] (ce : ContractEnv NoSymmetry α) (hg : GemmOk ce.gemm)
    (junk : List NoSymmetry → ℕ → α) {cn : ContractNames ν} (hcn : [cn.c0, cn.c1, cn.c2].Nodup)
    {t : Tensor ν NoSymmetry α} (ht : Dense t) {n : ν} (hn : leg t n = none) {d k : ℕ} (hk : k < d) :
    ∃ r, expand ce junk cn t [⟨n, false, 0, k, d⟩] none = .ok r ∧ Dense r ∧
      (∀ m, leg r m = if m = n then some d else leg t m) ∧
      ∀ x, val r x = if x n = k then val t x else 0 := by
  obtain ⟨r, h1, h2, h3, h4, h5, h6⟩ := C33_expand_partial ce hg junk hcn ht.wf ht.blocks
    (cfg := [⟨n, false, 0, k, d⟩]) (by simp) (by simpa using leg_eq_none.1 hn) (by simpa using hk) (by simp)
    (oldName := none) (by simp)
  have hnames : ∀ m, m ∈ r.names ↔ m = n ∨ m ∈ t.names := fun m => by
    rw [h2]
    simp [mem_others]
  have hl : ∀ m, leg r m = if m = n then some d else leg t m := by
    intro m
    by_cases hm : m = n
    · subst hm
      rw [if_pos rfl, leg_of_mem ((hnames m).2 (Or.inl rfl)), (h4 _ (List.mem_singleton.2 rfl)).1]
      rfl
    · rw [if_neg hm]
      by_cases hmt : m ∈ t.names
      · rw [leg_of_mem ((hnames m).2 (Or.inr hmt)), leg_of_mem hmt, (h5 m (by simpa [mem_others] using hmt)).1]
      · rw [leg_eq_none.2 hmt, leg_eq_none.2 fun h => ((hnames m).1 h).elim hm hmt]
  refine ⟨r, h1, ⟨h3, fun m => ?_⟩, hl, fun x => ?_⟩
  · rw [legDim, hl]
    split
    · exact lt_of_le_of_lt (Nat.zero_le _) hk
    · exact ht.pos m
  by_cases hv : ∀ m, leg r m ≠ none → x m < legDim r m
  · have e1 := elem_val h3 hv
    have e2 := elem_val ht.wf (x := x) fun m hm => by
      have hmn : m ≠ n := fun h => hm (h ▸ hn)
      have := hv m (by rw [hl, if_neg hmn]; exact hm)
      rwa [legDim, hl, if_neg hmn] at this
    have e3 := h6 (fun m => (0, x m)) ((dense_valid h3).2 fun m hm => hv m (leg_ne_none.2 hm))
    rw [e1] at e3
    by_cases hx : x n = k
    · rw [if_pos (by simpa using hx)] at e3
      rw [if_pos hx]
      exact Option.some.inj (e3.trans (by simpa using e2))
    · rw [if_neg (by simpa using hx)] at e3
      rw [if_neg hx]
      exact Option.some.inj e3
  · push Not at hv
    obtain ⟨m, hm, hx⟩ := hv
    rw [val_outside h3 hm hx]
    split
    · next hk' =>
      have hmn : m ≠ n := by
        rintro rfl
        rw [legDim, hl, if_pos rfl, hk'] at hx
        exact absurd hk (not_lt.2 hx)
      rw [hl, if_neg hmn] at hm
      rw [legDim, hl, if_neg hmn] at hx
      rw [val_outside ht.wf hm hx]
    · rfl

/-- `a - b` and the like, for tensors with the same edges in any order. -/
theorem dense_binary [CommRing α] (env : Env NoSymmetry α) (junk : List NoSymmetry → ℕ → α) {op : α → α → α}
    (hop : op 0 0 = 0) {t1 t2 : Tensor ν NoSymmetry α} (h1 : Dense t1) (h2 : Dense t2)
    (hl : ∀ n, leg t2 n = leg t1 n) :
    ∃ r, scalarOp env junk id id op t1 t2 = .ok r ∧ Dense r ∧ (∀ n, leg r n = leg t1 n) ∧
      ∀ x, val r x = op (val t1 x) (val t2 x) := by
  have hmem : ∀ n, n ∈ t2.names ↔ n ∈ t1.names := fun n => by
    rw [← leg_ne_none, ← leg_ne_none, hl]
  have hd : ∀ n, legDim t2 n = legDim t1 n := fun n => by rw [legDim, legDim, hl]
  have hp : t2.names.Perm t1.names := (List.perm_ext_iff_of_nodup h2.wf.nodup h1.wf.nodup).2 hmem
  obtain ⟨r, e1, e2, e3, -, e5, e6⟩ := C24_binary env junk id id op h1.wf h2.wf hp (fun n hn s _ _ => by
    rw [h1.map hn, h2.map ((hmem n).2 hn), hd])
  have hvalid : ∀ x : ν → ℕ, (∀ n ∈ t1.names, x n < legDim r n) ↔ ∀ n ∈ t1.names, x n < legDim t1 n := by
    intro x
    have := (dense_valid e2 (x := x)).symm.trans (e5 fun n => (0, x n))
    rw [e3] at this
    rw [this]
    constructor
    · intro h n hn
      have h' := h.1 n hn
      dsimp only at h'
      rw [← legDim_of_mem hn, ← legDim_of_mem ((hmem n).2 hn), hd, or_self] at h'
      exact h'
    · refine fun h => ⟨fun n hn => Or.inl ?_, ?_⟩
      · dsimp only
        rw [← legDim_of_mem hn]
        exact h n hn
      · exact TatSym.noSym_eq noSymmetry _ _
  have hpos : ∀ n ∈ t1.names, 0 < legDim r n := (hvalid fun _ => 0).2 fun n _ => h1.pos n
  have hdim : ∀ n ∈ t1.names, legDim r n = legDim t1 n := by
    intro n hn
    have key : ∀ k, k < legDim r n ↔ k < legDim t1 n := fun k => by
      constructor
      · intro hk
        have := (hvalid (Function.update (fun _ => 0) n k)).1 (fun m hm => by
          by_cases e : m = n
          · subst e; simpa using hk
          · rw [Function.update_of_ne e]; exact hpos m hm) n hn
        simpa using this
      · intro hk
        have := (hvalid (Function.update (fun _ => 0) n k)).2 (fun m hm => by
          by_cases e : m = n
          · subst e; simpa using hk
          · rw [Function.update_of_ne e]; exact h1.pos m) n hn
        simpa using this
    exact le_antisymm (Nat.le_of_not_lt fun h => lt_irrefl _ ((key _).1 h))
      (Nat.le_of_not_lt fun h => lt_irrefl _ ((key _).2 h))
  have hr : ∀ n, leg r n = leg t1 n := by
    intro n
    by_cases hn : n ∈ t1.names
    · have := hdim n hn
      rw [legDim_of_mem (e3 ▸ hn), legDim_of_mem hn] at this
      rw [leg_of_mem (e3 ▸ hn), leg_of_mem hn, this]
    · rw [leg_eq_none.2 hn, leg_eq_none.2 (e3 ▸ hn)]
  have hdr : ∀ n, legDim r n = legDim t1 n := fun n => by rw [legDim, legDim, hr]
  refine ⟨r, e1, h1.of_eq e2 hr, hr, fun x => ?_⟩
  by_cases hv : ∀ n, leg t1 n ≠ none → x n < legDim t1 n
  · have v1 : ValidPos t1 fun n => (0, x n) := (dense_valid h1.wf).2 fun n hn => hv n (leg_ne_none.2 hn)
    have v2 : ValidPos t2 fun n => (0, x n) := (dense_valid h2.wf).2 fun n hn => by
      rw [hd]; exact hv n (by rw [← hl]; exact leg_ne_none.2 hn)
    have vr : ValidPos r fun n => (0, x n) := (dense_valid e2).2 fun n hn => by
      rw [hdr]; exact hv n (by rw [← hr]; exact leg_ne_none.2 hn)
    have f := e6 _ vr
    rw [valueAt, if_pos v1, valueAt, if_pos v2, elem_val h1.wf hv,
      elem_val h2.wf (fun n hn => by rw [hd]; exact hv n (by rwa [hl] at hn)),
      elem_val e2 (fun n hn => by rw [hdr]; exact hv n (by rwa [hr] at hn)), Option.some.injEq,
      transposeSign, if_neg (by decide), applySign_one] at f
    rw [f]
    rfl
  · push Not at hv
    obtain ⟨n, hn, hx⟩ := hv
    rw [val_outside h1.wf hn hx, val_outside h2.wf (by rw [hl]; exact hn) (by rw [hd]; exact hx),
      val_outside e2 (by rw [hr]; exact hn) (by rw [hdr]; exact hx), hop]

end TAT
