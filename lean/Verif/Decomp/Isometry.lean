import Verif.Decomp.Whole
import Verif.Contract.Sum

/-!
# Factors which are isometries

If the columns (rows) of every block of a factor are orthonormal, so is the factor as a tensor: its
product with its conjugate over all edges but the common one is the unit matrix.
-/

set_option linter.unusedSectionVars false

namespace TAT

variable {ν σ α γ : Type} [LinearOrder ν] [TatSym σ]

section matrices
variable [CommRing α]

/-- The columns of a row-major `m`×`k` matrix are orthonormal. -/
def ColsOrtho (conj : α →+* α) (m k : ℕ) (d : List α) : Prop :=
  ∀ l < k, ∀ l' < k, ((List.range m).map fun i =>
    conj (d.getD (i * k + l) 0) * d.getD (i * k + l') 0).sum = if l = l' then 1 else 0

/-- The rows of a row-major `k`×`n` matrix are orthonormal. -/
def RowsOrtho (conj : α →+* α) (k n : ℕ) (d : List α) : Prop :=
  ∀ l < k, ∀ l' < k, ((List.range n).map fun j =>
    conj (d.getD (l * n + j) 0) * d.getD (l' * n + j) 0).sum = if l = l' then 1 else 0

end matrices

/-- The product of a tensor with its conjugate, over the edges `G`, is the unit matrix of the edge
`c`. -/
def Isometry [CommRing α] (conj : α →+* α) (A : Tensor ν σ α) (G : List ν) (c : ν) : Prop :=
  ∀ i ∈ edgePositions (mapOf A c), ∀ j ∈ edgePositions (mapOf A c), ∀ w0 : ν → σ × ℕ,
    sumOver (fun n => edgePositions (mapOf A n))
      (fun w => conj (amp A (Function.update w c i)) * amp A (Function.update w c j)) G w0 =
    if i = j then 1 else 0

/-- The same of the elements `a` of a factor with the symmetries `D` of the common edge. -/
def CellsOrtho [CommRing α] (conj : α →+* α) (t : Tensor ν σ α) (G : List ν) (c : ν)
    (D : List (σ × ℕ)) (a : (ν → σ × ℕ) → α) : Prop :=
  ∀ s, ∀ l < dimM D s, ∀ l' < dimM D s, ∀ w0 : ν → σ × ℕ,
    sumOver (fun n => edgePositions (mapOf t n))
      (fun w => if (keyOf G w).sum = -s then
        conj (a (Function.update w c (s, l))) * a (Function.update w c (s, l')) else 0) G w0 =
    if l = l' then 1 else 0

section half
variable [CommRing α] {t A : Tensor ν σ α} {G : List ν} {c : ν} {left arrow : Bool}
  {D D' : List (σ × ℕ)} {a : (ν → σ × ℕ) → α} {conj : α →+* α}

/-- An element of a factor at a position within the edges of the tensor. -/
theorem HalfOf.amp_update (h : HalfOf t G c left D' arrow A a) (ht : WF t) {w : ν → σ × ℕ}
    {x : σ × ℕ} (hw : ∀ n ∈ G, (w n).2 < dimM (mapOf t n) (w n).1) (hx : x.2 < dimM D' x.1) :
    amp A (Function.update w c x) =
      if (keyOf G w).sum = -x.1 then a (Function.update w c x) else 0 := by
  obtain ⟨hv, hc, -, hG⟩ := h.view ht
  have hk : ∀ (w : ν → σ × ℕ) x, keyOf G (Function.update w c x) = keyOf G w := fun w x =>
    keyOf_congr fun n hn => Function.update_of_ne (h.ne hn) _ _
  have hfine : FineOk (halfMap t c D') (G ++ [c]) (Function.update w c x) ↔
      (keyOf G w).sum = -x.1 := by
    unfold FineOk
    have hs : (keyOf (G ++ [c]) (Function.update w c x)).sum = (keyOf G w).sum + x.1 := by
      rw [← hk w x]
      simp [keyOf]
    rw [hs]
    constructor
    · rintro ⟨_, h2⟩
      exact eq_neg_of_add_eq_zero_left h2
    · intro h2
      refine ⟨fun n hn => ?_, by rw [h2, neg_add_cancel]⟩
      rcases List.mem_append.1 hn with hn | hn
      · rw [halfMap_free (h.ne hn), Function.update_of_ne (h.ne hn)]
        exact hw n hn
      · rw [List.mem_singleton] at hn
        subst hn
        rw [halfMap_common, Function.update_self]
        exact hx
  split
  · rename_i hs
    have hf := hfine.2 hs
    have := h.elem _ hf
    rw [amp_valid h.wf ((hv _).2 hf), Option.some.injEq] at this
    exact this
  · rename_i hs
    exact amp_zero h.wf fun hc => hs (hfine.1 ((hv _).1 hc))

/-- A factor with orthonormal elements is an isometry, also after a cut. -/
theorem HalfOf.isometry (h : HalfOf t G c left D' arrow A a) (ht : WF t)
    (ho : CellsOrtho conj t G c D a) (hD : ∀ s, dimM D' s ≤ dimM D s) : Isometry conj A G c := by
  obtain ⟨hv, hc, -, hG⟩ := h.view ht
  have hGA : ∀ n ∈ G, n ∈ A.names := fun n hn => h.perm.mem_iff.2 (List.mem_append_left _ hn)
  have sA : ∀ n ∈ G, OMap.Sorted (mapOf A n) := fun n hn => mapOf_sorted h.wf n (hGA n hn)
  have sT : ∀ n ∈ G, OMap.Sorted (mapOf t n) := fun n hn => mapOf_sorted ht n (h.sub n hn)
  have hamp : ∀ (w : ν → σ × ℕ) (x : σ × ℕ), (∀ n ∈ G, (w n).2 < dimM (mapOf t n) (w n).1) →
      x.2 < dimM D' x.1 → amp A (Function.update w c x) =
        if (keyOf G w).sum = -x.1 then a (Function.update w c x) else 0 :=
    fun w x hw hx => h.amp_update ht hw hx
  intro i hi j hj w0
  rw [hc, mem_edgePositions h.sorted] at hi hj
  rw [← sumOver_restrict (E := fun n => edgePositions (mapOf t n)) h.nodup
    (fun n hn => edgePositions_nodup (sT n hn)) (fun n hn => edgePositions_nodup (sA n hn))
    (fun n hn x hx => ?_) (fun w _ _ hw => ?_)]
  · by_cases hs : i.1 = j.1
    · rw [sumOver_congr (F' := fun w => if (keyOf G w).sum = -i.1 then
        conj (a (Function.update w c (i.1, i.2))) * a (Function.update w c (i.1, j.2)) else 0)
        h.nodup fun w hw _ => ?_]
      · rw [ho i.1 i.2 (lt_of_lt_of_le hi (hD _)) j.2 (hs ▸ lt_of_lt_of_le hj (hD _))]
        have : i = j ↔ i.2 = j.2 := ⟨fun h => by rw [h], fun h => Prod.ext hs h⟩
        simp only [this]
      · have hw' : ∀ n ∈ G, (w n).2 < dimM (mapOf t n) (w n).1 := fun n hn =>
          (mem_edgePositions (sT n hn)).1 (hw n hn)
        rw [hamp w i hw' hi, hamp w j hw' hj, ← hs]
        have hj' : (i.1, j.2) = j := by rw [hs]
        rw [hj']
        split <;> simp
    · rw [if_neg fun hc => hs (by rw [hc])]
      refine sumOver_zero h.nodup fun w hw _ => ?_
      have hw' : ∀ n ∈ G, (w n).2 < dimM (mapOf t n) (w n).1 := fun n hn =>
        (mem_edgePositions (sT n hn)).1 (hw n hn)
      rw [hamp w i hw' hi, hamp w j hw' hj]
      by_cases h1 : (keyOf G w).sum = -i.1
      · rw [if_pos h1, if_neg fun h2 => hs (neg_injective (h1.symm.trans h2)), mul_zero]
      · rw [if_neg h1, map_zero, zero_mul]
  · rw [mem_edgePositions (sA n hn)] at hx
    rw [mem_edgePositions (sT n hn)]
    have hk : x.1 ∈ OMap.keys (mapOf A n) := by
      rw [← OMap.find?_isSome]
      unfold dimM at hx
      cases hf : OMap.find? (mapOf A n) x.1 with
      | none => simp [hf] at hx
      | some d => rfl
    unfold dimM at hx ⊢
    rwa [← (hG n hn).2.1 x.1 hk]
  · obtain ⟨n, hn, hx⟩ := hw
    rw [mem_edgePositions (sA n hn)] at hx
    rw [amp_zero h.wf fun hc => hx ?_, map_zero, zero_mul]
    have := ((validPos_iff h.wf).1 hc).1 n (hGA n hn)
    rwa [Function.update_of_ne (h.ne hn)] at this

/-- A sign depending on the symmetry of the common edge does not matter. -/
theorem CellsOrtho.sign (ho : CellsOrtho conj t G c D a) {sg : σ → ℤ}
    (hsg : ∀ s, sg s * sg s = 1) :
    CellsOrtho conj t G c D fun q => sg (q c).1 • a q := by
  intro s l hl l' hl' w0
  rw [← ho s l hl l' hl' w0]
  congr 1
  funext w
  split
  · simp only [Function.update_self, zsmul_eq_mul, map_mul, map_intCast]
    rw [mul_mul_mul_comm, ← Int.cast_mul, hsg, Int.cast_one, one_mul]
  · rfl

theorem CellsOrtho.unfold (ho : CellsOrtho conj t G c D a) (moved signed : Bool) :
    CellsOrtho conj t G c D fun q => unfoldSign moved signed c q • a q :=
  ho.sign (sg := fun s =>
    if TatSym.isFermi σ && (oddInt (TatSym.fermi s) && (moved ^^ signed)) then -1 else 1)
    fun s => by split <;> rfl

end half

section factors
variable {t M T1 T2 : Tensor ν σ α} {G1 G2 : List ν} {F C E1 E2 : Edge σ} {x1 x2 c1 c2 : ν}
  {Q Q' : ℕ → ℕ → List α → List α → γ → List α → Prop} {none : γ} {g : List σ → γ}

theorem Factors.imp (hf : Factors Q none x1 x2 c1 c2 F C E1 E2 M T1 T2 g)
    (h : ∀ {m n data d1 g d2}, Q m n data d1 g d2 → Q' m n data d1 g d2) :
    Factors Q' none x1 x2 c1 c2 F C E1 E2 M T1 T2 g :=
  { hf with
    block := fun s hs => by
      obtain ⟨d, d1, d2, e0, e1, e2, e3, e4⟩ := hf.block s hs
      exact ⟨d, d1, d2, e0, e1, e2, fun hn => h (e3 hn), e4⟩ }

variable [CommRing α] {conj : α →+* α}

/-- The first factor. -/
theorem cells_first (ht : WF t) (hh : Halves t G1 G2 F C M) (hp : t.names.Perm (G1 ++ G2))
    (hf : Factors Q none x1 x2 c1 c2 F C E1 E2 M T1 T2 g) (h1 : c1 ∉ G1)
    (hQ : ∀ {m n data d1 g d2}, Q m n data d1 g d2 → ColsOrtho conj m (min m n) d1) :
    CellsOrtho conj t G1 c1 E1.map fun q => cellAt T1 t true G1 c1 q := by
  have hnd := (List.nodup_append.1 (hp.nodup_iff.1 ht.nodup)).1
  have hs1 : ∀ n ∈ G1, OMap.Sorted (mapOf t n) := fun n hn =>
    mapOf_sorted ht n (hp.mem_iff.2 (List.mem_append_left _ hn))
  intro s l hl l' hl' w0
  have hsC : s ∈ OMap.keys C.map := by
    have := hf.find1 s
    by_contra hc
    rw [if_neg hc] at this
    simp [dimM, this] at hl
  have hsF : -s ∈ OMap.keys F.map := (hf.keys_iff hh.wf hh.edges _).2 (by rwa [neg_neg])
  obtain ⟨k1, k1'⟩ := hf.dim1 hh.wf hh.edges hsF
  rw [neg_neg] at k1 k1'
  have hr : dimM E1.map s = rankAt F C (-s) := k1
  rw [hr] at hl hl'
  obtain ⟨d, d1, d2, e0, e1, e2, hq, _⟩ := hf.block _ hsF
  have hrank : rankAt F C (-s) = min (dimOf F (-s)) (dimOf C s) := by
    unfold rankAt; rw [neg_neg]
  have hq := hQ (hq (Nat.mul_ne_zero (by omega) (by rw [neg_neg]; omega)))
  rw [neg_neg] at hq e1
  rw [← hrank] at hq
  obtain ⟨b1, f1, _, g1⟩ := two_block hf.wf1 (r := true) hf.edges1 hsF k1' (neg_add_cancel s)
  simp only [pairOf, if_true] at f1 g1
  rw [e1, Option.some.injEq] at f1
  subst f1
  rw [← hq l hl l' hl', hh.dimF _ hsF, sum_group hnd hs1 (-s) _ w0]
  refine sumOver_congr hnd fun w hw _ => ?_
  dsimp only
  split
  · rename_i hks
    have hi : groupIdx (mapOf t) G1 w < dimOf F (-s) := by
      rw [hh.dimF _ hsF, ← hks]
      exact groupIdx_lt hs1 fun n hn => (mem_edgePositions (hs1 n hn)).1 (hw n hn)
    have hE : dimOf E1 s = rankAt F C (-s) := k1
    rw [cellAt_update _ _ _ h1, cellAt_update _ _ _ h1, hks]
    simp only [pairOf, if_true]
    rw [g1 _ hi l (by rw [hE]; exact hl), g1 _ hi l' (by rw [hE]; exact hl')]
    simp only [cell, if_true, Option.getD_some, hE]
  · rfl

/-- The second factor. -/
theorem cells_second (ht : WF t) (hh : Halves t G1 G2 F C M) (hp : t.names.Perm (G1 ++ G2))
    (hf : Factors Q none x1 x2 c1 c2 F C E1 E2 M T1 T2 g) (h2 : c2 ∉ G2)
    (hQ : ∀ {m n data d1 g d2}, Q m n data d1 g d2 → RowsOrtho conj (min m n) n d2) :
    CellsOrtho conj t G2 c2 E2.map fun q => cellAt T2 t false G2 c2 q := by
  have hnd := (List.nodup_append.1 (hp.nodup_iff.1 ht.nodup)).2.1
  have hs2 : ∀ n ∈ G2, OMap.Sorted (mapOf t n) := fun n hn =>
    mapOf_sorted ht n (hp.mem_iff.2 (List.mem_append_right _ hn))
  intro s l hl l' hl' w0
  have hsF : s ∈ OMap.keys F.map := by
    have := hf.find2 s
    by_contra hc
    rw [if_neg hc] at this
    simp [dimM, this] at hl
  have hsC : -s ∈ OMap.keys C.map := (hf.keys_iff hh.wf hh.edges _).1 hsF
  obtain ⟨k2, k2'⟩ := hf.dim2 hsF
  have hr : dimM E2.map s = rankAt F C s := k2
  rw [hr] at hl hl'
  obtain ⟨d, d1, d2, e0, e1, e2, hq, _⟩ := hf.block _ hsF
  have hrank : rankAt F C s = min (dimOf F s) (dimOf C (-s)) := rfl
  have hq := hQ (hq (Nat.mul_ne_zero (by omega) (by omega)))
  rw [← hrank] at hq
  obtain ⟨b2, f2, _, g2⟩ := two_block hf.wf2 (r := true) hf.edges2 k2' hsC (add_neg_cancel s)
  simp only [pairOf, if_true] at f2 g2
  rw [e2, Option.some.injEq] at f2
  subst f2
  rw [← hq l hl l' hl', hh.dimC _ hsC, sum_group hnd hs2 (-s) _ w0]
  refine sumOver_congr hnd fun w hw _ => ?_
  dsimp only
  split
  · rename_i hks
    have hi : groupIdx (mapOf t) G2 w < dimOf C (-s) := by
      rw [hh.dimC _ hsC, ← hks]
      exact groupIdx_lt hs2 fun n hn => (mem_edgePositions (hs2 n hn)).1 (hw n hn)
    have hE : dimOf E2 s = rankAt F C s := k2
    rw [cellAt_update _ _ _ h2, cellAt_update _ _ _ h2, hks]
    simp only [pairOf, Bool.false_eq_true, if_false]
    rw [g2 l (by rw [hE]; exact hl) _ hi, g2 l' (by rw [hE]; exact hl') _ hi]
    simp only [cell, if_true, Option.getD_some, hh.dimC _ hsC]
  · rfl

end factors

end TAT
