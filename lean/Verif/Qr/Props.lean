import Verif.Qr.Kernel
import Verif.Decomp.Sides

/-!
# C36: Q and R give back the tensor

The assumption about LAPACK is `LapackQrOk` (Qr/Kernel.lean): the routines report no error and the
triangle and the rows (columns) they return multiply to the matrix given to them.
-/

set_option linter.unusedSectionVars false

namespace TAT

variable {ν σ α : Type} [LinearOrder ν] [TatSym σ]

/-- The edges on the side of R: the given ones for direction `r`, all others for direction `q`. -/
def onR (useR : Bool) (set : List ν) (n : ν) : Bool := decide (decide (n ∈ set) = useR)

/-- What is claimed of the result of `qr`. -/
structure QrResult [CommRing α] (t q r : Tensor ν σ α) (freeQ freeR : List ν) (commonQ commonR : ν) :
    Prop where
  wfQ : WF q
  wfR : WF r
  namesQ : q.names.Perm (commonQ :: freeQ)
  namesR : r.names.Perm (commonR :: freeR)
  /-- The other edges are those of the tensor. -/
  mapsQ : ∀ n ∈ freeQ, mapOf q n = mapOf t n
  mapsR : ∀ n ∈ freeR, mapOf r n = mapOf t n
  /-- The new edge of Q has a symmetry if the edges of R can have it as their total.  The dimension is
  the smaller one of the two dimensions of the block. -/
  sectors : ∀ s, (s ∈ OMap.keys (mapOf q commonQ) ↔
    ∃ p, KeyOk (mapOf t) t.names p ∧ (keyOf freeR p).sum = s)
  dims : ∀ s ∈ OMap.keys (mapOf q commonQ), OMap.find? (mapOf q commonQ) s =
    some (min (mergedDim (freeQ.map (mapOf t)) (-s)) (mergedDim (freeR.map (mapOf t)) s))
  opposite : ∀ s, OMap.find? (mapOf r commonR) s = OMap.find? (mapOf q commonQ) (-s)
  /-- Contracting Q and R gives the tensor. -/
  product : ∀ (ce : ContractEnv σ α) (cn : ContractNames ν), GemmOk ce.gemm →
    [cn.c0, cn.c1, cn.c2].Nodup → ∃ res,
    contract ce cn q r [(commonQ, commonR)] = .ok res ∧ Rearranged t res (freeQ ++ freeR)

section cases
variable [CommRing α] {t M T1 T2 : Tensor ν σ α} {G1 G2 : List ν} {F C E1 E2 : Edge σ}
  {x1 x2 c1 c2 : ν} {g : List σ → Unit}

theorem unfoldSign_plain (c : ν) (q : ν → σ × ℕ) : unfoldSign false false c q = 1 := by
  unfold unfoldSign; simp

/-- Q is the first factor. -/
theorem qr_straight (ht : WF t) (hb : t.core.blocks ≠ []) (hh : Halves t G1 G2 F C M)
    (hp : t.names.Perm (G1 ++ G2))
    (hf : Factors (MatrixFactors noWeight) () x1 x2 c1 c2 F C E1 E2 M T1 T2 g)
    {q r : Tensor ν σ α}
    (hq : HalfOf t G1 c1 true E1.map true q fun q => cellAt T1 t true G1 c1 q)
    (hr : HalfOf t G2 c2 false E2.map false r fun q => cellAt T2 t false G2 c2 q) :
    QrResult t q r G1 G2 c1 c2 := by
  have q1 := (hq.view ht).2.1
  have r1 := (hr.view ht).2.1
  have hk : ∀ s, s ∈ OMap.keys E1.map ↔ s ∈ OMap.keys C.map := fun s => by
    rw [← OMap.find?_isSome, hf.find1 s]
    split <;> simp [*]
  have hfull : ∀ p, KeyOk (mapOf t) t.names p → -(keyOf G1 p).sum ∈ OMap.keys E1.map := fun p hk' => by
    rw [hk, hh.keysC]
    refine ⟨p, KeyOk.perm hp hk', ?_⟩
    have := hk'.2
    rw [sum_split hp] at this
    exact (neg_eq_of_add_eq_zero_right this).symm
  have hfull' : ∀ p, KeyOk (mapOf t) t.names p → -(keyOf G2 p).sum ∈ OMap.keys E2.map := fun p hk' => by
    have h1 := hfull p hk'
    have := hk'.2
    rw [sum_split hp] at this
    rw [← OMap.find?_isSome, common_match hh hf, OMap.find?_isSome] at h1
    rwa [← eq_neg_of_add_eq_zero_left this, ← neg_neg (keyOf G1 p).sum]
  refine ⟨hq.wf, hr.wf, hq.perm.trans List.perm_append_comm, hr.perm.trans List.perm_append_comm,
    hq.maps ht hfull, hr.maps ht hfull', fun s => ?_, fun s hs => ?_, fun s => ?_, fun ce cn hg hcn => ?_⟩
  · rw [q1, hk, hh.keysC]
    exact ⟨fun ⟨p, a, b⟩ => ⟨p, KeyOk.perm hp.symm a, b⟩, fun ⟨p, a, b⟩ => ⟨p, KeyOk.perm hp a, b⟩⟩
  · rw [q1] at hs ⊢
    have hs' := (hk s).1 hs
    rw [common_match hh hf, common_dim hh hf, if_pos, neg_neg]
    rw [hf.keys_iff hh.wf hh.edges, neg_neg]
    exact hs'
  · rw [q1, r1, common_match hh hf, neg_neg]
  · refine recompose ce hg hcn ht hb hq hr hp (common_match hh hf) hfull fun p hv => ?_
    · have hF := (tensor_product ht hh hp hf (W := noWeight) id hv).1
      have hd : dimM E1.map (-(keyOf G1 p).sum) = rankAt F C (keyOf G1 p).sum :=
        (hf.dim1 hh.wf hh.edges hF).1
      rw [hd, ← value_first ht hh hp hf (W := noWeight) id hq.fresh hr.fresh hv (w := fun _ => 1)
        fun _ _ _ _ => rfl]
      simp only [mul_one]

/-- Q is the second factor. -/
theorem qr_flipped (ht : WF t) (hb : t.core.blocks ≠ []) (hh : Halves t G1 G2 F C M)
    (hp : t.names.Perm (G1 ++ G2))
    (hf : Factors (MatrixFactors noWeight) () x1 x2 c1 c2 F C E1 E2 M T1 T2 g)
    {q r : Tensor ν σ α}
    (hq : HalfOf t G2 c2 false E2.map true q fun q =>
      unfoldSign false true c2 q • cellAt T2 t false G2 c2 q)
    (hr : HalfOf t G1 c1 true E1.map false r fun q => cellAt T1 t true G1 c1 q) :
    QrResult t q r G2 G1 c2 c1 := by
  have q1 := (hq.view ht).2.1
  have r1 := (hr.view ht).2.1
  have hp' : t.names.Perm (G2 ++ G1) := hp.trans List.perm_append_comm
  have hk : ∀ s, s ∈ OMap.keys E2.map ↔ s ∈ OMap.keys F.map := fun s => by
    rw [← OMap.find?_isSome, hf.find2 s]
    split <;> simp [*]
  have hm : ∀ s, OMap.find? E2.map s = OMap.find? E1.map (-s) := fun s => by
    rw [common_match hh hf, neg_neg]
  have hfull : ∀ p, KeyOk (mapOf t) t.names p → -(keyOf G2 p).sum ∈ OMap.keys E2.map := fun p hk' => by
    rw [hk, hh.keysF]
    refine ⟨p, KeyOk.perm hp hk', ?_⟩
    have := hk'.2
    rw [sum_split hp] at this
    exact eq_neg_of_add_eq_zero_left this
  have hfull' : ∀ p, KeyOk (mapOf t) t.names p → -(keyOf G1 p).sum ∈ OMap.keys E1.map := fun p hk' => by
    have h1 := hfull p hk'
    have := hk'.2
    rw [sum_split hp'] at this
    rw [← OMap.find?_isSome, hm, OMap.find?_isSome] at h1
    rwa [← eq_neg_of_add_eq_zero_left this, ← neg_neg (keyOf G2 p).sum]
  refine ⟨hq.wf, hr.wf, hq.perm.trans List.perm_append_comm, hr.perm.trans List.perm_append_comm,
    hq.maps ht hfull, hr.maps ht hfull', fun s => ?_, fun s hs => ?_, fun s => ?_, fun ce cn hg hcn => ?_⟩
  · rw [q1, hk, hh.keysF]
    exact ⟨fun ⟨p, a, b⟩ => ⟨p, KeyOk.perm hp.symm a, b⟩, fun ⟨p, a, b⟩ => ⟨p, KeyOk.perm hp a, b⟩⟩
  · rw [q1] at hs ⊢
    rw [common_dim hh hf, if_pos ((hk s).1 hs), min_comm]
  · rw [q1, r1, common_match hh hf]
  · refine recompose ce hg hcn ht hb (left := false) hq hr hp' hm hfull fun p hv => ?_
    · obtain ⟨hF, h2, _⟩ := tensor_product ht hh hp hf (W := noWeight) id hv
      have hd : dimM E2.map (-(keyOf G2 p).sum) = rankAt F C (-(keyOf G2 p).sum) := by
        rw [h2, neg_neg]
        exact (hf.dim2 hF).1
      rw [orderSign_swap ht hp hv.2, mul_comm, ← applySign_mul _ (isSign_orderSign _ _ _ hp),
        ← value_second ht hh hp hf (W := noWeight) id hr.fresh hq.fresh hv (w := fun _ => 1)
          fun _ _ _ _ => rfl, hd, applySign_smul]
      · rw [zsmul_eq_mul, ← List.sum_map_mul_left]
        congr 1
        apply List.map_congr_left
        intro l _
        rw [mul_one, zsmul_eq_mul, mul_assoc]
        congr 2
        unfold unfoldSign oddAt
        simp only [Function.update_self, Bool.false_xor, Bool.and_true, h2, neg_neg]
      · unfold IsSign; split <;> simp
      · unfold IsSign; split <;> simp

end cases

theorem opCut_none {T : Tensor ν σ α} (x : ν) (parts : List (ν × List (σ × ℕ)))
    (R newNames X : List ν) : opCut T (unfoldArgs x parts R newNames X []) = T.core.edges := rfl

theorem useQr_cases (useR useQr : Bool) (set : List ν) (n : ν) :
    inSecond useR useQr set n = if useQr then onR useR set n else !onR useR set n := by
  unfold inSecond onR
  cases useQr <;> cases decide (n ∈ set) <;> cases useR <;> rfl

/-- What `qr` returns, and that Q is an isometry if LAPACK makes orthonormal rows and columns. -/
theorem qr_spec [CommRing α] {lp : LapackQr α} (hlp : LapackQrOk lp) (env : DecompEnv σ α)
    (junk : ℕ → α) {qn : QrNames ν} (hx : qn.x1 ≠ qn.x2) {t : Tensor ν σ α} (ht : WF t)
    (hb : t.core.blocks ≠ []) {direction : Char} {useR : Bool}
    (hdir : useR = true ∧ (direction = 'r' ∨ direction = 'R') ∨
      useR = false ∧ (direction = 'q' ∨ direction = 'Q'))
    (set : List ν) {commonQ commonR : ν}
    (hQ1 : qn.x1 ≠ commonQ) (hQ2 : qn.x2 ≠ commonQ) (hR1 : qn.x1 ≠ commonR) (hR2 : qn.x2 ≠ commonR)
    (hQ : commonQ ∉ t.names.filter fun n => !onR useR set n)
    (hR : commonR ∉ t.names.filter fun n => onR useR set n) :
    ∃ q r, qr lp env junk qn t direction set commonQ commonR = .ok (q, r) ∧
      QrResult t q r (t.names.filter fun n => !onR useR set n)
        (t.names.filter fun n => onR useR set n) commonQ commonR ∧
      ∀ conj : α →+* α, LapackQrOrtho conj lp →
        Isometry conj q (t.names.filter fun n => !onR useR set n) commonQ := by
  have hd : qrDirection direction = .ok useR := by
    unfold qrDirection
    rcases hdir with ⟨rfl, rfl | rfl⟩ | ⟨rfl, rfl | rfl⟩ <;> decide
  have ok_bind : ∀ {β δ : Type} (x : β) (f : β → Outcome δ), (Outcome.ok x).bind f = f x :=
    fun _ _ => rfl
  unfold qr
  rw [hd, ok_bind]
  cases hu : useQrNotLq useR set t.names with
  | true =>
    have e2 : (fun n => inSecond useR true set n) = fun n => onR useR set n := by
      funext n; rw [useQr_cases]; rfl
    simp only [e2, if_true, Bool.not_true, Bool.and_true, Bool.and_false,
      Bool.false_eq_true, if_false, List.append_nil]
    set G1 := t.names.filter fun n => !onR useR set n with hG1
    set G2 := t.names.filter fun n => onR useR set n with hG2
    have hp : t.names.Perm (G1 ++ G2) := filter_perm _ _
    obtain ⟨M, F, C, m1, hh⟩ := halves_spec env.merge ht hx hp (opM_mergeArgsOf t hx G1 G2 true)
    obtain ⟨T1, T2, E1, E2, g, f1, hf⟩ := factorise_spec () (calculateQr_spec hlp junk true)
      env.junk1 env.junk2 hQ1 (Ne.symm hR2) hh.wf hh.edges
    obtain ⟨u, u1, hU⟩ := side1 env.split1 ht hh hp hf hQ1 hQ (r' := true) (special := true)
      (Ec := E1) (splitParts_filter ht _) (newNames := G1 ++ [commonQ]) (by simp [pairOf])
      (by rw [Bool.and_true]) (X := []) (by simp) ((opCut_none _ _ _ _ _).trans hf.edges1)
      hf.arrow1 (hf.wf1.sorted _ (by rw [hf.edges1]; simp)) fun _ h => h
    obtain ⟨v, v1, hV⟩ := side2 env.split2 ht hh hp hf hR2 hR (r' := false) (special := false)
      (Ec := E2) (splitParts_filter ht _) (R := reversedFree G2 t) (newNames := commonR :: G2)
      (by simp [pairOf]) (by simp) (X := []) (by simp) ((opCut_none _ _ _ _ _).trans hf.edges2)
      hf.arrow2 (hf.wf2.sorted _ (by rw [hf.edges2]; simp)) fun _ h => h
    refine ⟨u, v, ?_, qr_straight ht hb hh hp (hf.imp fun h => h.1) (r := v) (q := u) ?_ ?_,
      fun conj ho => ?_⟩
    · rw [m1, ok_bind, f1, ok_bind, u1, ok_bind, v1, ok_bind]
    · simpa [unfoldSign_plain] using hU
    · simpa [unfoldSign_plain] using hV
    · exact hU.isometry ht (CellsOrtho.unfold (cells_first ht hh hp hf hQ fun h =>
        (by simpa using h.2 conj ho)) _ _) fun _ => le_refl _
  | false =>
    have e2 : (fun n => inSecond useR false set n) = fun n => !onR useR set n := by
      funext n; rw [useQr_cases]; rfl
    simp only [e2, Bool.not_false, Bool.not_not, Bool.and_true, Bool.and_false,
      Bool.false_eq_true, if_false, List.append_nil]
    set G2 := t.names.filter fun n => !onR useR set n with hG2
    set G1 := t.names.filter fun n => onR useR set n with hG1
    have hp : t.names.Perm (G1 ++ G2) := (filter_perm _ _).trans List.perm_append_comm
    obtain ⟨M, F, C, m1, hh⟩ := halves_spec env.merge ht hx hp (opM_mergeArgsOf t hx G1 G2 true)
    obtain ⟨T1, T2, E1, E2, g, f1, hf⟩ := factorise_spec () (calculateQr_spec hlp junk false)
      env.junk1 env.junk2 hR1 (Ne.symm hQ2) hh.wf hh.edges
    obtain ⟨u, u1, hU⟩ := side1 env.split1 ht hh hp hf hR1 hR (r' := true) (special := false)
      (Ec := E1) (splitParts_filter ht _) (R := reversedFree G1 t) (newNames := G1 ++ [commonR])
      (by simp [pairOf]) (by simp) (X := []) (by simp) ((opCut_none _ _ _ _ _).trans hf.edges1)
      hf.arrow1 (hf.wf1.sorted _ (by rw [hf.edges1]; simp)) fun _ h => h
    obtain ⟨v, v1, hV⟩ := side2 env.split2 ht hh hp hf hQ2 hQ (r' := false) (special := true)
      (Ec := E2) (splitParts_filter ht _) (newNames := commonQ :: G2) (by simp [pairOf])
      (by rw [Bool.and_true]) (X := [commonQ]) (by
        intro n hn hc
        rw [List.mem_singleton] at hc
        exact hQ (hc ▸ hn)) ((opCut_none _ _ _ _ _).trans hf.edges2)
      hf.arrow2 (hf.wf2.sorted _ (by rw [hf.edges2]; simp)) fun _ h => h
    refine ⟨v, u, ?_, qr_flipped ht hb hh hp (hf.imp fun h => h.1) (r := u) (q := v) ?_ ?_,
      fun conj ho => ?_⟩
    · rw [m1, ok_bind, f1, ok_bind, u1, ok_bind, v1, ok_bind]
    · simpa using hV
    · simpa [unfoldSign_plain] using hU
    · exact hV.isometry ht (CellsOrtho.unfold (cells_second ht hh hp hf hQ fun h =>
        (by simpa using h.2 conj ho)) _ _) fun _ => le_refl _

/-- **C36.** `qr` succeeds; Q has the edges of its side and the new edge, R those of the other side;
the new edge has dimension min(m, n) in every sector; contracting both gives the tensor. -/
theorem C36_qr [CommRing α] {lp : LapackQr α} (hlp : LapackQrOk lp) (env : DecompEnv σ α)
    (junk : ℕ → α) {qn : QrNames ν} (hx : qn.x1 ≠ qn.x2) {t : Tensor ν σ α} (ht : WF t)
    (hb : t.core.blocks ≠ []) {direction : Char} {useR : Bool}
    (hdir : useR = true ∧ (direction = 'r' ∨ direction = 'R') ∨
      useR = false ∧ (direction = 'q' ∨ direction = 'Q'))
    (set : List ν) {commonQ commonR : ν}
    (hQ1 : qn.x1 ≠ commonQ) (hQ2 : qn.x2 ≠ commonQ) (hR1 : qn.x1 ≠ commonR) (hR2 : qn.x2 ≠ commonR)
    (hQ : commonQ ∉ t.names.filter fun n => !onR useR set n)
    (hR : commonR ∉ t.names.filter fun n => onR useR set n) :
    ∃ q r, qr lp env junk qn t direction set commonQ commonR = .ok (q, r) ∧
      QrResult t q r (t.names.filter fun n => !onR useR set n)
        (t.names.filter fun n => onR useR set n) commonQ commonR := by
  obtain ⟨q, r, h1, h2, _⟩ := qr_spec hlp env junk hx ht hb hdir set hQ1 hQ2 hR1 hR2 hQ hR
  exact ⟨q, r, h1, h2⟩

/-- **C70.** Q is an isometry: its product with its conjugate, over all edges but the new one, is the
unit matrix. -/
theorem C70_qr [CommRing α] {lp : LapackQr α} (hlp : LapackQrOk lp) {conj : α →+* α}
    (ho : LapackQrOrtho conj lp) (env : DecompEnv σ α)
    (junk : ℕ → α) {qn : QrNames ν} (hx : qn.x1 ≠ qn.x2) {t : Tensor ν σ α} (ht : WF t)
    (hb : t.core.blocks ≠ []) {direction : Char} {useR : Bool}
    (hdir : useR = true ∧ (direction = 'r' ∨ direction = 'R') ∨
      useR = false ∧ (direction = 'q' ∨ direction = 'Q'))
    (set : List ν) {commonQ commonR : ν}
    (hQ1 : qn.x1 ≠ commonQ) (hQ2 : qn.x2 ≠ commonQ) (hR1 : qn.x1 ≠ commonR) (hR2 : qn.x2 ≠ commonR)
    (hQ : commonQ ∉ t.names.filter fun n => !onR useR set n)
    (hR : commonR ∉ t.names.filter fun n => onR useR set n) :
    ∃ q r, qr lp env junk qn t direction set commonQ commonR = .ok (q, r) ∧
      Isometry conj q (t.names.filter fun n => !onR useR set n) commonQ := by
  obtain ⟨q, r, h1, _, h3⟩ := qr_spec hlp env junk hx ht hb hdir set hQ1 hQ2 hR1 hR2 hQ hR
  exact ⟨q, r, h1, h3 conj ho⟩

/-- **C36.** Any other direction is refused. -/
theorem C36_direction [Zero α] [Neg α] (lp : LapackQr α) (env : DecompEnv σ α) (junk : ℕ → α)
    (qn : QrNames ν) (t : Tensor ν σ α) {direction : Char} (h : direction ∉ ['r', 'R', 'q', 'Q'])
    (set : List ν) (commonQ commonR : ν) :
    qr lp env junk qn t direction set commonQ commonR = .error "Invalid direction in QR" := by
  simp only [List.mem_cons, List.not_mem_nil, or_false, not_or] at h
  unfold qr qrDirection
  rw [if_neg (by tauto), if_neg (by tauto)]
  rfl

end TAT
