import Verif.Svd.Kernel
import Verif.Svd.CutProps
import Verif.Decomp.Sides

/-!
# The factors computed by `svd`, for every cut
-/

set_option linter.unusedSectionVars false

namespace TAT

variable {ν σ α β γ : Type} [LinearOrder ν] [TatSym σ]

/-! ## the common edge after a cut -/

/-- The symmetries of the common edge which remain. -/
def cutMap (keep D : List (σ × ℕ)) : List (σ × ℕ) := D.foldl (cutStep keep) []

theorem cutMap_spec (keep : List (σ × ℕ)) {D : List (σ × ℕ)} (h : OMap.Sorted D) :
    OMap.Sorted (cutMap keep D) ∧
    ∀ s, OMap.find? (cutMap keep D) s = (OMap.find? D s).bind (cutDim keep s) := by
  obtain ⟨h1, h2⟩ := cutStep_fold keep D [] h.nodup (by simp [OMap.Sorted])
  refine ⟨h1, fun s => ?_⟩
  unfold cutMap
  rw [h2 s]
  simp [OMap.find?]

theorem cutMap_keys (keep : List (σ × ℕ)) {D : List (σ × ℕ)} (h : OMap.Sorted D) {s : σ}
    (hs : s ∈ OMap.keys (cutMap keep D)) : s ∈ OMap.keys D := by
  rw [← OMap.find?_isSome, (cutMap_spec keep h).2] at hs
  rw [← OMap.find?_isSome]
  cases hd : OMap.find? D s with
  | none => simp [hd] at hs
  | some d => rfl

theorem cutMap_nil {D : List (σ × ℕ)} (h : OMap.Sorted D) : cutMap [] D = D := by
  apply OMap.ext (cutMap_spec [] h).1 h
  intro s
  rw [(cutMap_spec [] h).2]
  cases OMap.find? D s <;> rfl

theorem opCut_right {T : Tensor ν σ α} {x c : ν} (hx : x ≠ c) {F E : Edge σ}
    (hn : T.names = [x, c]) (he : T.core.edges = [F, E]) (parts : List (ν × List (σ × ℕ)))
    (R newNames X : List ν) (keep : List (σ × ℕ)) :
    opCut T (unfoldArgs x parts R newNames X [(c, keep)]) = [F, { E with map := cutMap keep E.map }] := by
  unfold opCut edgeBeforeSplit unfoldArgs
  rw [hn, he]
  simp [cutEdge, OMap.find?, hx, cutMap]

theorem opCut_left {T : Tensor ν σ α} {x c : ν} (hx : x ≠ c) {F E : Edge σ}
    (hn : T.names = [c, x]) (he : T.core.edges = [E, F]) (parts : List (ν × List (σ × ℕ)))
    (R newNames X : List ν) (keep : List (σ × ℕ)) :
    opCut T (unfoldArgs x parts R newNames X [(c, keep)]) = [{ E with map := cutMap keep E.map }, F] := by
  unfold opCut edgeBeforeSplit unfoldArgs
  rw [hn, he]
  simp [cutEdge, OMap.find?, hx, cutMap]

/-! ## the table of singular values -/

theorem singularTable_spec {M : Tensor ν σ α} {F C : Edge σ} (h : WF M)
    (he : M.core.edges = [F, C]) (g : List σ → List β) (right : Bool) :
    OMap.Sorted (singularTable right (M.core.blocks.map fun b => (b.1, g b.1))) ∧
    ∀ s, OMap.find? (singularTable right (M.core.blocks.map fun b => (b.1, g b.1))) s =
      if (if right then -s else s) ∈ OMap.keys F.map then
        some (g (if right then [-s, s] else [s, -s])) else none := by
  set f : List σ × List α → σ := fun b => b.1.getD (if right then 1 else 0) 0 with hf
  set v : σ → List β := fun s => g (if right then [-s, s] else [s, -s]) with hv
  have hb : ∀ b ∈ M.core.blocks, ∃ s ∈ OMap.keys F.map, b.1 = [s, -s] := fun b hb => by
    obtain ⟨s, h1, h2⟩ := (two_key_iff h he b.1).1 (List.mem_map_of_mem hb)
    exact ⟨s, h2, h1⟩
  have e : singularTable right (M.core.blocks.map fun b => (b.1, g b.1)) =
      M.core.blocks.foldl (fun m b => OMap.set m (f b) (v (f b))) [] := by
    unfold singularTable
    rw [List.foldl_map]
    apply List.foldl_ext
    intro m b hbm
    obtain ⟨s, _, hs⟩ := hb b hbm
    rw [hv, hf]
    dsimp only
    rw [hs]
    cases right <;> simp
  rw [e]
  refine ⟨foldl_set_sorted' _ _ _ (by simp [OMap.Sorted]), fun s => ?_⟩
  rw [foldl_set_find]
  have hk : s ∈ M.core.blocks.map f ↔ (if right then -s else s) ∈ OMap.keys F.map := by
    rw [List.mem_map]
    constructor
    · rintro ⟨b, hbm, rfl⟩
      obtain ⟨s, h1, hs⟩ := hb b hbm
      rw [hf]
      dsimp only
      rw [hs]
      cases right <;> simpa using h1
    · intro hs
      have : [if right then -s else s, -(if right then -s else s)] ∈ OMap.keys M.core.blocks :=
        (two_key_iff h he _).2 ⟨_, rfl, hs⟩
      obtain ⟨b, hbm, hb1⟩ := List.mem_map.1 this
      refine ⟨b, hbm, ?_⟩
      rw [hf]
      dsimp only
      rw [hb1]
      cases right <;> simp
  by_cases hs : (if right then -s else s) ∈ OMap.keys F.map
  · rw [if_pos hs, if_pos (hk.2 hs)]
  · rw [if_neg hs, if_neg fun hc => hs (hk.1 hc)]
    rfl

/-! ## the factors -/

/-- The factors `aU`, `aV` and the singular values `S` make up the tensor.  `DU` and `DV` are the
symmetries of the common edges before the cut. -/
structure SvdParts [CommRing α] [Zero β] (c : β → α) (t : Tensor ν σ α) (GU GV : List ν) (cU cV : ν)
    (S : List (σ × List β)) (DU DV : List (σ × ℕ)) (aU aV : (ν → σ × ℕ) → α) : Prop where
  sortedS : OMap.Sorted S
  sortedU : OMap.Sorted DU
  sortedV : OMap.Sorted DV
  sectors : ∀ s, s ∈ OMap.keys DU ↔ ∃ p, KeyOk (mapOf t) t.names p ∧ (keyOf GV p).sum = s
  dims : ∀ s ∈ OMap.keys DU, OMap.find? DU s =
    some (min (mergedDim (GU.map (mapOf t)) (-s)) (mergedDim (GV.map (mapOf t)) s))
  opposite : ∀ s, OMap.find? DU s = OMap.find? DV (-s)
  table : ∀ s, (OMap.find? S s).map List.length = OMap.find? DU s
  value : ∀ p, ValidPos t p → ((List.range (dimM DU (-(keyOf GU p).sum))).map fun l =>
      (aU (Function.update p cU (-(keyOf GU p).sum, l)) *
        c (((OMap.find? S (-(keyOf GU p).sum)).getD []).getD l 0)) *
      aV (Function.update p cV ((keyOf GU p).sum, l))).sum =
    applySign (orderSign t.names (GU ++ GV) p) (amp t p)

section cases
variable [CommRing α] [Zero β] {c : β → α} {t M T1 T2 : Tensor ν σ α} {G1 G2 : List ν}
  {F C E1 E2 : Edge σ} {x1 x2 c1 c2 : ν} {g : List σ → List β}

theorem table_length (hf : Factors (SvdFactors c) [] x1 x2 c1 c2 F C E1 E2 M T1 T2 g) {s : σ}
    (hs : s ∈ OMap.keys F.map) : (g [s, -s]).length = rankAt F C s := by
  obtain ⟨d, d1, d2, _, _, _, h1, h2⟩ := hf.block s hs
  by_cases h0 : dimOf F s * dimOf C (-s) = 0
  · rw [h2 h0]
    unfold rankAt
    rcases Nat.mul_eq_zero.1 h0 with h | h <;> rw [h] <;> simp
  · exact (h1 h0).1

/-- What holds for the values of all matrices holds for those in the table. -/
theorem table_all {Q : ℕ → ℕ → List α → List α → List β → List α → Prop} (hh : Halves t G1 G2 F C M)
    (hf : Factors Q [] x1 x2 c1 c2 F C E1 E2 M T1 T2 g) {P : List β → Prop} (hn : P [])
    (hQ : ∀ {m n data d1 s d2}, Q m n data d1 s d2 → P s) {right : Bool} :
    ∀ e ∈ singularTable right (M.core.blocks.map fun b => (b.1, g b.1)), P e.2 := by
  obtain ⟨s1, s2⟩ := singularTable_spec hh.wf hh.edges g right
  have hg : ∀ s ∈ OMap.keys F.map, P (g [s, -s]) := fun s hs => by
    obtain ⟨d, d1, d2, _, _, _, h1, h2⟩ := hf.block s hs
    by_cases h0 : dimOf F s * dimOf C (-s) = 0
    · rw [h2 h0]; exact hn
    · exact hQ (h1 h0)
  intro e he
  have := s2 e.1
  rw [OMap.find?_of_mem s1.nodup he] at this
  by_cases hs : (if right then -e.1 else e.1) ∈ OMap.keys F.map
  · rw [if_pos hs, Option.some.injEq] at this
    rw [this]
    have := hg _ hs
    cases right
    · simpa using this
    · simpa using this
  · rw [if_neg hs] at this
    cases this

/-- U is the first factor. -/
theorem parts_right (ht : WF t) (hh : Halves t G1 G2 F C M) (hp : t.names.Perm (G1 ++ G2))
    (hf : Factors (SvdFactors c) [] x1 x2 c1 c2 F C E1 E2 M T1 T2 g) (h1 : c1 ∉ G1) (h2 : c2 ∉ G2) :
    SvdParts c t G1 G2 c1 c2 (singularTable true (M.core.blocks.map fun b => (b.1, g b.1)))
      E1.map E2.map (fun q => cellAt T1 t true G1 c1 q) (fun q => cellAt T2 t false G2 c2 q) := by
  obtain ⟨s1, s2⟩ := singularTable_spec hh.wf hh.edges g true
  have hk : ∀ s, s ∈ OMap.keys E1.map ↔ s ∈ OMap.keys C.map := fun s => by
    rw [← OMap.find?_isSome, hf.find1 s]
    split <;> simp [*]
  have hFC : ∀ s, -s ∈ OMap.keys F.map ↔ s ∈ OMap.keys C.map := fun s => by
    rw [hf.keys_iff hh.wf hh.edges, neg_neg]
  refine ⟨s1, hf.wf1.sorted _ (by rw [hf.edges1]; simp), hf.wf2.sorted _ (by rw [hf.edges2]; simp),
    fun s => ?_, fun s hs => ?_, common_match hh hf, fun s => ?_, fun p hv => ?_⟩
  · rw [hk, hh.keysC]
    exact ⟨fun ⟨p, a, b⟩ => ⟨p, KeyOk.perm hp.symm a, b⟩, fun ⟨p, a, b⟩ => ⟨p, KeyOk.perm hp a, b⟩⟩
  · rw [common_match hh hf, common_dim hh hf, if_pos ((hFC s).2 ((hk s).1 hs)), neg_neg]
  · rw [s2, hf.find1]
    by_cases hs : s ∈ OMap.keys C.map
    · rw [if_pos hs, if_pos (by simpa using (hFC s).2 hs)]
      have := table_length hf ((hFC s).2 hs)
      rw [neg_neg] at this
      simp [this]
    · rw [if_neg hs, if_neg (by simpa using fun h => hs ((hFC s).1 h))]
      rfl
  · have hF := (tensor_product ht hh hp hf (W := valueWeight c) (fun h => h.2) hv).1
    have hd : dimM E1.map (-(keyOf G1 p).sum) = rankAt F C (keyOf G1 p).sum :=
      (hf.dim1 hh.wf hh.edges hF).1
    rw [hd]
    refine value_first ht hh hp hf (W := valueWeight c) (fun h => h.2) h1 h2 hv (w := fun x =>
      c (((OMap.find? (singularTable true (M.core.blocks.map fun b => (b.1, g b.1))) x.1).getD
        []).getD x.2 0)) fun s hs l _ => ?_
    dsimp only
    rw [s2, if_pos (by simpa using hs)]
    simp [valueWeight]

/-- U is the second factor. -/
theorem parts_left (ht : WF t) (hh : Halves t G1 G2 F C M) (hp : t.names.Perm (G1 ++ G2))
    (hf : Factors (SvdFactors c) [] x1 x2 c1 c2 F C E1 E2 M T1 T2 g) (h1 : c1 ∉ G1) (h2 : c2 ∉ G2) :
    SvdParts c t G2 G1 c2 c1 (singularTable false (M.core.blocks.map fun b => (b.1, g b.1)))
      E2.map E1.map (fun q => cellAt T2 t false G2 c2 q)
      (fun q => unfoldSign true false c1 q • cellAt T1 t true G1 c1 q) := by
  obtain ⟨s1, s2⟩ := singularTable_spec hh.wf hh.edges g false
  have hk : ∀ s, s ∈ OMap.keys E2.map ↔ s ∈ OMap.keys F.map := fun s => by
    rw [← OMap.find?_isSome, hf.find2 s]
    split <;> simp [*]
  refine ⟨s1, hf.wf2.sorted _ (by rw [hf.edges2]; simp), hf.wf1.sorted _ (by rw [hf.edges1]; simp),
    fun s => ?_, fun s hs => ?_, fun s => ?_, fun s => ?_, fun p hv => ?_⟩
  · rw [hk, hh.keysF]
    exact ⟨fun ⟨p, a, b⟩ => ⟨p, KeyOk.perm hp.symm a, b⟩, fun ⟨p, a, b⟩ => ⟨p, KeyOk.perm hp a, b⟩⟩
  · rw [common_dim hh hf, if_pos ((hk s).1 hs), min_comm]
  · rw [common_match hh hf, neg_neg]
  · rw [s2, hf.find2]
    by_cases hs : s ∈ OMap.keys F.map
    · rw [if_pos hs, if_pos (by simpa using hs)]
      simp [table_length hf hs]
    · rw [if_neg hs, if_neg (by simpa using hs)]
      rfl
  · obtain ⟨hF, hsum, _⟩ := tensor_product ht hh hp hf (W := valueWeight c) (fun h => h.2) hv
    have hd : dimM E2.map (-(keyOf G2 p).sum) = rankAt F C (-(keyOf G2 p).sum) := by
      rw [hsum, neg_neg]
      exact (hf.dim2 hF).1
    rw [orderSign_swap ht hp hv.2, mul_comm, ← applySign_mul _ (isSign_orderSign _ _ _ hp),
      ← value_second ht hh hp hf (W := valueWeight c) (fun h => h.2) h1 h2 hv (w := fun x =>
      c (((OMap.find? (singularTable false (M.core.blocks.map fun b => (b.1, g b.1))) x.1).getD
        []).getD x.2 0)) ?_, hd, applySign_smul]
    · rw [zsmul_eq_mul, ← List.sum_map_mul_left]
      congr 1
      apply List.map_congr_left
      intro l _
      have hs : unfoldSign true false c1 (Function.update p c1 ((keyOf G2 p).sum, l)) =
          if TatSym.isFermi σ && oddInt (TatSym.fermi (keyOf G1 p).sum) then -1 else 1 := by
        unfold unfoldSign oddAt
        simp only [Function.update_self, Bool.xor_false, Bool.and_true, hsum, odd_neg]
      rw [hs, zsmul_eq_mul]
      ring
    · unfold IsSign; split <;> simp
    · intro s hs l _
      dsimp only
      rw [s2, if_pos (by simpa using hs)]
      simp [valueWeight]
    · unfold IsSign; split <;> simp

end cases

/-- What `svd` returns, for every cut, and that the factors are isometries if LAPACK makes orthonormal
rows and columns. -/
theorem svd_spec_ortho [CommRing α] [LinearOrder β] [Zero β] {c : β → α} {gesvd : Gesvd α β}
    (hsvd : GesvdOk c gesvd) (env : DecompEnv σ α) (junk : ℕ → α) {sn : SvdNames ν}
    (hx : sn.u ≠ sn.v) {t : Tensor ν σ α} (ht : WF t) (set : List ν) {commonU commonV : ν}
    (hU1 : sn.u ≠ commonU) (hV1 : sn.v ≠ commonV)
    (hU : commonU ∉ t.names.filter fun n => decide (n ∈ set))
    (hV : commonV ∉ t.names.filter fun n => !decide (n ∈ set)) :
    ∃ S DU DV aU aV, SvdParts c t (t.names.filter fun n => decide (n ∈ set))
        (t.names.filter fun n => !decide (n ∈ set)) commonU commonV S DU DV aU aV ∧
      (∀ conj : α →+* α, GesvdOrtho conj gesvd →
        CellsOrtho conj t (t.names.filter fun n => decide (n ∈ set)) commonU DU aU ∧
        CellsOrtho conj t (t.names.filter fun n => !decide (n ∈ set)) commonV DV aV) ∧
      (∀ P, GesvdAll gesvd P → P [] → ∀ e ∈ S, P e.2) ∧
      ∀ cut, (∀ plan, cutPlan S cut = .ok plan → ∃ u v,
          svd gesvd env junk sn t set commonU commonV cut = .ok (u, plan.1, v) ∧
          HalfOf t (t.names.filter fun n => decide (n ∈ set)) commonU true (cutMap plan.2.1 DU) true
            u aU ∧
          HalfOf t (t.names.filter fun n => !decide (n ∈ set)) commonV false (cutMap plan.2.2 DV)
            false v aV) ∧
        (∀ msg, cutPlan S cut = .error msg →
          svd gesvd env junk sn t set commonU commonV cut = .error msg) ∧
        (cutPlan S cut = .ub → svd gesvd env junk sn t set commonU commonV cut = .ub) := by
  have ok_bind : ∀ {β δ : Type} (x : β) (f : β → Outcome δ), (Outcome.ok x).bind f = f x :=
    fun _ _ => rfl
  have er_bind : ∀ {β δ : Type} (x : String) (f : β → Outcome δ),
    (Outcome.error x).bind f = .error x := fun _ _ => rfl
  have ub_bind : ∀ {β δ : Type} (f : β → Outcome δ), Outcome.ub.bind f = .ub := fun _ => rfl
  unfold svd
  set GU := t.names.filter fun n => decide (n ∈ set) with hGU
  set GV := t.names.filter fun n => !decide (n ∈ set) with hGV
  have hpp : t.names.Perm (GV ++ GU) := filter_perm _ _
  cases hr : endsLike GV t.names with
  | true =>
    have hp : t.names.Perm (GU ++ GV) := hpp.trans List.perm_append_comm
    simp only [hr, if_true]
    obtain ⟨M, F, C, m1, hh⟩ := halves_spec env.merge ht hx hp (opM_mergeArgsOf t hx GU GV true)
    obtain ⟨T1, T2, E1, E2, g, f1, hf⟩ := factorise_spec [] (calculateSvd_spec hsvd junk)
      env.junk1 env.junk2 hU1 (Ne.symm hV1) hh.wf hh.edges
    have sp := parts_right ht hh hp (hf.imp fun h => h.1) hU hV
    refine ⟨_, _, _, _, _, sp, fun conj ho => ⟨cells_first ht hh hp hf hU fun h => (h.2.1 conj ho).1,
      cells_second ht hh hp hf hV fun h => (h.2.1 conj ho).2⟩,
      fun P hP hn => table_all hh hf hn fun h => h.2.2 P hP,
      fun cut => ⟨fun plan hplan => ?_, fun msg hmsg => ?_, fun hub => ?_⟩⟩
    · obtain ⟨u, u1, hu⟩ := side1 env.split1 ht hh hp hf hU1 hU (r' := true) (special := true)
        (Ec := { E1 with map := cutMap plan.2.1 E1.map }) (splitParts_filter ht _)
        (newNames := GU ++ [commonU]) (by simp [pairOf]) (by rw [Bool.and_true]) (X := [])
        (by simp) (opCut_right hU1 hf.names1 hf.edges1 _ _ _ _ plan.2.1) hf.arrow1
        (cutMap_spec _ sp.sortedU).1 fun _ h => cutMap_keys _ sp.sortedU h
      obtain ⟨v, v1, hv⟩ := side2 env.split2 ht hh hp hf hV1 hV (r' := false) (special := false)
        (Ec := { E2 with map := cutMap plan.2.2 E2.map }) (splitParts_filter ht _)
        (R := reversedFree GV t) (newNames := commonV :: GV) (by simp [pairOf]) (by simp)
        (X := []) (by simp) (opCut_left hV1 hf.names2 hf.edges2 _ _ _ _ plan.2.2) hf.arrow2
        (cutMap_spec _ sp.sortedV).1 fun _ h => cutMap_keys _ sp.sortedV h
      refine ⟨u, v, ?_, ?_, ?_⟩
      · rw [m1, ok_bind, f1, ok_bind]
        dsimp only
        rw [hplan, ok_bind, u1, ok_bind, v1, ok_bind]
      · simpa [unfoldSign] using hu
      · simpa [unfoldSign] using hv
    · rw [m1, ok_bind, f1, ok_bind]
      dsimp only
      rw [hmsg, er_bind]
    · rw [m1, ok_bind, f1, ok_bind]
      dsimp only
      rw [hub, ub_bind]
  | false =>
    simp only [hr, Bool.false_eq_true, if_false]
    obtain ⟨M, F, C, m1, hh⟩ := halves_spec env.merge ht (Ne.symm hx) hpp
      (opM_mergeArgsOf t hx GU GV false)
    obtain ⟨T1, T2, E1, E2, g, f1, hf⟩ := factorise_spec [] (calculateSvd_spec hsvd junk)
      env.junk1 env.junk2 hV1 (Ne.symm hU1) hh.wf hh.edges
    have sp := parts_left ht hh hpp (hf.imp fun h => h.1) hV hU
    refine ⟨_, _, _, _, _, sp, fun conj ho => ⟨cells_second ht hh hpp hf hU fun h => (h.2.1 conj ho).2,
      (cells_first ht hh hpp hf hV fun h => (h.2.1 conj ho).1).unfold _ _⟩,
      fun P hP hn => table_all hh hf hn fun h => h.2.2 P hP,
      fun cut => ⟨fun plan hplan => ?_, fun msg hmsg => ?_, fun hub => ?_⟩⟩
    · obtain ⟨u, u1, hu⟩ := side2 env.split2 ht hh hpp hf hU1 hU (r' := true) (special := true)
        (Ec := { E2 with map := cutMap plan.2.1 E2.map }) (splitParts_filter ht _)
        (newNames := GU ++ [commonU]) (by simp [pairOf]) (by rw [Bool.and_true]) (X := [commonU])
        (by
          intro n hn hc
          rw [List.mem_singleton] at hc
          exact hU (hc ▸ hn)) (opCut_left hU1 hf.names2 hf.edges2 _ _ _ _ plan.2.1) hf.arrow2
        (cutMap_spec _ sp.sortedU).1 fun _ h => cutMap_keys _ sp.sortedU h
      obtain ⟨v, v1, hv⟩ := side1 env.split1 ht hh hpp hf hV1 hV (r' := false) (special := false)
        (Ec := { E1 with map := cutMap plan.2.2 E1.map }) (splitParts_filter ht _)
        (R := reversedFree GV t) (newNames := commonV :: GV) (by simp [pairOf]) (by simp)
        (X := []) (by simp) (opCut_right hV1 hf.names1 hf.edges1 _ _ _ _ plan.2.2) hf.arrow1
        (cutMap_spec _ sp.sortedV).1 fun _ h => cutMap_keys _ sp.sortedV h
      refine ⟨u, v, ?_, ?_, ?_⟩
      · rw [m1, ok_bind, f1, ok_bind]
        dsimp only
        rw [hplan, ok_bind, u1, ok_bind, v1, ok_bind]
      · simpa [unfoldSign] using hu
      · simpa using hv
    · rw [m1, ok_bind, f1, ok_bind]
      dsimp only
      rw [hmsg, er_bind]
    · rw [m1, ok_bind, f1, ok_bind]
      dsimp only
      rw [hub, ub_bind]

/-- What `svd` returns, for every cut. -/
theorem svd_spec [CommRing α] [LinearOrder β] [Zero β] {c : β → α} {gesvd : Gesvd α β}
    (hsvd : GesvdOk c gesvd) (env : DecompEnv σ α) (junk : ℕ → α) {sn : SvdNames ν}
    (hx : sn.u ≠ sn.v) {t : Tensor ν σ α} (ht : WF t) (set : List ν) {commonU commonV : ν}
    (hU1 : sn.u ≠ commonU) (hV1 : sn.v ≠ commonV)
    (hU : commonU ∉ t.names.filter fun n => decide (n ∈ set))
    (hV : commonV ∉ t.names.filter fun n => !decide (n ∈ set)) :
    ∃ S DU DV aU aV, SvdParts c t (t.names.filter fun n => decide (n ∈ set))
        (t.names.filter fun n => !decide (n ∈ set)) commonU commonV S DU DV aU aV ∧
      ∀ cut, (∀ plan, cutPlan S cut = .ok plan → ∃ u v,
          svd gesvd env junk sn t set commonU commonV cut = .ok (u, plan.1, v) ∧
          HalfOf t (t.names.filter fun n => decide (n ∈ set)) commonU true (cutMap plan.2.1 DU) true
            u aU ∧
          HalfOf t (t.names.filter fun n => !decide (n ∈ set)) commonV false (cutMap plan.2.2 DV)
            false v aV) ∧
        ∀ msg, cutPlan S cut = .error msg →
          svd gesvd env junk sn t set commonU commonV cut = .error msg := by
  obtain ⟨S, DU, DV, aU, aV, h1, _, _, h2⟩ := svd_spec_ortho hsvd env junk hx ht set hU1 hV1 hU hV
  exact ⟨S, DU, DV, aU, aV, h1, fun cut => ⟨(h2 cut).1, (h2 cut).2.1⟩⟩

theorem cutMap_le (keep : List (σ × ℕ)) {D : List (σ × ℕ)} (h : OMap.Sorted D) (s : σ) :
    dimM (cutMap keep D) s ≤ dimM D s := by
  unfold dimM
  rw [(cutMap_spec keep h).2]
  cases hd : OMap.find? D s with
  | none => simp
  | some d =>
    unfold cutDim
    simp only [Option.bind_some, Option.getD_some]
    split
    · split
      · exact min_le_right _ _
      · simp
    · exact le_refl _

end TAT
