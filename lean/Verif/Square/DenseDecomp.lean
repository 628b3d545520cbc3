import Verif.Square.Dense
import Verif.Qr.Props
import Verif.Svd.Props

/-!
# Decompositions of tensors without symmetry
-/

namespace TAT

set_option linter.unusedSectionVars false

variable {ν α β : Type} [LinearOrder ν]

/-- The legs of a factor of a tensor. -/
theorem dense_factor {t q : Tensor ν NoSymmetry α} (ht : Dense t) (hq : WF q) {free other : List ν}
    {common : ν} (hn : q.names.Perm (common :: free)) (hf : ∀ n ∈ free, n ∈ t.names)
    (ho : ∀ n ∈ other, n ∈ t.names) (hm : ∀ n ∈ free, mapOf q n = mapOf t n)
    (hc : common ∉ free)
    (hd : OMap.find? (mapOf q common) 0 =
      some (min (mergedDim (free.map (mapOf t)) 0) (mergedDim (other.map (mapOf t)) 0))) :
    Dense q ∧ ∃ K, 0 < K ∧ ∀ n, leg q n = if n = common then some K else if n ∈ free then leg t n else none := by
  have hpos : ∀ l : List ν, (∀ n ∈ l, n ∈ t.names) → 0 < mergedDim (l.map (mapOf t)) 0 := by
    intro l hl
    rw [mergedDim_unit noSymmetry (fm := mapOf t) (g := l)]
    · refine Nat.pos_of_ne_zero fun hp => ?_
      have h0 := List.prod_eq_zero_iff.1 hp
      obtain ⟨n, hn, h⟩ := List.mem_map.1 h0
      have := ht.pos n
      rw [legDim_of_mem (hl n hn)] at this
      omega
    · intro n hn
      have := ht.map (hl n hn)
      rw [legDim_of_mem (hl n hn)] at this
      exact this
  have hK := hpos free hf
  have hK' := hpos other ho
  have hleg : ∀ n, leg q n = if n = common then
      some (min (mergedDim (free.map (mapOf t)) 0) (mergedDim (other.map (mapOf t)) 0)) else
      if n ∈ free then leg t n else none := by
    intro n
    split
    · rename_i h
      subst h
      rw [leg_of_mem (hn.mem_iff.2 (by simp)), dimM, hd]
      rfl
    · rename_i h
      split
      · rename_i h'
        rw [leg_of_mem (hn.mem_iff.2 (by simp [h'])), leg_of_mem (hf n h'), hm n h']
      · rename_i h'
        rw [leg_eq_none]
        intro hc
        rcases List.mem_cons.1 (hn.mem_iff.1 hc) with e | e
        · exact h e
        · exact h' e
  refine ⟨⟨hq, fun n => ?_⟩, _, lt_min hK hK', hleg⟩
  rw [legDim, hleg]
  split
  · exact lt_min hK hK'
  · split
    · exact ht.pos n
    · simp

theorem dense_rearranged [CommRing α] {t r : Tensor ν NoSymmetry α} (ht : Dense t) {order : List ν}
    (h : Rearranged t r order) (x : ν → ℕ) : val r x = val t x := by
  have hleg : ∀ n ∈ t.names, legDim r n = legDim t n := by
    intro n hn
    rw [legDim_of_mem hn, legDim_of_mem (h.perm.mem_iff.2 hn), h.maps n hn]
  have hv : ValidPos t (fun n => (0, x n)) ↔ ValidPos r (fun n => (0, x n)) := by
    rw [dense_valid ht.wf, dense_valid h.wf]
    constructor
    · intro hh n hn
      have hn := h.perm.mem_iff.1 hn
      rw [hleg n hn]
      exact hh n hn
    · intro hh n hn
      rw [← hleg n hn]
      exact hh n (h.perm.mem_iff.2 hn)
  by_cases hx : ValidPos t (fun n => (0, x n))
  · have := h.elem _ hx
    rw [amp_valid h.wf (hv.1 hx), amp_valid ht.wf hx, orderSign, if_neg (by decide), applySign_one] at this
    exact Option.some.inj this
  · rw [val, val, amp_zero ht.wf hx, amp_zero h.wf fun hh => hx (hv.2 hh)]

/-- `qr` of a tensor without symmetry, the edges in `set` going to R. -/
theorem dense_qr [CommRing α] (ce : ContractEnv NoSymmetry α) (hg : GemmOk ce.gemm)
    {cn : ContractNames ν} (hcn : [cn.c0, cn.c1, cn.c2].Nodup)
    {lp : LapackQr α} (hlp : LapackQrOk lp) (env : DecompEnv NoSymmetry α)
    (junk : ℕ → α) {qn : QrNames ν} (hx : qn.x1 ≠ qn.x2) {t : Tensor ν NoSymmetry α} (ht : Dense t)
    (set : List ν) {commonQ commonR : ν}
    (hQ1 : qn.x1 ≠ commonQ) (hQ2 : qn.x2 ≠ commonQ) (hR1 : qn.x1 ≠ commonR) (hR2 : qn.x2 ≠ commonR)
    (hQ : commonQ ∉ set → leg t commonQ = none) (hR : commonR ∈ set → leg t commonR = none) :
    ∃ q r K, qr lp env junk qn t 'r' set commonQ commonR = .ok (q, r) ∧ Dense q ∧ Dense r ∧
      (∀ n, leg q n = if n = commonQ then some K else if n ∈ set then none else leg t n) ∧
      (∀ n, leg r n = if n = commonR then some K else if n ∈ set then leg t n else none) ∧
      ∀ x, val t x = ∑ k ∈ Finset.range K,
        val q (Function.update x commonQ k) * val r (Function.update x commonR k) := by
  have memQ : ∀ n, n ∈ (t.names.filter fun n => !onR true set n) ↔ n ∈ t.names ∧ n ∉ set := by
    intro n
    rw [List.mem_filter]
    simp [onR]
  have memR : ∀ n, n ∈ (t.names.filter fun n => onR true set n) ↔ n ∈ t.names ∧ n ∈ set := by
    intro n
    rw [List.mem_filter]
    simp [onR]
  obtain ⟨q, r, h1, h2⟩ := C36_qr hlp env junk hx ht.wf ht.blocks (direction := 'r') (useR := true)
    (Or.inl ⟨rfl, Or.inl rfl⟩) set hQ1 hQ2 hR1 hR2 (by
      rw [memQ]
      rintro ⟨a, b⟩
      exact leg_eq_none.1 (hQ b) a) (by
      rw [memR]
      rintro ⟨a, b⟩
      exact leg_eq_none.1 (hR b) a)
  have hk0 : (0 : NoSymmetry) ∈ OMap.keys (mapOf q commonQ) := by
    rw [h2.sectors]
    obtain ⟨p, hp⟩ := exists_key_of_blocks ht.wf.shaped ht.blocks
    exact ⟨p, hp, noSym_eq _ _⟩
  have hdim := h2.dims 0 hk0
  rw [show (-(0 : NoSymmetry)) = 0 from rfl] at hdim
  have hdim' := h2.opposite 0
  rw [show (-(0 : NoSymmetry)) = 0 from rfl, hdim, min_comm] at hdim'
  obtain ⟨q1, K, q2, q3⟩ := dense_factor ht h2.wfQ h2.namesQ (fun n hn => ((memQ n).1 hn).1)
    (fun n hn => ((memR n).1 hn).1) h2.mapsQ (by
      rw [memQ]
      rintro ⟨a, b⟩
      exact leg_eq_none.1 (hQ b) a) hdim
  obtain ⟨r1, K', r2, r3⟩ := dense_factor ht h2.wfR h2.namesR (fun n hn => ((memR n).1 hn).1)
    (fun n hn => ((memQ n).1 hn).1) h2.mapsR (by
      rw [memR]
      rintro ⟨a, b⟩
      exact leg_eq_none.1 (hR b) a) hdim'
  have hKK : leg q commonQ = leg r commonR := by
    rw [leg_of_mem (h2.namesQ.mem_iff.2 (by simp)), leg_of_mem (h2.namesR.mem_iff.2 (by simp)), dimM, dimM,
      hdim, hdim', min_comm]
  have q3' : ∀ n, leg q n = if n = commonQ then some K else if n ∈ set then none else leg t n := by
    intro n
    rw [q3]
    by_cases hn : n ∈ set
    · rw [if_neg (fun h => ((memQ n).1 h).2 hn), if_pos hn]
    · rw [if_neg hn]
      by_cases hm : n ∈ t.names
      · rw [if_pos ((memQ n).2 ⟨hm, hn⟩)]
      · rw [if_neg (fun h => hm ((memQ n).1 h).1), leg_eq_none.2 hm]
  have r3' : ∀ n, leg r n = if n = commonR then some K else if n ∈ set then leg t n else none := by
    have : K' = K := by
      have := hKK
      rw [q3, r3, if_pos rfl, if_pos rfl, Option.some.injEq] at this
      exact this.symm
    subst this
    intro n
    rw [r3]
    by_cases hn : n ∈ set
    · rw [if_pos hn]
      by_cases hm : n ∈ t.names
      · rw [if_pos ((memR n).2 ⟨hm, hn⟩)]
      · rw [if_neg (fun h => hm ((memR n).1 h).1), leg_eq_none.2 hm]
    · rw [if_neg (fun h => hn ((memR n).1 h).2), if_neg hn]
  refine ⟨q, r, K, h1, q1, r1, q3', r3', fun x => ?_⟩
  obtain ⟨res, e1, e2⟩ := h2.product ce cn hg hcn
  obtain ⟨res', f1, -, -, f2⟩ := dense_contract ce hg hcn q1 r1 (pairs := [(commonQ, commonR)]) (by simp)
    (by simp) (by simpa using hKK) (by
      intro n a b
      simp only [List.map_cons, List.map_nil, List.mem_singleton] at a b
      rw [q3', r3', if_neg a, if_neg b]
      by_cases hn : n ∈ set
      · exact Or.inl (if_pos hn)
      · exact Or.inr (if_neg hn))
  rw [e1, Outcome.ok.injEq] at f1
  subst f1
  rw [← dense_rearranged ht e2 x, f2 x, sumLegs, legDim, q3', if_pos rfl]
  rfl

/-- `svd` without a cut of a tensor without symmetry: U, the singular values and V, and the singular values put
into U. -/
theorem dense_svd_parts [CommRing α] [LinearOrder β] [Zero β] {c : β → α} {gesvd : Gesvd α β}
    (ce : ContractEnv NoSymmetry α) (hg : GemmOk ce.gemm)
    {cn : ContractNames ν} (hcn : [cn.c0, cn.c1, cn.c2].Nodup)
    (hsvd : GesvdOk c gesvd) (env : DecompEnv NoSymmetry α)
    (junk : ℕ → α) (junk' : List NoSymmetry → ℕ → α) (inv : β → β) {sn : SvdNames ν}
    (hx : sn.u ≠ sn.v) {t : Tensor ν NoSymmetry α} (ht : Dense t)
    (set : List ν) {commonU commonV : ν} (hU1 : sn.u ≠ commonU) (hV1 : sn.v ≠ commonV)
    (hU : commonU ∈ set → leg t commonU = none) (hV : commonV ∉ set → leg t commonV = none) :
    ∃ u S v w K, svd gesvd env junk sn t set commonU commonV (2 ^ 64 - 1) = .ok (u, S, v) ∧
      multiple junk' (fun x y => x * c y) inv u S commonU 'u' false = .ok w ∧ Dense w ∧ Dense v ∧
      (S.map fun e => e.2.length).sum = K ∧
      (∀ n, leg w n = if n = commonU then some K else if n ∈ set then leg t n else none) ∧
      (∀ n, leg v n = if n = commonV then some K else if n ∈ set then none else leg t n) ∧
      (∀ x, val t x = ∑ k ∈ Finset.range K,
        val w (Function.update x commonU k) * val v (Function.update x commonV k)) ∧
      Dense u ∧ (∀ n, leg u n = leg w n) ∧ ∃ l, S = [(0, l)] ∧ l.length = K := by
  have memU : ∀ n, n ∈ (t.names.filter fun n => decide (n ∈ set)) ↔ n ∈ t.names ∧ n ∈ set := by
    intro n
    rw [List.mem_filter]
    simp
  have memV : ∀ n, n ∈ (t.names.filter fun n => !decide (n ∈ set)) ↔ n ∈ t.names ∧ n ∉ set := by
    intro n
    rw [List.mem_filter]
    simp
  have nU : commonU ∉ t.names.filter fun n => decide (n ∈ set) := by
    rw [memU]
    rintro ⟨a, b⟩
    exact leg_eq_none.1 (hU b) a
  have nV : commonV ∉ t.names.filter fun n => !decide (n ∈ set) := by
    rw [memV]
    rintro ⟨a, b⟩
    exact leg_eq_none.1 (hV b) a
  obtain ⟨u, S, v, h1, h2⟩ := C35_svd hsvd env junk hx ht.wf ht.blocks set hU1 hV1 nU nV
  have hk0 : (0 : NoSymmetry) ∈ OMap.keys (mapOf u commonU) := by
    rw [h2.sectors]
    obtain ⟨p, hp⟩ := exists_key_of_blocks ht.wf.shaped ht.blocks
    exact ⟨p, hp, noSym_eq _ _⟩
  have hdim := h2.dims 0 hk0
  rw [show (-(0 : NoSymmetry)) = 0 from rfl] at hdim
  have hdim' := h2.opposite 0
  rw [show (-(0 : NoSymmetry)) = 0 from rfl, hdim, min_comm] at hdim'
  have pU : u.names.Perm (commonU :: t.names.filter fun n => decide (n ∈ set)) := by
    rw [h2.namesU]
    exact List.perm_append_comm
  obtain ⟨w, res, w1, w2, w3⟩ := h2.productU ce cn junk' inv hg hcn
  -- the singular values do not change the edges
  have hfits : TableFits S 'u' (mapOf u commonU) := by
    intro s hs
    have hs' := h2.table.2 s
    obtain ⟨d, hd⟩ := Option.isSome_iff_exists.1 (OMap.find?_isSome.2 hs)
    rw [hd] at hs'
    obtain ⟨l, hl, hl'⟩ := Option.map_eq_some_iff.1 hs'
    refine ⟨l, ?_, ?_⟩
    · have : tableSym 'u' s = s := if_neg (by decide)
      rw [this, hl]
    · unfold dimM
      rw [hd, hl']
      rfl
  obtain ⟨w', a1, a2, a3, a4, -⟩ := C31_multiple junk' (fun x y => x * c y) inv h2.wfU S
    (name := commonU) (pU.mem_iff.2 (by simp)) (direction := 'u') (by simp [IsDirection]) false hfits
  rw [w1, Outcome.ok.injEq] at a1
  subst a1
  have hmw : ∀ n, mapOf w n = mapOf u n := by
    intro n
    rw [mapOf, mapOf, edgeOf, edgeOf, a3, a4]
  obtain ⟨q1, K, q2, q3⟩ := dense_factor ht a2 (by rw [a3]; exact pU) (fun n hn => ((memU n).1 hn).1)
    (fun n hn => ((memV n).1 hn).1) (fun n hn => by rw [hmw]; exact h2.mapsU n hn) nU
    (by rw [hmw]; exact hdim)
  obtain ⟨r1, K', r2, r3⟩ := dense_factor ht h2.wfV (by rw [h2.namesV]) (fun n hn => ((memV n).1 hn).1)
    (fun n hn => ((memU n).1 hn).1) h2.mapsV nV hdim'
  have hKK : leg w commonU = leg v commonV := by
    rw [leg_of_mem (by rw [a3]; exact pU.mem_iff.2 (by simp)), leg_of_mem (by rw [h2.namesV]; simp), dimM,
      dimM, hmw, hdim, hdim', min_comm]
  have hK' : K' = K := by
    have := hKK
    rw [q3, r3, if_pos rfl, if_pos rfl, Option.some.injEq] at this
    exact this.symm
  subst hK'
  have q3' : ∀ n, leg w n = if n = commonU then some K' else if n ∈ set then leg t n else none := by
    intro n
    rw [q3]
    by_cases hn : n ∈ set
    · rw [if_pos hn]
      by_cases hm : n ∈ t.names
      · rw [if_pos ((memU n).2 ⟨hm, hn⟩)]
      · rw [if_neg (fun h => hm ((memU n).1 h).1), leg_eq_none.2 hm]
    · rw [if_neg (fun h => hn ((memU n).1 h).2), if_neg hn]
  have r3' : ∀ n, leg v n = if n = commonV then some K' else if n ∈ set then none else leg t n := by
    intro n
    rw [r3]
    by_cases hn : n ∈ set
    · rw [if_neg (fun h => ((memV n).1 h).2 hn), if_pos hn]
    · rw [if_neg hn]
      by_cases hm : n ∈ t.names
      · rw [if_pos ((memV n).2 ⟨hm, hn⟩)]
      · rw [if_neg (fun h => hm ((memV n).1 h).1), leg_eq_none.2 hm]
  have hSl : ∃ l, S = [(0, l)] ∧ l.length = K' := by
    have ht0 := h2.table.2 0
    have hK0 : OMap.find? (mapOf u commonU) 0 = some K' := by
      have := q3 commonU
      rw [if_pos rfl, leg_of_mem (by rw [a3]; exact pU.mem_iff.2 (by simp)), dimM, hmw, hdim,
        Option.some.injEq] at this
      rw [hdim, ← this]
      rfl
    rw [hK0] at ht0
    obtain ⟨l, hl, hl'⟩ := Option.map_eq_some_iff.1 ht0
    have hm := OMap.mem_of_find? hl
    have : S = [(0, l)] := by
      have hs := h2.table.1
      match S, hs, hm with
      | [], _, hm => simp at hm
      | [e], _, hm => rw [List.mem_singleton.1 hm]
      | e :: f :: S', hs, _ =>
        rw [OMap.Sorted, List.map_cons, List.map_cons, List.pairwise_cons] at hs
        exact absurd (hs.1 f.1 (by simp)) (by rw [noSym_eq e.1 f.1]; exact lt_irrefl _)
    exact ⟨l, this, hl'⟩
  have hS : (S.map fun e => e.2.length).sum = K' := by
    obtain ⟨l, rfl, hl⟩ := hSl
    simpa using hl
  have hlu : ∀ n, leg u n = leg w n := fun n => by
    rw [leg, leg, a3, hmw]
  refine ⟨u, S, v, w, K', h1, w1, q1, r1, hS, q3', r3', fun x => ?_,
    ⟨h2.wfU, fun n => by rw [legDim, hlu]; exact q1.pos n⟩, hlu, hSl⟩
  obtain ⟨res', f1, -, -, f2⟩ := dense_contract ce hg hcn q1 r1 (pairs := [(commonU, commonV)]) (by simp)
    (by simp) (by simpa using hKK) (by
      intro n a b
      simp only [List.map_cons, List.map_nil, List.mem_singleton] at a b
      rw [q3', r3', if_neg a, if_neg b]
      by_cases hn : n ∈ set
      · exact Or.inr (if_pos hn)
      · exact Or.inl (if_neg hn))
  rw [w2, Outcome.ok.injEq] at f1
  subst f1
  rw [← dense_rearranged ht w3 x, f2 x, sumLegs, legDim, q3', if_pos rfl]
  rfl

/-- `svd` without a cut of a tensor without symmetry, with the singular values put into U. -/
theorem dense_svd [CommRing α] [LinearOrder β] [Zero β] {c : β → α} {gesvd : Gesvd α β}
    (ce : ContractEnv NoSymmetry α) (hg : GemmOk ce.gemm)
    {cn : ContractNames ν} (hcn : [cn.c0, cn.c1, cn.c2].Nodup)
    (hsvd : GesvdOk c gesvd) (env : DecompEnv NoSymmetry α)
    (junk : ℕ → α) (junk' : List NoSymmetry → ℕ → α) (inv : β → β) {sn : SvdNames ν}
    (hx : sn.u ≠ sn.v) {t : Tensor ν NoSymmetry α} (ht : Dense t)
    (set : List ν) {commonU commonV : ν} (hU1 : sn.u ≠ commonU) (hV1 : sn.v ≠ commonV)
    (hU : commonU ∈ set → leg t commonU = none) (hV : commonV ∉ set → leg t commonV = none) :
    ∃ u S v w K, svd gesvd env junk sn t set commonU commonV (2 ^ 64 - 1) = .ok (u, S, v) ∧
      multiple junk' (fun x y => x * c y) inv u S commonU 'u' false = .ok w ∧ Dense w ∧ Dense v ∧
      (S.map fun e => e.2.length).sum = K ∧
      (∀ n, leg w n = if n = commonU then some K else if n ∈ set then leg t n else none) ∧
      (∀ n, leg v n = if n = commonV then some K else if n ∈ set then none else leg t n) ∧
      ∀ x, val t x = ∑ k ∈ Finset.range K,
        val w (Function.update x commonU k) * val v (Function.update x commonV k) := by
  obtain ⟨u, S, v, w, K, h1, h2, h3, h4, h5, h6, h7, h8, -⟩ :=
    dense_svd_parts ce hg hcn hsvd env junk junk' inv hx ht set hU1 hV1 hU hV
  exact ⟨u, S, v, w, K, h1, h2, h3, h4, h5, h6, h7, h8⟩

end TAT
