import Verif.Svd.Parts
import Verif.TensorMisc.Multiple
import Verif.Contract.Props

/-!
# Properties of `svd`

C35, C51, C70.
-/

set_option linter.unusedSectionVars false

namespace TAT

variable {ν σ α β : Type} [LinearOrder ν] [TatSym σ]

/-- A factor multiplied by the singular values. -/
theorem HalfOf.multiple [CommRing α] [Zero β] {t A : Tensor ν σ α} {G : List ν} {n : ν}
    {left arrow : Bool} {D : List (σ × ℕ)} {a : (ν → σ × ℕ) → α}
    (h : HalfOf t G n left D arrow A a) (ht : WF t) (c : β → α) (junk : List σ → ℕ → α)
    (inv : β → β) {S : List (σ × List β)} {direction : Char} (hd : IsDirection direction)
    (hS : TableFits S direction D) :
    ∃ w, multiple junk (fun x y => x * c y) inv A S n direction false = .ok w ∧
      HalfOf t G n left D arrow w fun q => a q * c ((tableAt S direction (q n)).getD 0) := by
  obtain ⟨h1, h2, _⟩ := h.view ht
  obtain ⟨w, w1, w2, w3, w4, w5⟩ := C31_multiple junk (fun x y => x * c y) inv h.wf S
    (name := n) (h.perm.mem_iff.2 (by simp)) hd false (by rw [h2]; exact hS)
  refine ⟨w, w1, w2, w3.trans h.names, h.fresh, h.sub, h.sorted, h.keys, ?_, fun q hq => ?_⟩
  · rw [w4, w3]; exact h.edges
  · obtain ⟨x, v, e1, e2, e3⟩ := w5 q ((h1 q).2 hq)
    rw [h.elem q hq] at e1
    cases e1
    rw [e3, e2]
    rfl

/-- The result of a singular value decomposition without a cut. -/
structure SvdResult [CommRing α] [Zero β] (c : β → α) (t u : Tensor ν σ α) (S : List (σ × List β))
    (v : Tensor ν σ α) (freeU freeV : List ν) (commonU commonV : ν) : Prop where
  wfU : WF u
  wfV : WF v
  namesU : u.names = freeU ++ [commonU]
  namesV : v.names = commonV :: freeV
  /-- The other edges are those of the tensor. -/
  mapsU : ∀ n ∈ freeU, mapOf u n = mapOf t n
  mapsV : ∀ n ∈ freeV, mapOf v n = mapOf t n
  /-- The common edge of U has a symmetry if the edges of V can have it as their total, with the
  smaller one of the two dimensions of the block. -/
  sectors : ∀ s, s ∈ OMap.keys (mapOf u commonU) ↔
    ∃ p, KeyOk (mapOf t) t.names p ∧ (keyOf freeV p).sum = s
  dims : ∀ s ∈ OMap.keys (mapOf u commonU), OMap.find? (mapOf u commonU) s =
    some (min (mergedDim (freeU.map (mapOf t)) (-s)) (mergedDim (freeV.map (mapOf t)) s))
  opposite : ∀ s, OMap.find? (mapOf v commonV) s = OMap.find? (mapOf u commonU) (-s)
  /-- There are as many singular values as the common edge has dimensions. -/
  table : OMap.Sorted S ∧
    ∀ s, (OMap.find? S s).map List.length = OMap.find? (mapOf u commonU) s
  /-- U times the singular values, contracted with V, is the tensor. -/
  productU : ∀ (ce : ContractEnv σ α) (cn : ContractNames ν) (junk : List σ → ℕ → α) (inv : β → β),
    GemmOk ce.gemm → [cn.c0, cn.c1, cn.c2].Nodup → ∃ w res,
    multiple junk (fun x y => x * c y) inv u S commonU 'u' false = .ok w ∧
    contract ce cn w v [(commonU, commonV)] = .ok res ∧ Rearranged t res (freeU ++ freeV)
  /-- So is U contracted with the singular values times V. -/
  productV : ∀ (ce : ContractEnv σ α) (cn : ContractNames ν) (junk : List σ → ℕ → α) (inv : β → β),
    GemmOk ce.gemm → [cn.c0, cn.c1, cn.c2].Nodup → ∃ w res,
    multiple junk (fun x y => x * c y) inv v S commonV 'v' false = .ok w ∧
    contract ce cn u w [(commonU, commonV)] = .ok res ∧ Rearranged t res (freeU ++ freeV)

theorem SvdParts.fitsU [CommRing α] [Zero β] {c : β → α} {t : Tensor ν σ α} {GU GV : List ν}
    {cU cV : ν} {S : List (σ × List β)} {DU DV : List (σ × ℕ)} {aU aV : (ν → σ × ℕ) → α}
    (h : SvdParts c t GU GV cU cV S DU DV aU aV) : TableFits S 'u' DU := by
  intro s hs
  obtain ⟨d, hd⟩ := Option.isSome_iff_exists.1 (OMap.find?_isSome.2 hs)
  have := h.table s
  rw [hd] at this
  obtain ⟨v, hv, hl⟩ := Option.map_eq_some_iff.1 this
  refine ⟨v, ?_, ?_⟩
  · have : tableSym 'u' s = s := if_neg (by decide)
    rw [this, hv]
  · unfold dimM
    rw [hd, hl]
    rfl

theorem SvdParts.fitsV [CommRing α] [Zero β] {c : β → α} {t : Tensor ν σ α} {GU GV : List ν}
    {cU cV : ν} {S : List (σ × List β)} {DU DV : List (σ × ℕ)} {aU aV : (ν → σ × ℕ) → α}
    (h : SvdParts c t GU GV cU cV S DU DV aU aV) : TableFits S 'v' DV := by
  intro s hs
  obtain ⟨d, hd⟩ := Option.isSome_iff_exists.1 (OMap.find?_isSome.2 hs)
  have ho := h.opposite (-s)
  rw [neg_neg, hd] at ho
  have := h.table (-s)
  rw [ho] at this
  obtain ⟨v, hv, hl⟩ := Option.map_eq_some_iff.1 this
  refine ⟨v, ?_, ?_⟩
  · have : tableSym 'v' s = -s := if_pos (by decide)
    rw [this, hv]
  · unfold dimM
    rw [hd, hl]
    rfl

theorem SvdParts.result [CommRing α] [Zero β] {c : β → α} {t u v : Tensor ν σ α} {GU GV : List ν}
    {cU cV : ν} {S : List (σ × List β)} {DU DV : List (σ × ℕ)} {aU aV : (ν → σ × ℕ) → α}
    (h : SvdParts c t GU GV cU cV S DU DV aU aV) (ht : WF t) (hb : t.core.blocks ≠ [])
    (hp : t.names.Perm (GU ++ GV)) (hu : HalfOf t GU cU true DU true u aU)
    (hv : HalfOf t GV cV false DV false v aV) : SvdResult c t u S v GU GV cU cV := by
  obtain ⟨_, u2, _⟩ := hu.view ht
  obtain ⟨_, v2, _⟩ := hv.view ht
  have hfull : ∀ p, KeyOk (mapOf t) t.names p → -(keyOf GU p).sum ∈ OMap.keys DU := fun p hk => by
    rw [h.sectors]
    refine ⟨p, hk, ?_⟩
    have := hk.2
    rw [sum_split hp] at this
    exact (neg_eq_of_add_eq_zero_right this).symm
  have hfull' : ∀ p, KeyOk (mapOf t) t.names p → -(keyOf GV p).sum ∈ OMap.keys DV := fun p hk => by
    have h1 := hfull p hk
    have := hk.2
    rw [sum_split hp] at this
    rw [← OMap.find?_isSome, h.opposite, OMap.find?_isSome] at h1
    rwa [← eq_neg_of_add_eq_zero_left this, ← neg_neg (keyOf GU p).sum]
  have hu' : ∀ s l, tableAt S 'u' (s, l) = (OMap.find? S s).bind fun v => v[l]? := fun s l => by
    have : tableSym 'u' s = s := if_neg (by decide)
    unfold tableAt
    rw [this]
  have hv' : ∀ s l, tableAt S 'v' (s, l) = (OMap.find? S (-s)).bind fun v => v[l]? := fun s l => by
    have : tableSym 'v' s = -s := if_pos (by decide)
    unfold tableAt
    rw [this]
  have hget : ∀ s l, ((OMap.find? S s).getD []).getD l 0 =
      ((OMap.find? S s).bind fun v => v[l]?).getD 0 := fun s l => by
    cases OMap.find? S s with
    | none => simp
    | some v => simp [List.getD_eq_getElem?_getD]
  refine ⟨hu.wf, hv.wf, by rw [hu.names]; simp [pairOf], by rw [hv.names]; simp [pairOf],
    hu.maps ht hfull, hv.maps ht hfull', by rw [u2]; exact h.sectors, by rw [u2]; exact h.dims,
    fun s => by rw [u2, v2, h.opposite, neg_neg], ⟨h.sortedS, by rw [u2]; exact h.table⟩,
    fun ce cn junk inv hg hcn => ?_, fun ce cn junk inv hg hcn => ?_⟩
  · obtain ⟨w, w1, w2⟩ := hu.multiple ht c junk inv (direction := 'u') (by simp [IsDirection]) h.fitsU
    obtain ⟨r, r1, r2⟩ := recompose ce hg hcn ht hb w2 hv hp h.opposite hfull fun p hv => by
      rw [← h.value p hv]
      congr 1
      apply List.map_congr_left
      intro l _
      simp only [Function.update_self, hu', hget]
    exact ⟨w, r, w1, r1, r2⟩
  · obtain ⟨w, w1, w2⟩ := hv.multiple ht c junk inv (direction := 'v') (by simp [IsDirection]) h.fitsV
    obtain ⟨r, r1, r2⟩ := recompose ce hg hcn ht hb hu w2 hp h.opposite hfull fun p hv => by
      rw [← h.value p hv]
      congr 1
      apply List.map_congr_left
      intro l _
      simp only [Function.update_self, hv', hget]
      ring
    exact ⟨w, r, w1, r1, r2⟩

section
variable [CommRing α] [LinearOrder β] [Zero β] {c : β → α} {gesvd : Gesvd α β}

/-- **C35.** `svd` without a cut succeeds; U has the chosen edges, V the others, and U, the singular
values and V give the tensor. -/
theorem C35_svd (hsvd : GesvdOk c gesvd) (env : DecompEnv σ α) (junk : ℕ → α) {sn : SvdNames ν}
    (hx : sn.u ≠ sn.v) {t : Tensor ν σ α} (ht : WF t) (hb : t.core.blocks ≠ []) (set : List ν)
    {commonU commonV : ν} (hU1 : sn.u ≠ commonU) (hV1 : sn.v ≠ commonV)
    (hU : commonU ∉ t.names.filter fun n => decide (n ∈ set))
    (hV : commonV ∉ t.names.filter fun n => !decide (n ∈ set)) :
    ∃ u S v, svd gesvd env junk sn t set commonU commonV (2 ^ 64 - 1) = .ok (u, S, v) ∧
      SvdResult c t u S v (t.names.filter fun n => decide (n ∈ set))
        (t.names.filter fun n => !decide (n ∈ set)) commonU commonV := by
  obtain ⟨S, DU, DV, aU, aV, sp, hs⟩ := svd_spec hsvd env junk hx ht set hU1 hV1 hU hV
  obtain ⟨u, v, h1, h2, h3⟩ := (hs (2 ^ 64 - 1)).1 _ (C34_no_cut S (Or.inl rfl))
  rw [cutMap_nil sp.sortedU] at h2
  rw [cutMap_nil sp.sortedV] at h3
  exact ⟨u, S, v, h1, sp.result ht hb ((filter_perm _ _).trans List.perm_append_comm) h2 h3⟩

/-- **C70.** Whatever the cut, if `svd` succeeds, U and V are isometries: the product of each of them
with its conjugate, over all edges but the new one, is the unit matrix. -/
theorem C70_svd (hsvd : GesvdOk c gesvd) {conj : α →+* α} (ho : GesvdOrtho conj gesvd)
    (env : DecompEnv σ α) (junk : ℕ → α) {sn : SvdNames ν}
    (hx : sn.u ≠ sn.v) {t : Tensor ν σ α} (ht : WF t) (set : List ν)
    {commonU commonV : ν} (hU1 : sn.u ≠ commonU) (hV1 : sn.v ≠ commonV)
    (hU : commonU ∉ t.names.filter fun n => decide (n ∈ set))
    (hV : commonV ∉ t.names.filter fun n => !decide (n ∈ set)) {cut : ℕ} {u v : Tensor ν σ α}
    {S : List (σ × List β)} (h : svd gesvd env junk sn t set commonU commonV cut = .ok (u, S, v)) :
    Isometry conj u (t.names.filter fun n => decide (n ∈ set)) commonU ∧
    Isometry conj v (t.names.filter fun n => !decide (n ∈ set)) commonV := by
  obtain ⟨S0, DU, DV, aU, aV, sp, so, _, hs⟩ := svd_spec_ortho hsvd env junk hx ht set hU1 hV1 hU hV
  obtain ⟨oU, oV⟩ := so conj ho
  obtain ⟨h1, h2, h3⟩ := hs cut
  cases hp : cutPlan S0 cut with
  | ok plan =>
    obtain ⟨u', v', e, hu, hv⟩ := h1 plan hp
    rw [h] at e
    cases e
    exact ⟨hu.isometry ht oU (cutMap_le _ sp.sortedU), hv.isometry ht oV (cutMap_le _ sp.sortedV)⟩
  | error msg =>
    rw [h2 msg hp] at h
    cases h
  | ub =>
    rw [h3 hp] at h
    cases h

/-- **C35.** The singular values of every sector are descending and not negative. -/
theorem C35_values (hsvd : GesvdOk c gesvd) (hval : GesvdValues gesvd)
    (env : DecompEnv σ α) (junk : ℕ → α) {sn : SvdNames ν}
    (hx : sn.u ≠ sn.v) {t : Tensor ν σ α} (ht : WF t) (set : List ν)
    {commonU commonV : ν} (hU1 : sn.u ≠ commonU) (hV1 : sn.v ≠ commonV)
    (hU : commonU ∉ t.names.filter fun n => decide (n ∈ set))
    (hV : commonV ∉ t.names.filter fun n => !decide (n ∈ set)) {u v : Tensor ν σ α}
    {S : List (σ × List β)}
    (h : svd gesvd env junk sn t set commonU commonV (2 ^ 64 - 1) = .ok (u, S, v)) :
    ∀ e ∈ S, (∀ x ∈ e.2, 0 ≤ x) ∧ e.2.Pairwise (· ≥ ·) := by
  obtain ⟨S0, DU, DV, aU, aV, sp, _, so, hs⟩ := svd_spec_ortho hsvd env junk hx ht set hU1 hV1 hU hV
  obtain ⟨u1, v1, e1, _⟩ := (hs (2 ^ 64 - 1)).1 _ (C34_no_cut S0 (Or.inl rfl))
  rw [h] at e1
  obtain ⟨-, rfl, -⟩ : u = u1 ∧ S = S0 ∧ v = v1 := by cases e1; exact ⟨rfl, rfl, rfl⟩
  exact so _ hval (by simp)

/-- **C35.** The same for every cut which is not smaller than the number of singular values. -/
theorem C35_large_cut (env : DecompEnv σ α) (junk : ℕ → α) (sn : SvdNames ν) (t : Tensor ν σ α)
    (set : List ν) (commonU commonV : ν) {u v : Tensor ν σ α}
    {S : List (σ × List β)}
    (h0 : svd gesvd env junk sn t set commonU commonV (2 ^ 64 - 1) = .ok (u, S, v)) {cut : ℕ}
    (hc : (S.map fun e => e.2.length).sum ≤ cut) :
    svd gesvd env junk sn t set commonU commonV cut = .ok (u, S, v) := by
  have bind_ok : ∀ {β δ : Type} {x : Outcome β} {f : β → Outcome δ} {y : δ}, x.bind f = .ok y →
      ∃ z, x = .ok z ∧ f z = .ok y := by
    intro β δ x f y h
    cases x with
    | ok z => exact ⟨z, rfl, h⟩
    | error _ => cases h
    | ub => cases h
  unfold svd at h0 ⊢
  dsimp only at h0 ⊢
  obtain ⟨m, h1, h0⟩ := bind_ok h0
  obtain ⟨f, h2, h0⟩ := bind_ok h0
  obtain ⟨p, h3, h0⟩ := bind_ok h0
  rw [C34_no_cut _ (Or.inl rfl)] at h3
  cases h3
  obtain ⟨u', h4, h0⟩ := bind_ok h0
  obtain ⟨v', h5, h0⟩ := bind_ok h0
  cases h0
  have ok_bind : ∀ {β δ : Type} (x : β) (f : β → Outcome δ), (Outcome.ok x).bind f = f x :=
    fun _ _ => rfl
  rw [h1, ok_bind, h2, ok_bind]
  rw [C34_no_cut _ (Or.inr hc)]
  dsimp only [Outcome.bind] at h4 h5 ⊢
  rw [h4]
  dsimp only
  rw [h5]

/-- The result of a decomposition with a cut, compared with the one without. -/
structure CutResult (u0 v0 u v : Tensor ν σ α) (S S' : List (σ × List β)) (commonU commonV : ν)
    (cut : ℕ) : Prop where
  wfU : WF u
  wfV : WF v
  namesU : u.names = u0.names
  namesV : v.names = v0.names
  /-- As many values as demanded, in every sector the first ones, and the largest ones of all. -/
  total : (S'.map fun e => e.2.length).sum = cut
  first : ∀ e ∈ S', e.2 ≠ [] ∧ ∃ w, (e.1, w) ∈ S ∧ e.2 <+: w
  largest : ∀ e ∈ S, ∀ f ∈ S', ∀ x ∈ e.2.drop ((OMap.find? S' e.1).getD []).length, ∀ y ∈ f.2, x ≤ y
  /-- The common edges have the dimensions of the table. -/
  edgeU : ∀ s, OMap.find? (mapOf u commonU) s = (OMap.find? S' s).map List.length
  edgeV : ∀ s, OMap.find? (mapOf v commonV) s = (OMap.find? S' (-s)).map List.length
  /-- The elements are those of the factors without a cut. -/
  elemU : ∀ p, ValidPos u p ↔ ValidPos u0 p ∧ (p commonU).2 < dimM (mapOf u commonU) (p commonU).1
  elemV : ∀ p, ValidPos v p ↔ ValidPos v0 p ∧ (p commonV).2 < dimM (mapOf v commonV) (p commonV).1
  sameU : ∀ p, ValidPos u p → elem u p = elem u0 p
  sameV : ∀ p, ValidPos v p → elem v p = elem v0 p

/-- Positions of a factor whose common edge was cut. -/
theorem HalfOf.cut_valid {t A B : Tensor ν σ α} {G : List ν} {n : ν} {left arrow : Bool}
    {D D' : List (σ × ℕ)} {a : (ν → σ × ℕ) → α} (hA : HalfOf t G n left D arrow A a)
    (hB : HalfOf t G n left D' arrow B a) (ht : WF t)
    (hD : ∀ s d, OMap.find? D' s = some d → ∃ d', OMap.find? D s = some d' ∧ d ≤ d') :
    (∀ p, ValidPos B p ↔ ValidPos A p ∧ (p n).2 < dimM D' (p n).1) ∧
    ∀ p, ValidPos B p → TAT.elem B p = TAT.elem A p := by
  have hv : ∀ p, ValidPos B p ↔ ValidPos A p ∧ (p n).2 < dimM D' (p n).1 := by
    intro p
    rw [(hB.view ht).1, (hA.view ht).1]
    have hfree : ∀ m ∈ G, halfMap t n D' m = halfMap t n D m := fun m hm => by
      rw [halfMap_free (hA.ne hm), halfMap_free (hA.ne hm)]
    constructor
    · intro h
      have hn := h.1 n (by simp)
      rw [halfMap_common] at hn
      refine ⟨⟨fun m hm => ?_, h.2⟩, hn⟩
      rcases List.mem_append.1 hm with hm' | hm'
      · rw [← hfree m hm']; exact h.1 m hm
      · rw [List.mem_singleton] at hm'
        subst hm'
        rw [halfMap_common]
        unfold dimM at hn ⊢
        cases hd : OMap.find? D' (p m).1 with
        | none => rw [hd] at hn; simp at hn
        | some d =>
          obtain ⟨d', h1, h2⟩ := hD _ _ hd
          rw [hd] at hn
          rw [h1]
          exact lt_of_lt_of_le hn h2
    · rintro ⟨h, hn⟩
      refine ⟨fun m hm => ?_, h.2⟩
      rcases List.mem_append.1 hm with hm' | hm'
      · rw [hfree m hm']; exact h.1 m hm
      · rw [List.mem_singleton] at hm'
        subst hm'
        rw [halfMap_common]
        exact hn
  refine ⟨hv, fun p hp => ?_⟩
  rw [hB.elem p (((hB.view ht).1 p).1 hp), hA.elem p (((hA.view ht).1 p).1 ((hv p).1 hp).1)]

/-- The singular values which remain after a cut, and the common edges. -/
theorem SvdParts.cut {t : Tensor ν σ α} {GU GV : List ν} {cU cV : ν} {S : List (σ × List β)}
    {DU DV : List (σ × ℕ)} {aU aV : (ν → σ × ℕ) → α}
    (sp : SvdParts c t GU GV cU cV S DU DV aU aV) {cut : ℕ}
    (hdesc : ∀ e ∈ S, e.2.Pairwise (· ≥ ·)) (hlt : cut < (S.map fun e => e.2.length).sum)
    (hpos : cut ≤ (S.map fun e => (e.2.filter fun x => decide (0 < x)).length).sum)
    (hc : cut ≠ 2 ^ 64 - 1) :
    ∃ S' ru rv, cutPlan S cut = .ok (S', ru, rv) ∧ OMap.Sorted S' ∧
      (S'.map fun e => e.2.length).sum = cut ∧
      (∀ e ∈ S', e.2 ≠ [] ∧ ∃ w, (e.1, w) ∈ S ∧ e.2 <+: w) ∧
      (∀ e ∈ S, ∀ f ∈ S', ∀ x ∈ e.2.drop ((OMap.find? S' e.1).getD []).length, ∀ y ∈ f.2, x ≤ y) ∧
      (∀ s, OMap.find? (cutMap ru DU) s = (OMap.find? S' s).map List.length) ∧
      ∀ s, OMap.find? (cutMap rv DV) s = (OMap.find? S' (-s)).map List.length := by
  obtain ⟨S', ru, rv, p1, p2, p3, p4, p5, p6, p7, p8⟩ := C34_cut sp.sortedS hdesc hc hlt hpos
  have hU' : ∀ s, OMap.find? (cutMap ru DU) s = (OMap.find? S' s).map List.length := by
    intro s
    rw [(cutMap_spec ru sp.sortedU).2, ← sp.table]
    cases hS : OMap.find? S s with
    | none =>
      cases hS' : OMap.find? S' s with
      | none => rfl
      | some w =>
        obtain ⟨_, w', h1, _⟩ := p4 _ (OMap.mem_of_find? hS')
        rw [OMap.find?_of_mem sp.sortedS.nodup h1] at hS
        cases hS
    | some w =>
      have hsk : s ∈ OMap.keys S := by rw [← OMap.find?_isSome, hS]; rfl
      simp only [Option.map_some, Option.bind_some]
      unfold cutDim
      rw [(p8 s hsk).1]
      dsimp only
      cases hS' : OMap.find? S' s with
      | none => rfl
      | some w' =>
        obtain ⟨hne, w2, h1, h2⟩ := p4 _ (OMap.mem_of_find? hS')
        rw [OMap.find?_of_mem sp.sortedS.nodup h1] at hS
        cases hS
        have : w'.length ≠ 0 := fun h => hne (List.length_eq_zero_iff.1 h)
        simp [this, h2.length_le]
  have hV' : ∀ s, OMap.find? (cutMap rv DV) s = (OMap.find? S' (-s)).map List.length := by
    intro s
    rw [(cutMap_spec rv sp.sortedV).2, ← hU', (cutMap_spec ru sp.sortedU).2, sp.opposite, neg_neg]
    cases hd : OMap.find? DV s with
    | none => rfl
    | some d =>
      have hsk : -s ∈ OMap.keys S := by
        rw [← OMap.find?_isSome]
        have := sp.table (-s)
        rw [sp.opposite, neg_neg, hd] at this
        cases hf : OMap.find? S (-s) with
        | none => rw [hf] at this; cases this
        | some _ => rfl
      simp only [Option.bind_some]
      unfold cutDim
      have := (p8 _ hsk).2
      rw [neg_neg] at this
      rw [(p8 _ hsk).1, this]
  exact ⟨S', ru, rv, p1, p2, p3, p4, p5, hU', hV'⟩

/-- **C51.** With a cut, `svd` returns the factors it returns without, restricted to the `cut` largest
singular values.  The values of every sector are descending and at least `cut` of them positive. -/
theorem C51_cut (hsvd : GesvdOk c gesvd) (env : DecompEnv σ α) (junk : ℕ → α) {sn : SvdNames ν}
    (hx : sn.u ≠ sn.v) {t : Tensor ν σ α} (ht : WF t) (set : List ν)
    {commonU commonV : ν} (hU1 : sn.u ≠ commonU) (hV1 : sn.v ≠ commonV)
    (hU : commonU ∉ t.names.filter fun n => decide (n ∈ set))
    (hV : commonV ∉ t.names.filter fun n => !decide (n ∈ set)) {u0 v0 : Tensor ν σ α}
    {S : List (σ × List β)}
    (h0 : svd gesvd env junk sn t set commonU commonV (2 ^ 64 - 1) = .ok (u0, S, v0)) {cut : ℕ}
    (hdesc : ∀ e ∈ S, e.2.Pairwise (· ≥ ·)) (hlt : cut < (S.map fun e => e.2.length).sum)
    (hpos : cut ≤ (S.map fun e => (e.2.filter fun x => decide (0 < x)).length).sum)
    (hc : cut ≠ 2 ^ 64 - 1) :
    ∃ u S' v, svd gesvd env junk sn t set commonU commonV cut = .ok (u, S', v) ∧
      CutResult u0 v0 u v S S' commonU commonV cut := by
  obtain ⟨S0, DU, DV, aU, aV, sp, hs⟩ := svd_spec hsvd env junk hx ht set hU1 hV1 hU hV
  obtain ⟨u1, v1, e1, hu0, hv0⟩ := (hs (2 ^ 64 - 1)).1 _ (C34_no_cut S0 (Or.inl rfl))
  rw [h0] at e1
  obtain ⟨rfl, rfl, rfl⟩ : u0 = u1 ∧ S = S0 ∧ v0 = v1 := by cases e1; exact ⟨rfl, rfl, rfl⟩
  rw [cutMap_nil sp.sortedU] at hu0
  rw [cutMap_nil sp.sortedV] at hv0
  obtain ⟨S', ru, rv, p1, p2, p3, p4, p5, hU', hV'⟩ := sp.cut hdesc hlt hpos hc
  obtain ⟨u, v, e2, hu, hv⟩ := (hs cut).1 _ p1
  dsimp only at e2 hu hv
  have cu := hu0.cut_valid hu ht fun s d hd => by
    rw [(cutMap_spec ru sp.sortedU).2] at hd
    obtain ⟨d', h1, h2⟩ := Option.bind_eq_some_iff.1 hd
    exact ⟨d', h1, cutDim_le h2⟩
  have cv := hv0.cut_valid hv ht fun s d hd => by
    rw [(cutMap_spec rv sp.sortedV).2] at hd
    obtain ⟨d', h1, h2⟩ := Option.bind_eq_some_iff.1 hd
    exact ⟨d', h1, cutDim_le h2⟩
  refine ⟨u, S', v, e2, ⟨hu.wf, hv.wf, hu.names.trans hu0.names.symm, hv.names.trans hv0.names.symm,
    p3, p4, p5, ?_, ?_, ?_, ?_, cu.2, cv.2⟩⟩
  · rw [(hu.view ht).2.1]; exact hU'
  · rw [(hv.view ht).2.1]; exact hV'
  · rw [(hu.view ht).2.1]; exact cu.1
  · rw [(hv.view ht).2.1]; exact cv.1

end

end TAT
