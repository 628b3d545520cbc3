import Verif.Mps.UpdateModel
import Verif.Mps.Legs
import Verif.Square.NetLegs

/-!
# Helper lemmas for chains: one step of an update
-/

namespace TAT.Mps

set_option linter.unusedSectionVars false

/-! ## the number of singular values -/

section

variable {ν α β : Type} [LinearOrder ν]

theorem prod_legDim {t : Tensor ν NoSymmetry α} (h : t.names.Nodup) {set : List ν} (hs : set.Nodup) :
    ((t.names.filter fun n => decide (n ∈ set)).map (legDim t)).prod = (set.map (legDim t)).prod := by
  rw [← List.prod_toFinset _ (h.filter _), ← List.prod_toFinset _ hs]
  refine Finset.prod_subset (fun n hn => ?_) fun n hn hm => ?_
  · simp only [List.mem_toFinset, List.mem_filter, decide_eq_true_eq] at hn ⊢
    exact hn.2
  · simp only [List.mem_toFinset, List.mem_filter, decide_eq_true_eq] at hn hm
    rw [legDim, leg_eq_none.2 fun h => hm ⟨h, hn⟩]
    rfl

theorem svd_rank [CommRing α] [LinearOrder β] [Zero β] {c : β → α} {gesvd : Gesvd α β}
    (hsvd : GesvdOk c gesvd) (env : DecompEnv NoSymmetry α) (junk : ℕ → α) {sn : SvdNames ν}
    (hx : sn.u ≠ sn.v) {t : Tensor ν NoSymmetry α} (ht : Dense t)
    {set : List ν} (hset : set.Nodup) {commonU commonV : ν} (hU1 : sn.u ≠ commonU) (hV1 : sn.v ≠ commonV)
    (hU : commonU ∈ set → leg t commonU = none) (hV : commonV ∉ set → leg t commonV = none)
    {u v : Tensor ν NoSymmetry α} {S : SingularTable β}
    (h : svd gesvd env junk sn t set commonU commonV (2 ^ 64 - 1) = .ok (u, S, v)) :
    legDim u commonU ≤ (set.map (legDim t)).prod := by
  have nU : commonU ∉ t.names.filter fun n => decide (n ∈ set) := by
    rw [List.mem_filter]
    rintro ⟨a, b⟩
    exact leg_eq_none.1 (hU (by simpa using b)) a
  have nV : commonV ∉ t.names.filter fun n => !decide (n ∈ set) := by
    rw [List.mem_filter]
    rintro ⟨a, b⟩
    exact leg_eq_none.1 (hV (by simpa using b)) a
  obtain ⟨u', S', v', h1, h2⟩ := C35_svd hsvd env junk hx ht.wf ht.blocks set hU1 hV1 nU nV
  rw [h, Outcome.ok.injEq, Prod.mk.injEq, Prod.mk.injEq] at h1
  obtain ⟨rfl, rfl, rfl⟩ := h1
  have hk0 : (0 : NoSymmetry) ∈ OMap.keys (mapOf u commonU) := by
    rw [h2.sectors]
    obtain ⟨p, hp⟩ := exists_key_of_blocks ht.wf.shaped ht.blocks
    exact ⟨p, hp, noSym_eq _ _⟩
  have hdim := h2.dims 0 hk0
  have hm : mergedDim ((t.names.filter fun n => decide (n ∈ set)).map (mapOf t)) (-0) =
      ((t.names.filter fun n => decide (n ∈ set)).map (legDim t)).prod := by
    have e : ∀ n ∈ t.names.filter fun n => decide (n ∈ set), dimM (mapOf t n) 0 = legDim t n :=
      fun n hn => (legDim_of_mem (List.mem_filter.1 hn).1).symm
    rw [mergedDim_unit noSymmetry (fm := mapOf t)]
    · rw [List.map_congr_left e]
    · intro n hn
      have := ht.map (List.mem_filter.1 hn).1
      rwa [legDim_of_mem (List.mem_filter.1 hn).1] at this
  have hmem : commonU ∈ u.names := by
    rw [h2.namesU]
    simp
  rw [legDim_of_mem hmem, dimM, hdim, ← prod_legDim ht.wf.nodup hset, ← hm]
  exact min_le_left _ _

end

/-! ## the decomposition -/

variable {ν α β : Type} [LinearOrder ν] [Field α] [LinearOrder β] [Field β] {e : NetEnv ν α β}

/-- What is assumed of the calls of BLAS and LAPACK, of the modulus, and of names. -/
structure MpsNetOk (e : NetEnv ν α β) : Prop where
  net : NetEnvOk e
  u : ∀ g, e.sn.u ≠ mpsName e.toAuxEnv g
  v : ∀ g, e.sn.v ≠ mpsName e.toAuxEnv g

theorem MpsNetOk.env (he : MpsNetOk e) : MpsEnvOk e.toAuxEnv := ⟨he.net.gemm, he.net.names, he.net.inj⟩

/-- The decomposition with the singular values put into V. -/
theorem svd_shows (he : MpsNetOk e) {t : Tensor ν NoSymmetry α} {T : MpsLab → Option ℕ}
    (ht : HasLegs (mpsName e.toAuxEnv) t T) {set : List MpsLab} (hset : set.Nodup) {commonU commonV : MpsLab}
    (hU : commonU ∈ set → T commonU = none) (hV : commonV ∉ set → T commonV = none) :
    ∃ K u w, K ≤ (set.map fun g => bd (T g)).prod ∧
      (∀ cut, Keeps K cut → ∃ S v, svd e.gesvd e.svdEnv e.svdJunk e.sn t (set.map (mpsName e.toAuxEnv))
        (mpsName e.toAuxEnv commonU) (mpsName e.toAuxEnv commonV) cut = .ok (u, S, v) ∧
        multiple e.junk (fun x y => x * e.c y) e.inv v S (mpsName e.toAuxEnv commonV) 'v' false = .ok w) ∧
      HasLegs (mpsName e.toAuxEnv) u (fun g => if g = commonU then some K else if g ∈ set then T g else none) ∧
      HasLegs (mpsName e.toAuxEnv) w (fun g => if g = commonV then some K else if g ∈ set then none else T g) ∧
      ∀ f, gval (mpsName e.toAuxEnv) t f = ∑ k ∈ Finset.range K,
        gval (mpsName e.toAuxEnv) u (Function.update f commonU k) *
          gval (mpsName e.toAuxEnv) w (Function.update f commonV k) := by
  have hι := mpsName_injective he.env
  have l : ∀ g, leg t (mpsName e.toAuxEnv g) = T g := ht.legs
  have off : ∀ n, (∀ g, n ≠ mpsName e.toAuxEnv g) → leg t n = none := fun n hn => by
    by_contra h
    obtain ⟨g, rfl⟩ := ht.only n h
    exact hn g rfl
  have cU : mpsName e.toAuxEnv commonU ∈ set.map (mpsName e.toAuxEnv) → leg t (mpsName e.toAuxEnv commonU) = none :=
    fun h => by rw [l]; exact hU ((mem_map_label hι).1 h)
  have cV : mpsName e.toAuxEnv commonV ∉ set.map (mpsName e.toAuxEnv) → leg t (mpsName e.toAuxEnv commonV) = none :=
    fun h => by rw [l]; exact hV fun h' => h ((mem_map_label hι).2 h')
  obtain ⟨u, S, v, w, K, e1, e2, -, e4, -, e6, e7, e8, e9, e10, L, rfl, hL⟩ := dense_svd_parts e.ce he.net.gemm
    he.net.names he.net.svd e.svdEnv e.svdJunk e.junk e.inv he.net.sn ht.dense
    (set.map (mpsName e.toAuxEnv)) (he.u commonU) (he.v commonV) cU cV
  have lu : ∀ n, leg u n = if n = mpsName e.toAuxEnv commonU then some K else
      if n ∈ set.map (mpsName e.toAuxEnv) then leg t n else none := fun n => by rw [e10, e6]
  obtain ⟨w', m1, m2, m3, m4⟩ := dense_multiple e.junk e.c e.inv e9 (S := L)
    (n := mpsName e.toAuxEnv commonU) (direction := 'u') (by simp [IsDirection]) false
    (by rw [lu, if_pos rfl, hL])
  rw [e2, Outcome.ok.injEq] at m1
  subst m1
  obtain ⟨z, z1, z2, z3, z4⟩ := dense_multiple e.junk e.c e.inv e4 (S := L)
    (n := mpsName e.toAuxEnv commonV) (direction := 'v') (by simp [IsDirection]) false
    (by rw [e7, if_pos rfl, hL])
  refine ⟨K, u, z, ?_, fun cut hc => ⟨[(0, L)], v, ?_, z1⟩,
    ⟨e9, fun n hn => ?_, fun g => ?_⟩, ⟨z2, fun n hn => ?_, fun g => ?_⟩, fun f => ?_⟩
  · have := svd_rank he.net.svd e.svdEnv e.svdJunk he.net.sn ht.dense (hset.map hι) (he.u commonU)
      (he.v commonV) cU cV e1
    rw [legDim, lu, if_pos rfl, List.map_map] at this
    refine this.trans (le_of_eq ?_)
    congr 1
    refine List.map_congr_left fun g _ => ?_
    show legDim t (mpsName e.toAuxEnv g) = _
    rw [legDim, l, bd]
  · rcases hc with hc | rfl
    · exact C35_large_cut e.svdEnv e.svdJunk e.sn t _ _ _ e1 (by simpa [hL] using hc)
    · exact e1
  · by_contra h
    push Not at h
    rw [lu, if_neg (h _), off n h, ite_self] at hn
    exact hn rfl
  · rw [gleg, lu, l]
    exact if_congr hι.eq_iff rfl (if_congr (mem_map_label hι) rfl rfl)
  · by_contra h
    push Not at h
    rw [z3, e7, if_neg (h _), off n h, ite_self] at hn
    exact hn rfl
  · rw [gleg, z3, e7, l]
    exact if_congr hι.eq_iff rfl (if_congr (mem_map_label hι) rfl rfl)
  · rw [gval, e8]
    refine Finset.sum_congr rfl fun k _ => ?_
    rw [m4, gval, gval, ← extend_update hι, ← extend_update hι, z4]
    simp only [Function.update_self]
    ring

theorem normalised_shows (he : MpsNetOk e) {t : Tensor ν NoSymmetry α} {T : MpsLab → Option ℕ}
    {F : (MpsLab → ℕ) → α} (ht : Shows e.toAuxEnv t T F) :
    ((∀ f, F f = 0) ∧ normalised e t = .error "division by zero") ∨
    ∃ r a, normalised e t = .ok r ∧ a ≠ 0 ∧ Shows e.toAuxEnv r T fun f => F f * a := by
  have hz : (∀ x, val t x = 0) ↔ ∀ f, F f = 0 :=
    ⟨fun h f => by rw [← ht.2]; exact h _, fun h x => by
      rw [val_eq_gval (mpsName_injective he.env) ht.1, ht.2, h]⟩
  by_cases hn : normMax e.abs t = 0
  · exact Or.inl ⟨hz.1 ((normMax_zero he.net ht.1.dense).1 hn), by rw [normalised, if_pos hn]⟩
  · obtain ⟨h1, h2, h3⟩ := dense_number ht.1.dense (f := fun x => x / e.c (normMax e.abs t)) (zero_div _)
    refine Or.inr ⟨_, (e.c (normMax e.abs t))⁻¹, by rw [normalised, if_neg hn],
      inv_ne_zero fun h => hn ((he.net.c_zero _).1 h),
      ⟨h1, fun n hn => ht.1.only n (by rwa [h2] at hn), fun g => (h2 _).trans (ht.1.legs g)⟩, fun f => ?_⟩
    show _ = F f * _
    rw [gval, h3, div_eq_mul_inv, ← ht.2]
    rfl

/-! ## two sites -/

/-- A site seen in one of the two directions. -/
def dirLegs (d : ℕ) (back ahead : MpsLab) (x y : Option ℕ) : MpsLab → Option ℕ := fun g =>
  if g = .phy then some d else if g = back then x else if g = ahead then y else none

def Directions (back ahead : MpsLab) : Prop :=
  (back = .left ∧ ahead = .right) ∨ (back = .right ∧ ahead = .left)

/-- The two tensors with the operator applied. -/
def applied (d m : ℕ) (A B : ℕ → ℕ → ℕ → α) (H : ℕ → ℕ → ℕ → ℕ → α) (l p r q : ℕ) : α :=
  ∑ x ∈ Finset.range d, ∑ y ∈ Finset.range d, (∑ k ∈ Finset.range m, A x l k * B y k r) * H x y p q

def atDir (back ahead : MpsLab) (s l r : ℕ) : MpsLab → ℕ := fun g =>
  if g = .phy then s else if g = back then l else if g = ahead then r else 0

theorem shows_dir (he : MpsNetOk e) {t : Tensor ν NoSymmetry α} {d : ℕ} {back ahead : MpsLab} {x y : Option ℕ}
    {F : (MpsLab → ℕ) → α} (hs : Shows e.toAuxEnv t (dirLegs d back ahead x y) F) (f : MpsLab → ℕ) :
    F f = F (atDir back ahead (f .phy) (f back) (f ahead)) := by
  rw [← hs.2, ← hs.2]
  refine gval_congr (mpsName_injective he.env) hs.1 fun g hg => ?_
  unfold dirLegs at hg
  unfold atDir
  split_ifs at hg ⊢ with h1 h2 h3
  · rw [h1]
  · rw [h2]
  · rw [h3]
  · exact absurd rfl hg

/-- The two tensors and the operator contracted. -/
theorem bond_joined (he : MpsNetOk e) {back ahead : MpsLab} (hdir : Directions back ahead)
    {a b h : Tensor ν NoSymmetry α} {d : ℕ} {x m y : Option ℕ} {A B : ℕ → ℕ → ℕ → α}
    {H : ℕ → ℕ → ℕ → ℕ → α}
    (ha : Shows e.toAuxEnv a (dirLegs d back ahead x m) fun f => A (f .phy) (f back) (f ahead))
    (hb : Shows e.toAuxEnv b (dirLegs d back ahead m y) fun f => B (f .phy) (f back) (f ahead))
    (hh : Shows e.toAuxEnv h (operatorLegs d) fun f => H (f .i0) (f .i1) (f .o0) (f .o1)) :
    ∃ t2, Shows e.toAuxEnv t2 (fun g => if g = .o0 then some d else if g = .o1 then some d else
        if g = back then x else if g = ahead then y else none)
        (fun f => applied d (bd m) A B H (f back) (f .o0) (f ahead) (f .o1)) ∧
      ∀ {D u S v w}, svd e.gesvd e.svdEnv e.svdJunk e.sn t2 ([back, .o0].map (mpsName e.toAuxEnv))
          (mpsName e.toAuxEnv ahead) (mpsName e.toAuxEnv back) D = .ok (u, S, v) →
        multiple e.junk (fun x y => x * e.c y) e.inv v S (mpsName e.toAuxEnv back) 'v' false = .ok w →
        mpsBond e D back.text ahead.text h a b =
          (normalised e (e.rename u [("O0", "Phy")])).bind fun a =>
            (normalised e (e.rename w [("O1", "Phy")])).bind fun b => .ok (a, b) := by
  have n1 := ha.rename he.env [(.phy, .phyA)] (by simp) (by simp) (by
    rcases hdir with ⟨rfl, rfl⟩ | ⟨rfl, rfl⟩ <;> simp [dirLegs])
  have n2 := hb.rename he.env [(.phy, .phyB)] (by simp) (by simp) (by
    rcases hdir with ⟨rfl, rfl⟩ | ⟨rfl, rfl⟩ <;> simp [dirLegs])
  obtain ⟨t1, e1, s1⟩ := n1.join he.env n2 [(ahead, back)] (by simp) (by simp)
    (by rcases hdir with ⟨rfl, rfl⟩ | ⟨rfl, rfl⟩ <;> simp [dirLegs, renameLegs]) (by
      intro g
      rcases hdir with ⟨rfl, rfl⟩ | ⟨rfl, rfl⟩ <;> cases g <;> simp [dirLegs, renameLegs])
  have s1' := s1.cast (T' := fun g => if g = .phyA then some d else if g = .phyB then some d else
      if g = back then x else if g = ahead then y else none)
    (F' := fun f => ∑ k ∈ Finset.range (bd m), A (f .phyA) (f back) k * B (f .phyB) k (f ahead))
    (fun g => by
      rcases hdir with ⟨rfl, rfl⟩ | ⟨rfl, rfl⟩ <;> cases g <;> simp [dirLegs, renameLegs, contractLegs])
    (fun f => by
      rcases hdir with ⟨rfl, rfl⟩ | ⟨rfl, rfl⟩ <;>
        simp [sumPairs, renameTo, dirLegs, renameLegs, bd, Function.update])
  obtain ⟨t2, e2, s2⟩ := s1'.join he.env hh [(.phyA, .i0), (.phyB, .i1)] (by simp) (by simp)
    (by rcases hdir with ⟨rfl, rfl⟩ | ⟨rfl, rfl⟩ <;> simp [operatorLegs]) (by
      intro g
      rcases hdir with ⟨rfl, rfl⟩ | ⟨rfl, rfl⟩ <;> cases g <;> simp [operatorLegs])
  have s2' := s2.cast (T' := fun g => if g = .o0 then some d else if g = .o1 then some d else
      if g = back then x else if g = ahead then y else none)
    (F' := fun f => applied d (bd m) A B H (f back) (f .o0) (f ahead) (f .o1))
    (fun g => by
      rcases hdir with ⟨rfl, rfl⟩ | ⟨rfl, rfl⟩ <;> cases g <;> simp [operatorLegs, contractLegs])
    (fun f => by
      rcases hdir with ⟨rfl, rfl⟩ | ⟨rfl, rfl⟩ <;>
        simp [sumPairs, Function.update, applied])
  refine ⟨t2, s2', fun {D u S v w} d1 d2 => ?_⟩
  have e1' : e.join (e.rename a [("Phy", "PhyA")]) (e.rename b [("Phy", "PhyB")])
    [(ahead.text, back.text)] = .ok t1 := e1
  have e2' : e.join t1 h [("PhyA", "I0"), ("PhyB", "I1")] = .ok t2 := e2
  have d1' : svd e.gesvd e.svdEnv e.svdJunk e.sn t2 [e.nm back.text, e.nm "O0"] (e.nm ahead.text)
    (e.nm back.text) D = .ok (u, S, v) := d1
  have d2' : multiple e.junk (fun x y => x * e.c y) e.inv v S (e.nm back.text) 'v' false = .ok w := d2
  simp only [mpsBond, e1', e2', d1', d2', Outcome.bind]

theorem bond_update (he : MpsNetOk e) {back ahead : MpsLab} (hdir : Directions back ahead)
    {a b h : Tensor ν NoSymmetry α} {d : ℕ} {x m y : Option ℕ} {A B : ℕ → ℕ → ℕ → α}
    {H : ℕ → ℕ → ℕ → ℕ → α}
    (ha : Shows e.toAuxEnv a (dirLegs d back ahead x m) fun f => A (f .phy) (f back) (f ahead))
    (hb : Shows e.toAuxEnv b (dirLegs d back ahead m y) fun f => B (f .phy) (f back) (f ahead))
    (hh : Shows e.toAuxEnv h (operatorLegs d) fun f => H (f .i0) (f .i1) (f .o0) (f .o1)) :
    ∃ K, K ≤ bd x * d ∧ ∀ D, Keeps K D →
      ((∀ l p r q, applied d (bd m) A B H l p r q = 0) ∧
        mpsBond e D back.text ahead.text h a b = .error "division by zero") ∨
      ∃ (a' b' : Tensor ν NoSymmetry α) (A' B' : ℕ → ℕ → ℕ → α) (c : α), mpsBond e D back.text ahead.text h a b = .ok (a', b') ∧ c ≠ 0 ∧
        Shows e.toAuxEnv a' (dirLegs d back ahead x (some K)) (fun f => A' (f .phy) (f back) (f ahead)) ∧
        Shows e.toAuxEnv b' (dirLegs d back ahead (some K) y) (fun f => B' (f .phy) (f back) (f ahead)) ∧
        ∀ l p r q, ∑ k ∈ Finset.range K, A' p l k * B' q k r = c * applied d (bd m) A B H l p r q := by
  obtain ⟨t2, s2', run'⟩ := bond_joined he hdir ha hb hh
  obtain ⟨K, u, w, k1, k2, k3, k4, k5⟩ := svd_shows he s2'.1 (set := [back, .o0]) (by
      rcases hdir with ⟨rfl, rfl⟩ | ⟨rfl, rfl⟩ <;> simp) (commonU := ahead) (commonV := back)
    (by rcases hdir with ⟨rfl, rfl⟩ | ⟨rfl, rfl⟩ <;> simp) (by simp)
  have su : Shows e.toAuxEnv u _ _ := ⟨k3, fun _ => rfl⟩
  have sw : Shows e.toAuxEnv w _ _ := ⟨k4, fun _ => rfl⟩
  have hlu : ∀ p l k q r, gval (mpsName e.toAuxEnv) u (Function.update (fun g => if g = .o0 then p else
      if g = .o1 then q else if g = back then l else if g = ahead then r else 0) ahead k) =
      gval (mpsName e.toAuxEnv) u fun g => atDir back ahead p l k (renameTo [(.o0, .phy)] g) := by
    intro p l k q r
    refine gval_congr (mpsName_injective he.env) k3 fun g hg => ?_
    rcases hdir with ⟨rfl, rfl⟩ | ⟨rfl, rfl⟩ <;> cases g <;>
      simp [atDir, renameTo, Function.update] at hg ⊢
  have hlw : ∀ p l k q r, gval (mpsName e.toAuxEnv) w (Function.update (fun g => if g = .o0 then p else
      if g = .o1 then q else if g = back then l else if g = ahead then r else 0) back k) =
      gval (mpsName e.toAuxEnv) w fun g => atDir back ahead q k r (renameTo [(.o1, .phy)] g) := by
    intro p l k q r
    refine gval_congr (mpsName_injective he.env) k4 fun g hg => ?_
    rcases hdir with ⟨rfl, rfl⟩ | ⟨rfl, rfl⟩ <;> cases g <;>
      simp [atDir, renameTo, Function.update] at hg ⊢
  have hval : ∀ l p r q, applied d (bd m) A B H l p r q = ∑ k ∈ Finset.range K,
      (gval (mpsName e.toAuxEnv) u fun g => atDir back ahead p l k (renameTo [(.o0, .phy)] g)) *
        gval (mpsName e.toAuxEnv) w fun g => atDir back ahead q k r (renameTo [(.o1, .phy)] g) := by
    intro l p r q
    have := k5 fun g => if g = .o0 then p else
      if g = .o1 then q else if g = back then l else if g = ahead then r else 0
    simp only [hlu, hlw] at this
    rw [← this, s2'.2]
    rcases hdir with ⟨rfl, rfl⟩ | ⟨rfl, rfl⟩ <;> simp
  have ru := (su.rename he.env [(.o0, .phy)] (by simp) (by simp) (by
    rcases hdir with ⟨rfl, rfl⟩ | ⟨rfl, rfl⟩ <;> simp)).cast (T' := dirLegs d back ahead x (some K))
      (fun g => by
        rcases hdir with ⟨rfl, rfl⟩ | ⟨rfl, rfl⟩ <;> cases g <;> simp [dirLegs, renameLegs])
      (fun f => rfl)
  have rw' := (sw.rename he.env [(.o1, .phy)] (by simp) (by simp) (by
    rcases hdir with ⟨rfl, rfl⟩ | ⟨rfl, rfl⟩ <;> simp)).cast (T' := dirLegs d back ahead (some K) y)
      (fun g => by
        rcases hdir with ⟨rfl, rfl⟩ | ⟨rfl, rfl⟩ <;> cases g <;> simp [dirLegs, renameLegs])
      (fun f => rfl)
  refine ⟨K, ?_, fun D hD => ?_⟩
  · refine k1.trans (le_of_eq ?_)
    rcases hdir with ⟨rfl, rfl⟩ | ⟨rfl, rfl⟩ <;> simp [bd]
  obtain ⟨S, v, d1, d2⟩ := k2 D hD
  rw [run' d1 d2]
  rcases normalised_shows he ru with ⟨z1, z2⟩ | ⟨a', ca, o1, o2, o3⟩
  · left
    refine ⟨fun l p r q => ?_, ?_⟩
    · rw [hval]
      exact Finset.sum_eq_zero fun k _ => by rw [z1, zero_mul]
    · have z2' : normalised e (e.rename u [("O0", "Phy")]) = .error "division by zero" := z2
      rw [z2']
      rfl
  have o1' : normalised e (e.rename u [("O0", "Phy")]) = .ok a' := o1
  rw [o1', Outcome.bind]
  rcases normalised_shows he rw' with ⟨z1, z2⟩ | ⟨b', cb, p1, p2, p3⟩
  · left
    refine ⟨fun l p r q => ?_, ?_⟩
    · rw [hval]
      exact Finset.sum_eq_zero fun k _ => by rw [z1, mul_zero]
    · have z2' : normalised e (e.rename w [("O1", "Phy")]) = .error "division by zero" := z2
      rw [z2']
      rfl
  right
  have p1' : normalised e (e.rename w [("O1", "Phy")]) = .ok b' := p1
  rw [p1', Outcome.bind]
  refine ⟨a', b', fun s l r => (gval (mpsName e.toAuxEnv) u fun g =>
      atDir back ahead s l r (renameTo [(.o0, .phy)] g)) * ca,
    fun s l r => (gval (mpsName e.toAuxEnv) w fun g =>
      atDir back ahead s l r (renameTo [(.o1, .phy)] g)) * cb, ca * cb, rfl, mul_ne_zero o2 p2,
    o3.cast (fun _ => rfl) fun f => shows_dir he o3 f, p3.cast (fun _ => rfl) fun f => shows_dir he p3 f,
    fun l p r q => ?_⟩
  rw [hval, Finset.mul_sum]
  exact Finset.sum_congr rfl fun k _ => by ring

end TAT.Mps
