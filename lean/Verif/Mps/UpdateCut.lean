import Verif.Mps.UpdateChain
import Verif.Square.DenseCut

/-!
# Helper lemmas for chains: updates which cut singular values
-/

namespace TAT.Mps

set_option linter.unusedSectionVars false

variable {ν α β : Type} [LinearOrder ν] [Field α] [LinearOrder β] [Field β] {e : NetEnv ν α β}

/-- The decomposition with any cut. -/
theorem svd_any (he : MpsNetOk e) {t : Tensor ν NoSymmetry α} {T : MpsLab → Option ℕ}
    (ht : HasLegs (mpsName e.toAuxEnv) t T) {set : List MpsLab} {commonU commonV : MpsLab}
    (hU : commonU ∈ set → T commonU = none) (hV : commonV ∉ set → T commonV = none) {D : ℕ} (hD : D ≠ 0) :
    ∃ K u S v w, svd e.gesvd e.svdEnv e.svdJunk e.sn t (set.map (mpsName e.toAuxEnv))
        (mpsName e.toAuxEnv commonU) (mpsName e.toAuxEnv commonV) D = .ok (u, S, v) ∧
      multiple e.junk (fun x y => x * e.c y) e.inv v S (mpsName e.toAuxEnv commonV) 'v' false = .ok w ∧
      HasLegs (mpsName e.toAuxEnv) u (fun g => if g = commonU then some K else if g ∈ set then T g else none) ∧
      HasLegs (mpsName e.toAuxEnv) w (fun g => if g = commonV then some K else if g ∈ set then none else T g) ∧
      (D ≠ 2 ^ 64 - 1 → K ≤ D) := by
  have hι := mpsName_injective he.env
  have l : ∀ g, leg t (mpsName e.toAuxEnv g) = T g := ht.legs
  have off : ∀ n, (∀ g, n ≠ mpsName e.toAuxEnv g) → leg t n = none := fun n hn => by
    by_contra h
    obtain ⟨g, rfl⟩ := ht.only n h
    exact hn g rfl
  have cU : mpsName e.toAuxEnv commonU ∈ set.map (mpsName e.toAuxEnv) → leg t (mpsName e.toAuxEnv commonU) = none :=
    fun h => by rw [l]; exact hU ((mem_map_label hι).1 h)
  have cV : mpsName e.toAuxEnv commonV ∉ set.map (mpsName e.toAuxEnv) → leg t (mpsName e.toAuxEnv commonV) = none :=
    fun h => by rw [l]; exact hV fun h' => h ((mem_map_label hι).2 h')
  obtain ⟨u, S, v, w, K, e1, e2, -, e4, -, e6, e7, e8, e9, e10, L, rfl, hL⟩ := dense_svd_parts e.ce he.net.gemm
    he.net.names he.net.svd e.svdEnv e.svdJunk e.junk e.inv he.net.sn ht.dense
    (set.map (mpsName e.toAuxEnv)) (he.u commonU) (he.v commonV) cU cV
  have lu : ∀ n, leg u n = if n = mpsName e.toAuxEnv commonU then some K else
      if n ∈ set.map (mpsName e.toAuxEnv) then leg t n else none := fun n => by rw [e10, e6]
  have key : ∀ (K' : ℕ) (u' v' : Tensor ν NoSymmetry α) (L' : List β), L'.length = K' → Dense u' → Dense v' →
      (∀ n, leg u' n = if n = mpsName e.toAuxEnv commonU then some K' else leg u n) →
      (∀ n, leg v' n = if n = mpsName e.toAuxEnv commonV then some K' else leg v n) →
      ∃ w', multiple e.junk (fun x y => x * e.c y) e.inv v' [(0, L')] (mpsName e.toAuxEnv commonV) 'v' false =
        .ok w' ∧
        HasLegs (mpsName e.toAuxEnv) u' (fun g => if g = commonU then some K' else if g ∈ set then T g else none) ∧
        HasLegs (mpsName e.toAuxEnv) w' (fun g => if g = commonV then some K' else if g ∈ set then none else T g) := by
    intro K' u' v' L' hL' hu hv lu' lv'
    obtain ⟨z, z1, z2, z3, -⟩ := dense_multiple e.junk e.c e.inv hv (S := L')
      (n := mpsName e.toAuxEnv commonV) (direction := 'v') (by simp [IsDirection]) false
      (by rw [lv', if_pos rfl, hL'])
    refine ⟨z, z1, ⟨hu, fun n hn => ?_, fun g => ?_⟩, ⟨z2, fun n hn => ?_, fun g => ?_⟩⟩
    · by_contra h
      push Not at h
      rw [lu', if_neg (h _), lu, if_neg (h _), off n h, ite_self] at hn
      exact hn rfl
    · rw [gleg, lu', lu, l]
      by_cases hg : g = commonU
      · rw [if_pos (congrArg _ hg), if_pos hg]
      · rw [if_neg (fun h => hg (hι h)), if_neg (fun h => hg (hι h)), if_neg hg]
        exact if_congr (mem_map_label hι) rfl rfl
    · by_contra h
      push Not at h
      rw [z3, lv', if_neg (h _), e7, if_neg (h _), off n h, ite_self] at hn
      exact hn rfl
    · rw [gleg, z3, lv', e7, l]
      by_cases hg : g = commonV
      · rw [if_pos (congrArg _ hg), if_pos hg]
      · rw [if_neg (fun h => hg (hι h)), if_neg (fun h => hg (hι h)), if_neg hg]
        exact if_congr (mem_map_label hι) rfl rfl
  by_cases hk : Keeps K D
  · obtain ⟨z, z1, z2, z3⟩ := key K u v L hL e9 e4 (fun n => by
      rw [lu]
      split <;> rfl) (fun n => by
      rw [e7]
      split <;> rfl)
    refine ⟨K, u, [(0, L)], v, z, ?_, z1, z2, z3, fun h => hk.resolve_right h⟩
    rcases hk with hk | rfl
    · exact C35_large_cut e.svdEnv e.svdJunk e.sn t _ _ _ e1 (by simpa [hL] using hk)
    · exact e1
  · have h1 : D ≠ 2 ^ 64 - 1 := fun h => hk (Or.inr h)
    have h2 : D < L.length := by
      rw [hL]
      exact not_le.1 fun h => hk (Or.inl h)
    obtain ⟨u', v', c1, c2, c3⟩ := dense_svd_cut he.net.svd e.svdEnv e.svdJunk he.net.sn ht.dense
      (set.map (mpsName e.toAuxEnv)) (he.u commonU) (he.v commonV) cU cV e1 e9 e4 hD h1 h2
    obtain ⟨z, z1, z2, z3⟩ := key D u' v' (L.take D) (by rw [List.length_take]; omega) c2.dense c3.dense c2.legs c3.legs
    exact ⟨D, u', _, v', z, c1, z1, z2, z3, fun _ => le_rfl⟩

theorem bond_any (he : MpsNetOk e) {back ahead : MpsLab} (hdir : Directions back ahead)
    {a b h : Tensor ν NoSymmetry α} {d : ℕ} {x m y : Option ℕ} {A B : ℕ → ℕ → ℕ → α}
    {H : ℕ → ℕ → ℕ → ℕ → α}
    (ha : Shows e.toAuxEnv a (dirLegs d back ahead x m) fun f => A (f .phy) (f back) (f ahead))
    (hb : Shows e.toAuxEnv b (dirLegs d back ahead m y) fun f => B (f .phy) (f back) (f ahead))
    (hh : Shows e.toAuxEnv h (operatorLegs d) fun f => H (f .i0) (f .i1) (f .o0) (f .o1)) {D : ℕ} (hD : D ≠ 0) :
    mpsBond e D back.text ahead.text h a b = .error "division by zero" ∨
      ∃ K a' b' F F', mpsBond e D back.text ahead.text h a b = .ok (a', b') ∧ (D ≠ 2 ^ 64 - 1 → K ≤ D) ∧
        Shows e.toAuxEnv a' (dirLegs d back ahead x (some K)) F ∧
        Shows e.toAuxEnv b' (dirLegs d back ahead (some K) y) F' := by
  obtain ⟨t2, s2', run⟩ := bond_joined he hdir ha hb hh
  obtain ⟨K, u, S, v, w, k1, k2, k3, k4, k5⟩ := svd_any he s2'.1 (set := [back, .o0]) (commonU := ahead)
    (commonV := back) (by rcases hdir with ⟨rfl, rfl⟩ | ⟨rfl, rfl⟩ <;> simp) (by simp) hD
  have su : Shows e.toAuxEnv u _ _ := ⟨k3, fun _ => rfl⟩
  have sw : Shows e.toAuxEnv w _ _ := ⟨k4, fun _ => rfl⟩
  have ru := (su.rename he.env [(.o0, .phy)] (by simp) (by simp) (by
    rcases hdir with ⟨rfl, rfl⟩ | ⟨rfl, rfl⟩ <;> simp)).cast (T' := dirLegs d back ahead x (some K))
      (fun g => by
        rcases hdir with ⟨rfl, rfl⟩ | ⟨rfl, rfl⟩ <;> cases g <;> simp [dirLegs, renameLegs])
      (fun f => rfl)
  have rw' := (sw.rename he.env [(.o1, .phy)] (by simp) (by simp) (by
    rcases hdir with ⟨rfl, rfl⟩ | ⟨rfl, rfl⟩ <;> simp)).cast (T' := dirLegs d back ahead (some K) y)
      (fun g => by
        rcases hdir with ⟨rfl, rfl⟩ | ⟨rfl, rfl⟩ <;> cases g <;> simp [dirLegs, renameLegs])
      (fun f => rfl)
  rw [run k1 k2]
  rcases normalised_shows he ru with ⟨-, z2⟩ | ⟨a', ca, o1, -, o3⟩
  · have z2' : normalised e (e.rename u [("O0", "Phy")]) = .error "division by zero" := z2
    rw [z2']
    exact Or.inl rfl
  have o1' : normalised e (e.rename u [("O0", "Phy")]) = .ok a' := o1
  rw [o1', Outcome.bind]
  rcases normalised_shows he rw' with ⟨-, z2⟩ | ⟨b', cb, p1, -, p3⟩
  · have z2' : normalised e (e.rename w [("O1", "Phy")]) = .error "division by zero" := z2
    rw [z2']
    exact Or.inl rfl
  have p1' : normalised e (e.rename w [("O1", "Phy")]) = .ok b' := p1
  rw [p1', Outcome.bind]
  exact Or.inr ⟨K, a', b', _, _, rfl, k5, o3, p3⟩

/-- What a step does, with any cut. -/
def StepCuts (e : NetEnv ν α β) (d D i : ℕ) (bond : ℕ → Option ℕ)
    (chain : List (Tensor ν NoSymmetry α)) (r : Outcome (List (Tensor ν NoSymmetry α))) : Prop :=
  r = .error "division by zero" ∨ ∃ K chain', r = .ok chain' ∧ chain'.length = chain.length ∧
    (D ≠ 2 ^ 64 - 1 → K ≤ D) ∧ ChainOn e.nm d (Function.update bond (i + 1) (some K)) chain'

theorem forward_any (he : MpsNetOk e) {d i : ℕ} {bond : ℕ → Option ℕ} {chain : List (Tensor ν NoSymmetry α)}
    (hc : ChainOn e.nm d bond chain) (hi : i + 1 < chain.length) {op : Tensor ν NoSymmetry α}
    (ho : IsOperator e.nm d op) {D : ℕ} (hD : D ≠ 0) :
    StepCuts e d D i bond chain (mpsForward e D op chain i) := by
  have sa := site_shows he.env (hc.site i (by omega))
  have sb := site_shows he.env (hc.site (i + 1) hi)
  have run : mpsForward e D op chain i = (mpsBond e D "Left" "Right" op chain[i] chain[i + 1]).bind
      fun r => .ok ((chain.set i r.1).set (i + 1) r.2) := by
    rw [mpsForward, mpsSite, mpsSite, List.getElem?_eq_getElem (by omega), List.getElem?_eq_getElem hi]
    rfl
  rcases bond_any he (Or.inl ⟨rfl, rfl⟩) (sa.cast (dirLegs_left _ _ _) fun _ => rfl)
    (sb.cast (dirLegs_left _ _ _) fun _ => rfl) (operator_shows he.env ho) hD with
    z | ⟨K, a', b', F, F', o1, o2, o3, o4⟩
  · have z' : mpsBond e D "Left" "Right" op chain[i] chain[i + 1] = .error "division by zero" := z
    exact Or.inl (by rw [run, z']; rfl)
  · have o1' : mpsBond e D "Left" "Right" op chain[i] chain[i + 1] = .ok (a', b') := o1
    have o3 := o3.cast (fun g => (dirLegs_left _ _ _ g).symm) fun _ => rfl
    have o4 := o4.cast (fun g => (dirLegs_left _ _ _ g).symm) fun _ => rfl
    exact Or.inr ⟨K, _, by rw [run, o1']; rfl, by simp, o2, hc.replace hi o3.isSite o4.isSite⟩

theorem backward_any (he : MpsNetOk e) {d i : ℕ} {bond : ℕ → Option ℕ} {chain : List (Tensor ν NoSymmetry α)}
    (hc : ChainOn e.nm d bond chain) (hi : i + 1 < chain.length) {op : Tensor ν NoSymmetry α}
    (ho : IsOperator e.nm d op) {D : ℕ} (hD : D ≠ 0) :
    StepCuts e d D i bond chain (mpsBackward e D op chain i) := by
  have sa := site_shows he.env (hc.site i (by omega))
  have sb := site_shows he.env (hc.site (i + 1) hi)
  have run : mpsBackward e D op chain i = (mpsBond e D "Right" "Left" op chain[i + 1] chain[i]).bind
      fun r => .ok ((chain.set (i + 1) r.1).set i r.2) := by
    rw [mpsBackward, mpsSite, mpsSite, List.getElem?_eq_getElem hi, List.getElem?_eq_getElem (by omega)]
    rfl
  rcases bond_any he (Or.inr ⟨rfl, rfl⟩)
    (A := fun s l r => siteVal e.nm chain[i + 1] s r l) (B := fun s l r => siteVal e.nm chain[i] s r l)
    (sb.cast (dirLegs_right _ _ _) fun _ => rfl) (sa.cast (dirLegs_right _ _ _) fun _ => rfl)
    (operator_shows he.env ho) hD with z | ⟨K, a', b', F, F', o1, o2, o3, o4⟩
  · have z' : mpsBond e D "Right" "Left" op chain[i + 1] chain[i] = .error "division by zero" := z
    exact Or.inl (by rw [run, z']; rfl)
  · have o1' : mpsBond e D "Right" "Left" op chain[i + 1] chain[i] = .ok (a', b') := o1
    have o3 := o3.cast (fun g => (dirLegs_right _ _ _ g).symm) fun _ => rfl
    have o4 := o4.cast (fun g => (dirLegs_right _ _ _ g).symm) fun _ => rfl
    refine Or.inr ⟨K, (chain.set i b').set (i + 1) a', ?_, by simp, o2, hc.replace hi o4.isSite o3.isSite⟩
    rw [run, o1', List.set_comm _ _ (by omega)]
    rfl

/-- Steps of any kind, at bonds in any order: the bonds at which there was a step are not above the
dimension, and no bond grows above it. -/
theorem sweep_any {d D n : ℕ} {f : List (Tensor ν NoSymmetry α) → ℕ → Outcome (List (Tensor ν NoSymmetry α))}
    (hf : ∀ chain bond i, ChainOn e.nm d bond chain → i + 1 < chain.length →
      StepCuts e d D i bond chain (f chain i)) :
    ∀ (is : List ℕ) (chain : List (Tensor ν NoSymmetry α)) (bond : ℕ → Option ℕ), ChainOn e.nm d bond chain →
      chain.length = n → (∀ i ∈ is, i + 1 < n) →
      mpsSweep f is chain = .error "division by zero" ∨ ∃ chain' bond', mpsSweep f is chain = .ok chain' ∧
        chain'.length = n ∧ ChainOn e.nm d bond' chain' ∧
        (D ≠ 2 ^ 64 - 1 → ∀ k, bd (bond k) ≤ D ∨ (∃ i ∈ is, k = i + 1) → bd (bond' k) ≤ D)
  | [], chain, bond, hc, hl, _ => Or.inr ⟨chain, bond, rfl, hl, hc, fun _ k h => by simpa using h⟩
  | i :: is, chain, bond, hc, hl, hi => by
    rw [mpsSweep]
    rcases hf chain bond i hc (by rw [hl]; exact hi i (by simp)) with z | ⟨K, chain1, o1, o2, o3, o4⟩
    · exact Or.inl (by rw [z]; rfl)
    rw [o1, Outcome.bind]
    rcases sweep_any hf is chain1 _ o4 (o2.trans hl) (fun j hj => hi j (by simp [hj])) with
      z | ⟨chain2, bond2, q1, q2, q3, q4⟩
    · exact Or.inl z
    · refine Or.inr ⟨chain2, bond2, q1, q2, q3, fun hD k hk => q4 hD k ?_⟩
      by_cases h : k = i + 1
      · left
        rw [h, Function.update_self]
        exact o3 hD
      · rw [Function.update_of_ne h]
        rcases hk with hk | ⟨j, hj, rfl⟩
        · exact Or.inl hk
        · rcases List.mem_cons.1 hj with rfl | hj
          · exact absurd rfl h
          · exact Or.inr ⟨j, hj, rfl⟩

theorem once_any (he : MpsNetOk e) {d D : ℕ} {op : Tensor ν NoSymmetry α} (ho : IsOperator e.nm d op)
    {chain : List (Tensor ν NoSymmetry α)} (hc : IsChain e.nm d none chain) (hn : chain ≠ []) (hD : D ≠ 0) :
    mpsUpdateOnce e D op chain = .error "division by zero" ∨
    ∃ chain', mpsUpdateOnce e D op chain = .ok chain' ∧ chain'.length = chain.length ∧
      IsChain e.nm d none chain' ∧
      (D ≠ 2 ^ 64 - 1 → ∀ t ∈ chain', legDim t (e.nm "Left") ≤ D ∧ legDim t (e.nm "Right") ≤ D) := by
  have hl : 0 < chain.length := List.length_pos_iff.2 hn
  rw [mpsUpdateOnce, if_neg hl.ne']
  have first := chainOn_of he.env hc
  rcases sweep_any (f := mpsForward e D op) (fun c b i h1 h2 => forward_any he h1 h2 ho hD)
    (List.range (chain.length - 1)) chain _ first rfl (fun i hi => by rw [List.mem_range] at hi; omega) with
    z | ⟨chain1, bond1, o1, o2, o3, o4⟩
  · exact Or.inl (by rw [z]; rfl)
  rw [o1, Outcome.bind]
  rcases sweep_any (f := mpsBackward e D op) (fun c b i h1 h2 => backward_any he h1 h2 ho hD)
    (List.range (chain1.length - 1)).reverse chain1 _ o3 rfl (fun i hi => by
      rw [List.mem_reverse, List.mem_range] at hi; omega) with
    z | ⟨chain2, bond2, q1, q2, q3, q4⟩
  · exact Or.inl z
  refine Or.inr ⟨chain2, q1, q2.trans o2, q3.isChain, fun hD' t ht => ?_⟩
  have small : ∀ k ≤ chain.length, bd (bond2 k) ≤ D := fun k hk => by
    refine q4 hD' k ?_
    by_cases h : k = 0
    · left
      rw [h, o3.first]
      exact Nat.one_le_iff_ne_zero.2 hD
    by_cases h' : k = chain1.length
    · left
      rw [h', o3.last]
      exact Nat.one_le_iff_ne_zero.2 hD
    · right
      exact ⟨k - 1, by rw [List.mem_reverse, List.mem_range]; omega, by omega⟩
  obtain ⟨k, hk, rfl⟩ := List.mem_iff_getElem.1 ht
  have hs := q3.site k hk
  have hnm := he.net.inj
  have e1 : e.nm "Left" ≠ e.nm "Phy" := fun h => absurd (hnm h) (by decide)
  refine ⟨?_, ?_⟩
  · rw [legDim, hs.legs, if_neg e1, if_pos rfl]
    exact small k (by omega)
  · rw [legDim, site_right he.env hs]
    exact small (k + 1) (by omega)

end TAT.Mps
