import Verif.Mps.UpdateLegs
import Verif.Mps.UpdateSpec
import Verif.Mps.Chain

/-!
# Helper lemmas for chains: updates of a chain
-/

namespace TAT.Mps

set_option linter.unusedSectionVars false

open Finset

section

variable {α : Type} [Field α]

theorem psi_apply (d : ℕ) (h : ℕ → ℕ → ℕ → ℕ → α) (c : α) {ma mb K : ℕ} {a b a' b' : ℕ → ℕ → ℕ → α}
    (hab : ∀ l p r q, ∑ k ∈ range K, a' p l k * b' q k r = c * applied d ma a b h l p r q) :
    ∀ (i : ℕ) (p : List (MpsSite α)) (l : ℕ) (s : List ℕ), p[i]? = some (ma, a) → p[i + 1]? = some (mb, b) →
      s.length = p.length →
      psi ((p.set i (K, a')).set (i + 1) (mb, b')) l s = c * applyAt d h i (psi p l) s
  | 0, p, l, s, h1, h2, hs => by
    match p, s with
    | _ :: _ :: q, s0 :: s1 :: t =>
      simp only [List.getElem?_cons_zero, Option.some.injEq, zero_add, List.getElem?_cons_succ] at h1 h2
      subst h1 h2
      simp only [List.set_cons_zero, zero_add, List.set_cons_succ, psi, List.headD_cons, List.tail_cons,
        applyAt, List.getD_cons_zero, List.getD_cons_succ]
      calc _ = ∑ r ∈ range mb, (∑ k ∈ range K, a' s0 l k * b' s1 k r) * psi q r t := by
            simp only [mul_sum, sum_mul]
            rw [sum_comm]
            exact sum_congr rfl fun r _ => sum_congr rfl fun k _ => by ring
        _ = _ := by
            simp only [hab, applied, mul_sum, sum_mul, ← sum_product']
            refine sum_nbij' (fun (r, x, y, k) => (x, y, k, r)) (fun (x, y, k, r) => (r, x, y, k))
              ?_ ?_ ?_ ?_ ?_
            · rintro ⟨r, x, y, k⟩ hm
              simp only [mem_product] at hm ⊢
              tauto
            · rintro ⟨x, y, k, r⟩ hm
              simp only [mem_product] at hm ⊢
              tauto
            · rintro ⟨r, x, y, k⟩ _
              rfl
            · rintro ⟨x, y, k, r⟩ _
              rfl
            · rintro ⟨r, x, y, k⟩ _
              ring
  | i + 1, p, l, s, h1, h2, hs => by
    match p, s with
    | (m, u) :: q, s0 :: t =>
      simp only [List.getElem?_cons_succ] at h1 h2
      have hl : t.length = q.length := by simpa using hs
      simp only [List.set_cons_succ, psi, List.headD_cons, List.tail_cons, applyAt, List.getD_cons_succ]
      simp only [fun r => psi_apply d h c hab i q r t h1 h2 hl, applyAt, mul_sum, sum_mul, ← sum_product']
      refine sum_nbij' (fun (r, x, y) => (x, y, r)) (fun (x, y, r) => (r, x, y)) ?_ ?_ ?_ ?_ ?_
      · rintro ⟨r, x, y⟩ hm
        simp only [mem_product] at hm ⊢
        tauto
      · rintro ⟨x, y, r⟩ hm
        simp only [mem_product] at hm ⊢
        tauto
      · rintro ⟨r, x, y⟩ _
        rfl
      · rintro ⟨x, y, r⟩ _
        rfl
      · rintro ⟨r, x, y⟩ _
        ring

theorem psi_cut {a : ℕ → ℕ → ℕ → α} : ∀ (i : ℕ) (p : List (MpsSite α)) (l : ℕ) (s : List ℕ),
    p[i]? = some (0, a) → psi p l s = 0
  | 0, (m, u) :: q, l, s, h => by
    simp only [List.getElem?_cons_zero, Option.some.injEq, Prod.mk.injEq] at h
    rw [psi, h.1]
    rfl
  | i + 1, (m, u) :: q, l, s, h => by
    rw [psi]
    exact sum_eq_zero fun r _ => by rw [psi_cut i q r _ (by simpa using h), mul_zero]

/-- An operator which gives zero for the two sites of a chain gives zero for its state. -/
theorem psi_none (d : ℕ) (h : ℕ → ℕ → ℕ → ℕ → α) {ma mb : ℕ} {a b : ℕ → ℕ → ℕ → α}
    (hab : ∀ l p r q, applied d ma a b h l p r q = 0) (i : ℕ) (p : List (MpsSite α)) (l : ℕ) (s : List ℕ)
    (h1 : p[i]? = some (ma, a)) (h2 : p[i + 1]? = some (mb, b)) (hs : s.length = p.length) :
    applyAt d h i (psi p l) s = 0 := by
  have := psi_apply d h 1 (ma := ma) (mb := mb) (K := 0) (a := a) (b := b) (a' := a) (b' := b)
    (fun l p r q => by rw [hab]; simp) i p l s h1 h2 hs
  rw [one_mul] at this
  rw [← this]
  refine psi_cut (a := a) i _ l s ?_
  obtain ⟨hi, -⟩ := List.getElem?_eq_some_iff.1 h1
  rw [List.getElem?_set_ne (by omega), List.getElem?_set_self hi]

theorem applied_exchanged (d m : ℕ) (a b : ℕ → ℕ → ℕ → α) (h : ℕ → ℕ → ℕ → ℕ → α) (l p r q : ℕ) :
    applied d m (fun s l r => a s r l) (fun s l r => b s r l) h l p r q =
      applied d m b a (exchanged h) r q l p := by
  rw [applied, applied, sum_comm]
  refine sum_congr rfl fun y _ => sum_congr rfl fun x _ => ?_
  rw [exchanged]
  congr 1
  exact sum_congr rfl fun k _ => mul_comm _ _

/-! ### states -/

theorem applyAt_lt {d n i x y : ℕ} {s : List ℕ} (hs : s.length = n) (hd : ∀ z ∈ s, z < d) (hx : x < d)
    (hy : y < d) : ((s.set i x).set (i + 1) y).length = n ∧ ∀ z ∈ (s.set i x).set (i + 1) y, z < d := by
  refine ⟨by simpa using hs, fun z hz => ?_⟩
  rcases List.mem_or_eq_of_mem_set hz with hz | rfl
  · rcases List.mem_or_eq_of_mem_set hz with hz | rfl
    · exact hd z hz
    · exact hx
  · exact hy

theorem SameState.apply {n d : ℕ} {φ φ' : List ℕ → α} (hs : SameState n d φ φ') (h : ℕ → ℕ → ℕ → ℕ → α)
    (i : ℕ) : SameState n d (applyAt d h i φ) (applyAt d h i φ') := by
  obtain ⟨c, c0, hc⟩ := hs
  refine ⟨c, c0, fun s h1 h2 => ?_⟩
  rw [applyAt, applyAt, mul_sum]
  refine sum_congr rfl fun x hx => ?_
  rw [mul_sum]
  refine sum_congr rfl fun y hy => ?_
  obtain ⟨g1, g2⟩ := applyAt_lt (i := i) h1 h2 (mem_range.1 hx) (mem_range.1 hy)
  rw [hc _ g1 g2, mul_assoc]

theorem NoState.apply {n d : ℕ} {φ : List ℕ → α} (hs : NoState n d φ) (h : ℕ → ℕ → ℕ → ℕ → α) (i : ℕ) :
    NoState n d (applyAt d h i φ) := fun s h1 h2 => by
  rw [applyAt]
  refine sum_eq_zero fun x hx => sum_eq_zero fun y hy => ?_
  obtain ⟨g1, g2⟩ := applyAt_lt (i := i) h1 h2 (mem_range.1 hx) (mem_range.1 hy)
  rw [hs _ g1 g2, zero_mul]

theorem NoState.all {n d : ℕ} {φ : List ℕ → α} (hs : NoState n d φ) (h : ℕ → ℕ → ℕ → ℕ → α) (is : List ℕ) :
    NoState n d (applyAll d h is φ) := by
  induction is generalizing φ with
  | nil => exact hs
  | cons i is ih => exact ih (hs.apply h i)

theorem SameState.all {n d : ℕ} {φ φ' : List ℕ → α} (hs : SameState n d φ φ') (h : ℕ → ℕ → ℕ → ℕ → α)
    (is : List ℕ) : SameState n d (applyAll d h is φ) (applyAll d h is φ') := by
  induction is generalizing φ φ' with
  | nil => exact hs
  | cons i is ih => exact ih (hs.apply h i)

theorem SameState.trans {n d : ℕ} {φ φ' φ'' : List ℕ → α} (h : SameState n d φ φ')
    (h' : SameState n d φ' φ'') : SameState n d φ φ'' := by
  obtain ⟨c, c0, hc⟩ := h
  obtain ⟨b, b0, hb⟩ := h'
  exact ⟨c * b, mul_ne_zero c0 b0, fun s h1 h2 => by rw [hc s h1 h2, hb s h1 h2, mul_assoc]⟩

theorem SameState.none {n d : ℕ} {φ φ' : List ℕ → α} (h : SameState n d φ φ') (hn : NoState n d φ) :
    NoState n d φ' := by
  obtain ⟨c, c0, hc⟩ := h
  intro s h1 h2
  have := hc s h1 h2
  rw [hn s h1 h2] at this
  exact (mul_eq_zero.1 this.symm).resolve_left c0

end

variable {ν α β : Type} [LinearOrder ν] [Field α] [LinearOrder β] [Field β] {e : NetEnv ν α β}

/-! ### sites -/

theorem dirLegs_left (d : ℕ) (b b' : Option ℕ) (g : MpsLab) :
    siteLegsOf d b b' g = dirLegs d .left .right b b' g := by cases g <;> simp [siteLegsOf, dirLegs]

theorem dirLegs_right (d : ℕ) (b b' : Option ℕ) (g : MpsLab) :
    siteLegsOf d b b' g = dirLegs d .right .left b' b g := by cases g <;> simp [siteLegsOf, dirLegs]

theorem Shows.siteVal (he : MpsNetOk e) {t : Tensor ν NoSymmetry α} {d : ℕ} {b b' : Option ℕ}
    {A : ℕ → ℕ → ℕ → α}
    (h : Shows e.toAuxEnv t (siteLegsOf d b b') fun f => A (f .phy) (f .left) (f .right)) :
    siteVal e.nm t = A := by
  funext s l r
  unfold Mps.siteVal
  rw [val_eq_gval (mpsName_injective he.env) h.1, h.2]
  simp only [mpsName, nm_eq he.env]
  simp [MpsLab.text]

theorem Shows.isSite {t : Tensor ν NoSymmetry α} {d : ℕ} {b b' : Option ℕ}
    {F : (MpsLab → ℕ) → α} (h : Shows e.toAuxEnv t (siteLegsOf d b b') F) : IsSite e.nm d b b' t := by
  refine ⟨h.1.dense, fun n => ?_⟩
  by_cases h1 : n = e.nm "Phy"
  · rw [if_pos h1, h1]
    exact h.1.legs .phy
  rw [if_neg h1]
  by_cases h2 : n = e.nm "Left"
  · rw [if_pos h2, h2]
    exact h.1.legs .left
  rw [if_neg h2]
  by_cases h3 : n = e.nm "Right"
  · rw [if_pos h3, h3]
    exact h.1.legs .right
  rw [if_neg h3]
  by_contra hn
  obtain ⟨g, rfl⟩ := h.1.only n hn
  have := h.1.legs g
  rw [gleg] at this
  rw [this] at hn
  cases g <;> first | exact hn rfl | exact h1 rfl | exact h2 rfl | exact h3 rfl

/-- A chain with the given bonds. -/
structure ChainOn (nm : String → ν) (d : ℕ) (bond : ℕ → Option ℕ) (chain : List (Tensor ν NoSymmetry α)) :
    Prop where
  first : bond 0 = none
  last : bond chain.length = none
  site : ∀ k (hk : k < chain.length), IsSite nm d (bond k) (bond (k + 1)) chain[k]

theorem chainOn_of {e : AuxEnv ν α β} (he : MpsEnvOk e) {d : ℕ} {chain : List (Tensor ν NoSymmetry α)}
    (h : IsChain e.nm d none chain) : ChainOn e.nm d (bondLeg e.nm chain) chain := by
  refine ⟨rfl, ?_, fun k hk => chain_site he h hk⟩
  have := chain_drop he h chain.length le_rfl
  rwa [List.drop_length] at this

theorem isChain_of {nm : String → ν} {d : ℕ} : ∀ {chain : List (Tensor ν NoSymmetry α)} {bond : ℕ → Option ℕ},
    bond chain.length = none → (∀ k (hk : k < chain.length), IsSite nm d (bond k) (bond (k + 1)) chain[k]) →
      IsChain nm d (bond 0) chain
  | [], bond, h, _ => h
  | t :: ts, bond, h, hs =>
    ⟨bond 1, hs 0 (by simp), isChain_of (bond := fun k => bond (k + 1)) h
      fun k hk => hs (k + 1) (by simpa using hk)⟩

theorem ChainOn.isChain {nm : String → ν} {d : ℕ} {bond : ℕ → Option ℕ} {chain : List (Tensor ν NoSymmetry α)}
    (h : ChainOn nm d bond chain) : IsChain nm d none chain := h.first ▸ isChain_of h.last h.site

/-- Two neighbouring sites replaced. -/
theorem ChainOn.replace {nm : String → ν} {d : ℕ} {bond : ℕ → Option ℕ} {chain : List (Tensor ν NoSymmetry α)}
    (h : ChainOn nm d bond chain) {i K : ℕ} (hi : i + 1 < chain.length) {a b : Tensor ν NoSymmetry α}
    (ha : IsSite nm d (bond i) (some K) a) (hb : IsSite nm d (some K) (bond (i + 2)) b) :
    ChainOn nm d (Function.update bond (i + 1) (some K)) ((chain.set i a).set (i + 1) b) := by
  refine ⟨?_, ?_, fun k hk => ?_⟩
  · rw [Function.update_of_ne (by omega)]
    exact h.first
  · rw [List.length_set, List.length_set, Function.update_of_ne (by omega)]
    exact h.last
  · have hk' : k < chain.length := by simpa using hk
    by_cases h1 : k = i + 1
    · subst h1
      rw [List.getElem_set_self, Function.update_self, Function.update_of_ne (by omega)]
      exact hb
    · rw [List.getElem_set_ne (by omega), Function.update_of_ne h1]
      by_cases h2 : k = i
      · subst h2
        rw [List.getElem_set_self, Function.update_self]
        exact ha
      · rw [List.getElem_set_ne (by omega), Function.update_of_ne (by omega)]
        exact h.site k hk'

theorem set_sites (nm : String → ν) (chain : List (Tensor ν NoSymmetry α)) (i : ℕ) (a b : Tensor ν NoSymmetry α) :
    mpsSites nm ((chain.set i a).set (i + 1) b) =
      ((mpsSites nm chain).set i (legDim a (nm "Right"), siteVal nm a)).set (i + 1)
        (legDim b (nm "Right"), siteVal nm b) := by
  rw [mpsSites, List.map_set, List.map_set]
  rfl

/-- What a step of a sweep does, with the operator which it applies. -/
def StepDoes (e : NetEnv ν α β) (d D i : ℕ) (H : ℕ → ℕ → ℕ → ℕ → α) (bond : ℕ → Option ℕ)
    (chain : List (Tensor ν NoSymmetry α)) (K : ℕ) (r : Outcome (List (Tensor ν NoSymmetry α))) : Prop :=
  Keeps K D →
    (NoState chain.length d (applyAt d H i (psi (mpsSites e.nm chain) 0)) ∧ r = .error "division by zero") ∨
    ∃ chain', r = .ok chain' ∧ chain'.length = chain.length ∧
      ChainOn e.nm d (Function.update bond (i + 1) (some K)) chain' ∧
      SameState chain.length d (psi (mpsSites e.nm chain') 0) (applyAt d H i (psi (mpsSites e.nm chain) 0))

theorem sites_at (he : MpsNetOk e) {d k : ℕ} {bond : ℕ → Option ℕ} {chain : List (Tensor ν NoSymmetry α)}
    (hc : ChainOn e.nm d bond chain) (hk : k < chain.length) :
    (mpsSites e.nm chain)[k]? = some (bd (bond (k + 1)), siteVal e.nm chain[k]) := by
  rw [mpsSites, List.getElem?_map, List.getElem?_eq_getElem hk, Option.map_some, legDim,
    site_right he.env (hc.site k hk)]
  rfl

/-- The state after two sites have been replaced. -/
theorem replaced (he : MpsNetOk e) {d i K : ℕ} {bond : ℕ → Option ℕ} {chain : List (Tensor ν NoSymmetry α)}
    (hc : ChainOn e.nm d bond chain) (hi : i + 1 < chain.length) {H : ℕ → ℕ → ℕ → ℕ → α} {c : α}
    {a b : Tensor ν NoSymmetry α} (ha : leg a (e.nm "Right") = some K)
    (hb : leg b (e.nm "Right") = bond (i + 2))
    (hab : ∀ l p r q, ∑ k ∈ range K, siteVal e.nm a p l k * siteVal e.nm b q k r =
      c * applied d (bd (bond (i + 1))) (siteVal e.nm chain[i]) (siteVal e.nm chain[i + 1]) H l p r q)
    (s : List ℕ) (hs : s.length = chain.length) :
    psi (mpsSites e.nm ((chain.set i a).set (i + 1) b)) 0 s =
      c * applyAt d H i (psi (mpsSites e.nm chain) 0) s := by
  rw [set_sites, legDim, ha, legDim, hb]
  exact psi_apply d H c hab i _ 0 s (sites_at he hc (by omega)) (sites_at he hc hi)
    (by rw [hs, mpsSites, List.length_map])

theorem forward_step (he : MpsNetOk e) {d i : ℕ} {bond : ℕ → Option ℕ} {chain : List (Tensor ν NoSymmetry α)}
    (hc : ChainOn e.nm d bond chain) (hi : i + 1 < chain.length) {op : Tensor ν NoSymmetry α}
    (ho : IsOperator e.nm d op) :
    ∃ K, K ≤ bd (bond i) * d ∧ ∀ D, StepDoes e d D i (operatorVal e.nm op) bond chain K
      (mpsForward e D op chain i) := by
  have sa := site_shows he.env (hc.site i (by omega))
  have sb := site_shows he.env (hc.site (i + 1) hi)
  obtain ⟨K, k1, k2⟩ := bond_update he (Or.inl ⟨rfl, rfl⟩) (sa.cast (dirLegs_left _ _ _) fun _ => rfl)
    (sb.cast (dirLegs_left _ _ _) fun _ => rfl) (operator_shows he.env ho)
  refine ⟨K, k1, fun D hD => ?_⟩
  have run : mpsForward e D op chain i = (mpsBond e D "Left" "Right" op chain[i] chain[i + 1]).bind
      fun r => .ok ((chain.set i r.1).set (i + 1) r.2) := by
    rw [mpsForward, mpsSite, mpsSite, List.getElem?_eq_getElem (by omega), List.getElem?_eq_getElem hi]
    rfl
  rcases k2 D hD with ⟨z1, z2⟩ | ⟨a', b', A', B', c, o1, o2, o3, o4, o5⟩
  · left
    refine ⟨fun s h1 h2 => ?_, ?_⟩
    · exact psi_none d _ z1 i _ 0 s (sites_at he hc (by omega)) (sites_at he hc hi)
        (by rw [h1, mpsSites, List.length_map])
    · have z2' : mpsBond e D "Left" "Right" op chain[i] chain[i + 1] = .error "division by zero" := z2
      rw [run, z2']
      rfl
  · right
    have o3 := o3.cast (fun g => (dirLegs_left _ _ _ g).symm) fun _ => rfl
    have o4 := o4.cast (fun g => (dirLegs_left _ _ _ g).symm) fun _ => rfl
    have o1' : mpsBond e D "Left" "Right" op chain[i] chain[i + 1] = .ok (a', b') := o1
    refine ⟨_, by rw [run, o1']; rfl, by simp, hc.replace hi (o3.isSite) (o4.isSite), c, o2,
      fun s h1 h2 => ?_⟩
    refine replaced he hc hi (site_right he.env (o3.isSite)) (site_right he.env (o4.isSite))
      (fun l p r q => ?_) s h1
    rw [o3.siteVal he, o4.siteVal he]
    exact o5 l p r q

theorem backward_step (he : MpsNetOk e) {d i : ℕ} {bond : ℕ → Option ℕ} {chain : List (Tensor ν NoSymmetry α)}
    (hc : ChainOn e.nm d bond chain) (hi : i + 1 < chain.length) {op : Tensor ν NoSymmetry α}
    (ho : IsOperator e.nm d op) :
    ∃ K, K ≤ bd (bond (i + 2)) * d ∧ ∀ D, StepDoes e d D i (exchanged (operatorVal e.nm op)) bond chain K
      (mpsBackward e D op chain i) := by
  have sa := site_shows he.env (hc.site i (by omega))
  have sb := site_shows he.env (hc.site (i + 1) hi)
  obtain ⟨K, k1, k2⟩ := bond_update he (Or.inr ⟨rfl, rfl⟩)
    (A := fun s l r => siteVal e.nm chain[i + 1] s r l) (B := fun s l r => siteVal e.nm chain[i] s r l)
    (sb.cast (dirLegs_right _ _ _) fun _ => rfl) (sa.cast (dirLegs_right _ _ _) fun _ => rfl)
    (operator_shows he.env ho)
  refine ⟨K, k1, fun D hD => ?_⟩
  have run : mpsBackward e D op chain i = (mpsBond e D "Right" "Left" op chain[i + 1] chain[i]).bind
      fun r => .ok ((chain.set (i + 1) r.1).set i r.2) := by
    rw [mpsBackward, mpsSite, mpsSite, List.getElem?_eq_getElem hi, List.getElem?_eq_getElem (by omega)]
    rfl
  simp only [applied_exchanged] at k2
  rcases k2 D hD with ⟨z1, z2⟩ | ⟨a', b', A', B', c, o1, o2, o3, o4, o5⟩
  · left
    refine ⟨fun s h1 h2 => ?_, ?_⟩
    · exact psi_none d _ (fun l p r q => z1 r q l p) i _ 0 s (sites_at he hc (by omega)) (sites_at he hc hi)
        (by rw [h1, mpsSites, List.length_map])
    · have z2' : mpsBond e D "Right" "Left" op chain[i + 1] chain[i] = .error "division by zero" := z2
      rw [run, z2']
      rfl
  · right
    have o3 := o3.cast (fun g => (dirLegs_right _ _ _ g).symm)
      (F' := fun f => (fun s l r => A' s r l) (f .phy) (f .left) (f .right)) fun _ => rfl
    have o4 := o4.cast (fun g => (dirLegs_right _ _ _ g).symm)
      (F' := fun f => (fun s l r => B' s r l) (f .phy) (f .left) (f .right)) fun _ => rfl
    have o1' : mpsBond e D "Right" "Left" op chain[i + 1] chain[i] = .ok (a', b') := o1
    refine ⟨(chain.set i b').set (i + 1) a', ?_, by simp, hc.replace hi (o4.isSite) (o3.isSite), c, o2,
      fun s h1 h2 => ?_⟩
    · rw [run, o1', List.set_comm _ _ (by omega)]
      rfl
    refine replaced he hc hi (site_right he.env (o4.isSite)) (site_right he.env (o3.isSite))
      (fun l p r q => ?_) s h1
    rw [Shows.siteVal he (A := fun s l r => B' s r l) o4, Shows.siteVal he (A := fun s l r => A' s r l) o3, ← o5 r q l p]
    exact sum_congr rfl fun k _ => mul_comm _ _

/-! ### sweeps -/

/-- What a sweep does: the state after it is `φ`. -/
def SweepDoes (e : NetEnv ν α β) (d n : ℕ) (φ : List ℕ → α) (r : Outcome (List (Tensor ν NoSymmetry α))) :
    Prop :=
  (NoState n d φ ∧ r = .error "division by zero") ∨
    ∃ chain', r = .ok chain' ∧ chain'.length = n ∧ IsChain e.nm d none chain' ∧
      SameState n d (psi (mpsSites e.nm chain') 0) φ

theorem keeps_pow {d K D j m : ℕ} (hK : K ≤ d ^ j * d) (hj : j + 1 ≤ m) (hD : Keeps (d ^ m) D) : Keeps K D := by
  rcases hD with hD | hD
  · left
    rcases Nat.eq_zero_or_pos d with rfl | hd
    · simp only [mul_zero, Nat.le_zero] at hK
      omega
    · calc K ≤ d ^ (j + 1) := by rw [pow_succ]; exact hK
        _ ≤ d ^ m := Nat.pow_le_pow_right hd hj
        _ ≤ D := hD
  · exact Or.inr hD

theorem forward_sweep (he : MpsNetOk e) {d D : ℕ} {op : Tensor ν NoSymmetry α} (ho : IsOperator e.nm d op) :
    ∀ (m i : ℕ) (chain : List (Tensor ν NoSymmetry α)) (bond : ℕ → Option ℕ), ChainOn e.nm d bond chain →
      i + m + 1 = chain.length → (∀ j ≤ i, bd (bond j) ≤ d ^ j) → Keeps (d ^ (chain.length - 1)) D →
      SweepDoes e d chain.length
        (applyAll d (operatorVal e.nm op) (List.range' i m) (psi (mpsSites e.nm chain) 0))
        (mpsSweep (mpsForward e D op) (List.range' i m) chain)
  | 0, i, chain, bond, hc, _, _, _ =>
    Or.inr ⟨chain, rfl, rfl, hc.isChain, 1, one_ne_zero, fun s _ _ => (one_mul _).symm⟩
  | m + 1, i, chain, bond, hc, hm, hb, hD => by
    obtain ⟨K, k1, k2⟩ := forward_step he hc (i := i) (by omega) ho
    have hK : K ≤ d ^ i * d := k1.trans (Nat.mul_le_mul_right _ (hb i le_rfl))
    rw [List.range'_succ, mpsSweep]
    rcases k2 D (keeps_pow hK (by omega) hD) with ⟨z1, z2⟩ | ⟨chain1, o1, o2, o3, o4⟩
    · exact Or.inl ⟨z1.all _ _, by rw [z2]; rfl⟩
    · have := forward_sweep he ho m (i + 1) chain1 _ o3 (by omega) (fun j hj => by
        by_cases h : j = i + 1
        · rw [h, Function.update_self, pow_succ]
          exact hK
        · rw [Function.update_of_ne h]
          exact hb j (by omega)) (by rwa [o2])
      rw [o1, Outcome.bind]
      rw [o2] at this
      rcases this with ⟨z1, z2⟩ | ⟨chain2, q1, q2, q3, q4⟩
      · exact Or.inl ⟨(o4.all _ _).none z1, z2⟩
      · exact Or.inr ⟨chain2, q1, q2, q3, q4.trans (o4.all _ _)⟩

theorem backward_sweep (he : MpsNetOk e) {d D : ℕ} {op : Tensor ν NoSymmetry α} (ho : IsOperator e.nm d op) :
    ∀ (m : ℕ) (chain : List (Tensor ν NoSymmetry α)) (bond : ℕ → Option ℕ), ChainOn e.nm d bond chain →
      m + 1 ≤ chain.length → (∀ j, m + 1 ≤ j → j ≤ chain.length → bd (bond j) ≤ d ^ (chain.length - j)) →
      Keeps (d ^ (chain.length - 1)) D →
      SweepDoes e d chain.length
        (applyAll d (exchanged (operatorVal e.nm op)) (List.range m).reverse (psi (mpsSites e.nm chain) 0))
        (mpsSweep (mpsBackward e D op) (List.range m).reverse chain)
  | 0, chain, bond, hc, _, _, _ =>
    Or.inr ⟨chain, rfl, rfl, hc.isChain, 1, one_ne_zero, fun s _ _ => (one_mul _).symm⟩
  | m + 1, chain, bond, hc, hm, hb, hD => by
    obtain ⟨K, k1, k2⟩ := backward_step he hc (i := m) (by omega) ho
    have hK : K ≤ d ^ (chain.length - (m + 2)) * d :=
      k1.trans (Nat.mul_le_mul_right _ (hb (m + 2) (by omega) (by omega)))
    rw [List.range_succ, List.reverse_append, List.reverse_singleton, List.singleton_append, mpsSweep]
    rcases k2 D (keeps_pow hK (by omega) hD) with ⟨z1, z2⟩ | ⟨chain1, o1, o2, o3, o4⟩
    · exact Or.inl ⟨z1.all _ _, by rw [z2]; rfl⟩
    · have := backward_sweep he ho m chain1 _ o3 (by omega) (fun j hj hj' => by
        rw [o2] at hj' ⊢
        by_cases h : j = m + 1
        · rw [h, Function.update_self, show chain.length - (m + 1) = chain.length - (m + 2) + 1 by omega, pow_succ]
          exact hK
        · rw [Function.update_of_ne h]
          exact hb j (by omega) hj') (by rwa [o2])
      rw [o1, Outcome.bind]
      rw [o2] at this
      rcases this with ⟨z1, z2⟩ | ⟨chain2, q1, q2, q3, q4⟩
      · exact Or.inl ⟨(o4.all _ _).none z1, z2⟩
      · exact Or.inr ⟨chain2, q1, q2, q3, q4.trans (o4.all _ _)⟩

theorem update_once (he : MpsNetOk e) {d D : ℕ} {op : Tensor ν NoSymmetry α} (ho : IsOperator e.nm d op)
    {chain : List (Tensor ν NoSymmetry α)} (hc : IsChain e.nm d none chain) (hn : chain ≠ [])
    (hD : Keeps (d ^ (chain.length - 1)) D) :
    SweepDoes e d chain.length
      (sweeps chain.length d (operatorVal e.nm op) (exchanged (operatorVal e.nm op))
        (psi (mpsSites e.nm chain) 0))
      (mpsUpdateOnce e D op chain) := by
  have hl : 0 < chain.length := List.length_pos_iff.2 hn
  rw [sweeps, mpsUpdateOnce, if_neg hl.ne', List.range_eq_range']
  have first := chainOn_of he.env hc
  rcases forward_sweep he ho (chain.length - 1) 0 chain _ first (by omega) (fun j hj => by
    rw [Nat.le_zero.1 hj, first.first]
    exact le_rfl) hD with ⟨z1, z2⟩ | ⟨chain1, o1, o2, o3, o4⟩
  · exact Or.inl ⟨z1.all _ _, by rw [z2]; rfl⟩
  rw [o1, Outcome.bind]
  have second := chainOn_of he.env o3
  have := backward_sweep he ho (D := D) (chain1.length - 1) chain1 _ second (by omega) (fun j hj hj' => by
    have : j = chain1.length := by omega
    rw [this, second.last, Nat.sub_self, pow_zero]
    exact le_rfl) (by rwa [o2])
  rw [o2] at this
  rw [o2, ← List.range_eq_range']
  rw [← List.range_eq_range'] at o4
  rcases this with ⟨z1, z2⟩ | ⟨chain2, q1, q2, q3, q4⟩
  · exact Or.inl ⟨(o4.all _ _).none z1, z2⟩
  · exact Or.inr ⟨chain2, q1, q2, q3, q4.trans (o4.all _ _)⟩

end TAT.Mps
