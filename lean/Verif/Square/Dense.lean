import Verif.Contract.FuseProps
import Verif.EdgeMisc.Props
import Mathlib.Algebra.BigOperators.Group.Finset.Basic
import Mathlib.Algebra.BigOperators.Ring.Finset

/-!
# Tensors without symmetry as functions of their indices

The lattices use tensors without symmetry.  Such a tensor is described by the dimensions of its edges
and by its elements as a function of one index for each name.
-/

namespace TAT

set_option linter.unusedSectionVars false

variable {ν α : Type} [LinearOrder ν]

/-- The dimension of the edge with a given name, if there is one. -/
def leg (t : Tensor ν NoSymmetry α) (n : ν) : Option ℕ :=
  if n ∈ t.names then some (dimM (mapOf t n) 0) else none

/-- The number of values of the index of an edge; an edge which does not exist has one. -/
def legDim (t : Tensor ν NoSymmetry α) (n : ν) : ℕ := (leg t n).getD 1

/-- A well formed tensor none of whose edges has dimension zero. -/
structure Dense (t : Tensor ν NoSymmetry α) : Prop where
  wf : WF t
  pos : ∀ n, 0 < legDim t n

/-- The element at the given indices, zero outside of the tensor. -/
def val [Zero α] (t : Tensor ν NoSymmetry α) (x : ν → ℕ) : α := amp t fun n => (0, x n)

theorem noSymmetry : TatSym.isNoSym NoSymmetry = true := rfl

theorem noSym_eq (s s' : NoSymmetry) : s = s' := rfl

theorem leg_eq_none {t : Tensor ν NoSymmetry α} {n : ν} : leg t n = none ↔ n ∉ t.names := by
  unfold leg
  split <;> simp [*]

theorem leg_ne_none {t : Tensor ν NoSymmetry α} {n : ν} : leg t n ≠ none ↔ n ∈ t.names := by
  rw [Ne, leg_eq_none, not_not]

theorem leg_of_mem {t : Tensor ν NoSymmetry α} {n : ν} (h : n ∈ t.names) :
    leg t n = some (dimM (mapOf t n) 0) := if_pos h

theorem legDim_of_mem {t : Tensor ν NoSymmetry α} {n : ν} (h : n ∈ t.names) :
    legDim t n = dimM (mapOf t n) 0 := by
  rw [legDim, leg_of_mem h]
  rfl

theorem Dense.map {t : Tensor ν NoSymmetry α} (h : Dense t) {n : ν} (hn : n ∈ t.names) :
    mapOf t n = [(0, legDim t n)] := by
  have hk : (0 : NoSymmetry) ∈ OMap.keys (mapOf t n) := by
    by_contra hk
    have := h.pos n
    rw [legDim_of_mem hn, dimM, OMap.find?_eq_none.2 hk] at this
    simp at this
  rw [legDim_of_mem hn]
  exact unit_map noSymmetry (mapOf_sorted h.wf n hn) hk

theorem Dense.blocks {t : Tensor ν NoSymmetry α} (h : Dense t) : t.core.blocks ≠ [] :=
  solid_of_keys noSymmetry h.wf fun n hn => by rw [h.map hn]; simp [OMap.keys]

theorem dense_valid {t : Tensor ν NoSymmetry α} (h : WF t) {x : ν → ℕ} :
    ValidPos t (fun n => (0, x n)) ↔ ∀ n ∈ t.names, x n < legDim t n := by
  rw [validPos_iff h]
  constructor
  · intro hv n hn
    rw [legDim_of_mem hn]
    exact hv.1 n hn
  · intro hv
    refine ⟨fun n hn => ?_, noSym_eq _ _⟩
    have := hv n hn
    rwa [legDim_of_mem hn] at this

theorem amp_eq_val [Zero α] (t : Tensor ν NoSymmetry α) (p : ν → NoSymmetry × ℕ) :
    amp t p = val t fun n => (p n).2 := rfl

theorem amp_congr [Zero α] {t : Tensor ν NoSymmetry α} {p q : ν → NoSymmetry × ℕ}
    (h : ∀ n ∈ t.names, p n = q n) : amp t p = amp t q := by
  have h1 : keyOf t.names p = keyOf t.names q := List.map_congr_left fun n hn => by rw [h n hn]
  have h2 : idxOf t.names p = idxOf t.names q := List.map_congr_left fun n hn => by rw [h n hn]
  have h3 : elem t p = elem t q := by rw [elem, elem, h1, h2]
  unfold amp
  rw [h1, h3]
  congr 1
  apply propext
  apply and_congr_left
  intro _
  constructor
  · intro hx y hy
    have := hx y hy
    rwa [h y.1 (List.of_mem_zip hy).1] at this
  · intro hx y hy
    have := hx y hy
    rwa [← h y.1 (List.of_mem_zip hy).1] at this

theorem val_congr [Zero α] {t : Tensor ν NoSymmetry α} {x y : ν → ℕ}
    (h : ∀ n, leg t n ≠ none → x n = y n) : val t x = val t y :=
  amp_congr fun n hn => by rw [h n (leg_ne_none.2 hn)]

theorem val_outside [Zero α] {t : Tensor ν NoSymmetry α} (h : WF t) {x : ν → ℕ} {n : ν}
    (hn : leg t n ≠ none) (hx : legDim t n ≤ x n) : val t x = 0 := by
  refine amp_zero h fun hv => ?_
  have := dense_valid h |>.1 hv n (leg_ne_none.1 hn)
  omega

theorem elem_val [Zero α] {t : Tensor ν NoSymmetry α} (h : WF t) {x : ν → ℕ}
    (hv : ∀ n, leg t n ≠ none → x n < legDim t n) : elem t (fun n => (0, x n)) = some (val t x) :=
  amp_valid h ((dense_valid h).2 fun n hn => hv n (leg_ne_none.2 hn))

/-! ## Contraction -/

/-- Sum over the indices of contracted pairs; `F` gets the indices of both tensors. -/
def sumLegs [AddCommMonoid α] (dims : ν → ℕ) (F : (ν → ℕ) → (ν → ℕ) → α) :
    List (ν × ν) → (ν → ℕ) → (ν → ℕ) → α
  | [], x, y => F x y
  | c :: cs, x, y => ∑ k ∈ Finset.range (dims c.1),
      sumLegs dims F cs (Function.update x c.1 k) (Function.update y c.2 k)

theorem sumLegs_congr [AddCommMonoid α] (dims : ν → ℕ) {F G : (ν → ℕ) → (ν → ℕ) → α} {S T : ν → Prop}
    (hF : ∀ x x' y y', (∀ n, S n → x n = x' n) → (∀ n, T n → y n = y' n) → F x y = G x' y')
    (cs : List (ν × ν)) {x x' y y' : ν → ℕ} (hx : ∀ n, S n → x n = x' n) (hy : ∀ n, T n → y n = y' n) :
    sumLegs dims F cs x y = sumLegs dims G cs x' y' := by
  induction cs generalizing x x' y y' with
  | nil => exact hF _ _ _ _ hx hy
  | cons c cs ih =>
    rw [sumLegs, sumLegs]
    refine Finset.sum_congr rfl fun k _ => ih (fun n hn => ?_) fun n hn => ?_
    · by_cases h : n = c.1
      · subst h; simp
      · rw [Function.update_of_ne h, Function.update_of_ne h, hx n hn]
    · by_cases h : n = c.2
      · subst h; simp
      · rw [Function.update_of_ne h, Function.update_of_ne h, hy n hn]

/-- Pairs of edges which do not exist contribute nothing. -/
theorem sumLegs_filter [AddCommMonoid α] {dims : ν → ℕ} {F : (ν → ℕ) → (ν → ℕ) → α} {S T : ν → Prop}
    (hF : ∀ x x' y y', (∀ n, S n → x n = x' n) → (∀ n, T n → y n = y' n) → F x y = F x' y')
    (P : ν × ν → Bool) (cs : List (ν × ν))
    (hP : ∀ c ∈ cs, P c = false → dims c.1 = 1 ∧ ¬ S c.1 ∧ ¬ T c.2) (x y : ν → ℕ) :
    sumLegs dims F (cs.filter P) x y = sumLegs dims F cs x y := by
  induction cs generalizing x y with
  | nil => rfl
  | cons c cs ih =>
    have ih := fun x y => ih (fun c' hc' => hP c' (by simp [hc'])) x y
    rw [List.filter_cons]
    cases hc : P c with
    | true =>
      rw [if_pos rfl, sumLegs, sumLegs]
      exact Finset.sum_congr rfl fun k _ => ih _ _
    | false =>
      obtain ⟨h1, h2, h3⟩ := hP c (by simp) hc
      rw [if_neg (by simp), sumLegs, h1, Finset.sum_range_one, ih]
      refine sumLegs_congr dims hF cs (fun n hn => ?_) fun n hn => ?_
      · rw [Function.update_of_ne]
        rintro rfl
        exact h2 hn
      · rw [Function.update_of_ne]
        rintro rfl
        exact h3 hn

theorem sumLegs_zero [AddCommMonoid α] {dims : ν → ℕ} {F : (ν → ℕ) → (ν → ℕ) → α} {cs : List (ν × ν)}
    {x y : ν → ℕ}
    (h : ∀ x' y', (∀ n, n ∉ cs.map Prod.fst → x' n = x n) → (∀ n, n ∉ cs.map Prod.snd → y' n = y n) →
      F x' y' = 0) : sumLegs dims F cs x y = 0 := by
  induction cs generalizing x y with
  | nil => exact h x y (fun _ _ => rfl) fun _ _ => rfl
  | cons c cs ih =>
    rw [sumLegs]
    refine Finset.sum_eq_zero fun k _ => ih fun x' y' hx hy => h x' y' (fun n hn => ?_) fun n hn => ?_
    · simp only [List.map_cons, List.mem_cons, not_or] at hn
      rw [hx n hn.2, Function.update_of_ne hn.1]
    · simp only [List.map_cons, List.mem_cons, not_or] at hn
      rw [hy n hn.2, Function.update_of_ne hn.1]

theorem partner_step {cs : List (ν × ν)} {c : ν × ν} (h1 : c.1 ∉ cs.map Prod.fst)
    (p w : ν → NoSymmetry × ℕ) (k : ℕ) (h2 : c.2 ∉ cs.map Prod.snd) :
    (fun n => (partner (cs ++ [c]) p (Function.update w c.1 (0, k)) n).2) =
      Function.update (fun n => (partner cs p w n).2) c.2 k := by
  funext n
  unfold partner
  rw [List.find?_append]
  cases hf : cs.find? fun c => decide (c.2 = n) with
  | some c' =>
    have hm := List.mem_of_find?_eq_some hf
    have he : c'.2 = n := by simpa using List.find?_some hf
    have hne : c'.1 ≠ c.1 := fun h => h1 (h ▸ List.mem_map_of_mem hm)
    have hn : n ≠ c.2 := fun h => h2 (by rw [← h, ← he]; exact List.mem_map_of_mem hm)
    simp [Function.update_of_ne hne, Function.update_of_ne hn, hf]
  | none =>
    by_cases hn : c.2 = n
    · subst hn
      simp
    · rw [Function.update_of_ne (Ne.symm hn)]
      simp [hn, hf]

theorem sumOver_eq_sumLegs [AddCommMonoid α] {E : ν → List (NoSymmetry × ℕ)} {dims : ν → ℕ}
    (F : (ν → ℕ) → (ν → ℕ) → α) (p : ν → NoSymmetry × ℕ) (cs done : List (ν × ν))
    (hE : ∀ c ∈ cs, E c.1 = (List.range (dims c.1)).map fun k => (0, k))
    (h1 : ((done ++ cs).map Prod.fst).Nodup) (h2 : ((done ++ cs).map Prod.snd).Nodup)
    (w : ν → NoSymmetry × ℕ) :
    sumOver E (fun w => F (fun n => (w n).2) fun n => (partner (done ++ cs) p w n).2) (cs.map Prod.fst) w =
      sumLegs dims F cs (fun n => (w n).2) fun n => (partner done p w n).2 := by
  induction cs generalizing done w with
  | nil => simp [sumOver, sumLegs]
  | cons c cs ih =>
    rw [List.map_cons, sumOver, sumLegs, hE c (by simp), List.map_map, ← List.sum_toFinset]
    · rw [List.toFinset_range]
      refine Finset.sum_congr rfl fun k _ => ?_
      have hl : done ++ c :: cs = (done ++ [c]) ++ cs := by simp
      have e1 : c.1 ∉ done.map Prod.fst := by
        rw [List.map_append, List.nodup_append] at h1
        exact fun h => h1.2.2 _ h c.1 (by simp) rfl
      have e2 : c.2 ∉ done.map Prod.snd := by
        rw [List.map_append, List.nodup_append] at h2
        exact fun h => h2.2.2 _ h c.2 (by simp) rfl
      have := ih (done ++ [c]) (fun c' hc' => hE c' (by simp [hc'])) (by rw [← hl]; exact h1)
        (by rw [← hl]; exact h2) (Function.update w c.1 (0, k))
      rw [partner_step e1 p w k e2] at this
      rw [Function.comp_apply, hl, this]
      congr 1
      funext n
      by_cases hn : n = c.1
      · subst hn; simp
      · rw [Function.update_of_ne hn, Function.update_of_ne hn]
    · exact List.nodup_range

/-- Contraction of two tensors.  Edges which are contracted have equal dimensions, or neither exists;
all others have different names. -/
theorem dense_contract [CommRing α] (ce : ContractEnv NoSymmetry α) (hg : GemmOk ce.gemm)
    {cn : ContractNames ν} (hcn : [cn.c0, cn.c1, cn.c2].Nodup) {t1 t2 : Tensor ν NoSymmetry α}
    (h1 : Dense t1) (h2 : Dense t2) {pairs : List (ν × ν)} (hp1 : (pairs.map Prod.fst).Nodup)
    (hp2 : (pairs.map Prod.snd).Nodup) (hm : ∀ c ∈ pairs, leg t1 c.1 = leg t2 c.2)
    (hd : ∀ n, n ∉ pairs.map Prod.fst → n ∉ pairs.map Prod.snd → leg t1 n = none ∨ leg t2 n = none) :
    ∃ r, contract ce cn t1 t2 pairs = .ok r ∧ Dense r ∧
      (∀ n, leg r n = ((if n ∈ pairs.map Prod.fst then none else leg t1 n).or
        (if n ∈ pairs.map Prod.snd then none else leg t2 n))) ∧
      ∀ x, val r x = sumLegs (legDim t1) (fun x y => val t1 x * val t2 y) pairs x x := by
  have hmem : ∀ c ∈ pairs, (c.1 ∈ t1.names ↔ c.2 ∈ t2.names) := by
    intro c hc
    rw [← leg_ne_none, ← leg_ne_none, hm c hc]
  set cs := knownPairs t1 t2 pairs with hcs
  have hsub : cs.Sublist pairs := List.filter_sublist
  have hk : ∀ c ∈ cs, c ∈ pairs ∧ c.1 ∈ t1.names ∧ c.2 ∈ t2.names := by
    intro c hc
    rw [hcs, knownPairs, List.mem_filter] at hc
    simpa using hc
  have hn1 : ∀ n ∈ t1.names, (n ∈ cs.map Prod.fst ↔ n ∈ pairs.map Prod.fst) := by
    intro n hn
    constructor
    · exact fun h => (hsub.map _).subset h
    · intro h
      obtain ⟨c, hc, rfl⟩ := List.mem_map.1 h
      refine List.mem_map.2 ⟨c, ?_, rfl⟩
      rw [hcs, knownPairs, List.mem_filter]
      exact ⟨hc, by simpa using ⟨hn, (hmem c hc).1 hn⟩⟩
  have hn2 : ∀ n ∈ t2.names, (n ∈ cs.map Prod.snd ↔ n ∈ pairs.map Prod.snd) := by
    intro n hn
    constructor
    · exact fun h => (hsub.map _).subset h
    · intro h
      obtain ⟨c, hc, rfl⟩ := List.mem_map.1 h
      refine List.mem_map.2 ⟨c, ?_, rfl⟩
      rw [hcs, knownPairs, List.mem_filter]
      exact ⟨hc, by simpa using ⟨(hmem c hc).2 hn, hn⟩⟩
  have hshared : sharedNames t1 t2 cs = [] := by
    rw [sharedNames, List.filter_eq_nil_iff]
    intro n hn h
    have h : n ∈ t2.names ∧ n ∉ cs.map Prod.fst ∧ n ∉ cs.map Prod.snd := by simpa using h
    rw [hn1 n hn, hn2 n h.1] at h
    rcases hd n h.2.1 h.2.2 with e | e
    · exact leg_eq_none.1 e hn
    · exact leg_eq_none.1 e h.1
  obtain ⟨r, shared, e1, e2, e3, -, e4, e5, e6⟩ := C27_contract ce hg hcn noSymmetry h1.wf h2.wf
    h1.blocks h2.blocks hcs.symm (hp1.sublist (hsub.map _)) (hp2.sublist (hsub.map _)) (by
      intro c hc
      obtain ⟨a, b, d⟩ := hk c hc
      rw [h1.map b, h2.map d, legDim, legDim, hm c a]) (by rw [hshared]; simp)
  rw [hshared] at e3
  obtain rfl := List.perm_nil.1 e3
  simp only [List.nil_append, List.not_mem_nil, not_false_eq_true, decide_true, List.filter_true] at e4
  have mo1 : ∀ n, n ∈ others t1.names (cs.map Prod.fst) ↔ n ∈ t1.names ∧ n ∉ pairs.map Prod.fst := by
    intro n
    rw [others, List.mem_filter, decide_eq_true_iff]
    exact and_congr_right fun h => by rw [hn1 n h]
  have mo2 : ∀ n, n ∈ others t2.names (cs.map Prod.snd) ↔ n ∈ t2.names ∧ n ∉ pairs.map Prod.snd := by
    intro n
    rw [others, List.mem_filter, decide_eq_true_iff]
    exact and_congr_right fun h => by rw [hn2 n h]
  have hleg : ∀ n, leg r n = ((if n ∈ pairs.map Prod.fst then none else leg t1 n).or
      (if n ∈ pairs.map Prod.snd then none else leg t2 n)) := by
    intro n
    by_cases a : n ∈ others t1.names (cs.map Prod.fst)
    · have hr : n ∈ r.names := by rw [e4]; exact List.mem_append_left _ a
      have := e5 n hr
      rw [if_pos a] at this
      obtain ⟨a1, a2⟩ := (mo1 n).1 a
      rw [leg_of_mem hr, if_neg a2, leg_of_mem a1, mapOf, this]
      rfl
    · have z : (if n ∈ pairs.map Prod.fst then none else leg t1 n) = none := by
        split
        · rfl
        · rw [leg_eq_none]
          exact fun h => a ((mo1 n).2 ⟨h, by assumption⟩)
      rw [z, Option.none_or]
      by_cases b : n ∈ others t2.names (cs.map Prod.snd)
      · have hr : n ∈ r.names := by rw [e4]; exact List.mem_append_right _ b
        have := e5 n hr
        rw [if_neg a] at this
        obtain ⟨a1, a2⟩ := (mo2 n).1 b
        rw [leg_of_mem hr, if_neg a2, leg_of_mem a1, mapOf, this]
        rfl
      · have hr : n ∉ r.names := by rw [e4, List.mem_append]; tauto
        rw [leg_eq_none.2 hr]
        split
        · rfl
        · symm
          rw [leg_eq_none]
          exact fun h => b ((mo2 n).2 ⟨h, by assumption⟩)
  refine ⟨r, e1, ⟨e2, fun n => ?_⟩, hleg, fun x => ?_⟩
  · rw [legDim, hleg]
    split <;> split
    · simp
    · exact h2.pos n
    · rw [Option.or_none]; exact h1.pos n
    · rcases hd n (by assumption) (by assumption) with e | e
      · rw [e, Option.none_or]; exact h2.pos n
      · rw [e, Option.or_none]; exact h1.pos n
  · by_cases hv : ∀ n ∈ r.names, x n < legDim r n
    · have hel := e6 _ ((dense_valid e2).2 hv)
      rw [elem_val e2 fun n hn => hv n (leg_ne_none.1 hn), Option.some.injEq] at hel
      rw [hel]
      have := sumOver_eq_sumLegs (E := fun n => edgePositions (mapOf t1 n)) (dims := legDim t1)
        (fun x y => val t1 x * val t2 y) (fun n => ((0 : NoSymmetry), x n)) cs [] (by
          intro c hc
          rw [h1.map (hk c hc).2.1]
          simp [edgePositions]) (hp1.sublist (hsub.map _)) (hp2.sublist (hsub.map _))
          (fun n => (0, x n))
      refine Eq.trans this ?_
      refine sumLegs_filter (S := fun n => leg t1 n ≠ none) (T := fun n => leg t2 n ≠ none) ?_ _ pairs ?_
        x x
      · intro x x' y y' hx hy
        rw [val_congr hx, val_congr hy]
      · intro c hc hP
        have hP : ¬ (c.1 ∈ t1.names ∧ c.2 ∈ t2.names) := by simpa using hP
        have n1 : c.1 ∉ t1.names := fun h => hP ⟨h, (hmem c hc).1 h⟩
        have n2 : c.2 ∉ t2.names := fun h => hP ⟨(hmem c hc).2 h, h⟩
        refine ⟨?_, by simpa using leg_eq_none.2 n1, by simpa using leg_eq_none.2 n2⟩
        rw [legDim, leg_eq_none.2 n1]
        rfl
    · push Not at hv
      obtain ⟨n, hn, hx⟩ := hv
      rw [val_outside e2 (leg_ne_none.2 hn) hx]
      symm
      have hdim : legDim r n = (((if n ∈ pairs.map Prod.fst then none else leg t1 n).or
        (if n ∈ pairs.map Prod.snd then none else leg t2 n))).getD 1 := by rw [legDim, hleg]
      refine sumLegs_zero fun x' y' hx' hy' => ?_
      rw [e4, List.mem_append, mo1, mo2] at hn
      by_cases a : n ∈ t1.names ∧ n ∉ pairs.map Prod.fst
      · rw [if_neg a.2, leg_of_mem a.1] at hdim
        rw [val_outside h1.wf (leg_ne_none.2 a.1), zero_mul]
        rw [hx' n a.2, legDim_of_mem a.1]
        rw [hdim] at hx
        exact hx
      · have b := hn.resolve_left a
        have z : (if n ∈ pairs.map Prod.fst then none else leg t1 n) = none := by
          split
          · rfl
          · rw [leg_eq_none]
            exact fun h => a ⟨h, by assumption⟩
        rw [z, if_neg b.2, leg_of_mem b.1] at hdim
        rw [val_outside h2.wf (leg_ne_none.2 b.1), mul_zero]
        rw [hy' n b.2, legDim_of_mem b.1]
        rw [hdim] at hx
        exact hx

/-! ## Renaming -/

theorem find?_ofList {κ β : Type} [LinearOrder κ] {l : List (κ × β)} (h : (l.map Prod.fst).Nodup) (k : κ) :
    OMap.find? (OMap.ofList l) k = OMap.find? l k := by
  have key : ∀ (l m : List (κ × β)), (l.map Prod.fst).Nodup →
      OMap.find? (l.foldl (fun m e => OMap.set m e.1 e.2) m) k = (OMap.find? l k).or (OMap.find? m k) := by
    intro l
    induction l with
    | nil => intro m _; rfl
    | cons e l ih =>
      intro m h
      rw [List.map_cons, List.nodup_cons] at h
      rw [List.foldl_cons, ih _ h.2, OMap.find?_set, OMap.find?]
      by_cases he : k = e.1
      · rw [if_pos he, if_pos he]
        have : OMap.find? l k = none := OMap.find?_eq_none.2 (by rw [he]; exact h.1)
        rw [this]
        rfl
      · rw [if_neg he, if_neg he]
  have := key l [] h
  rw [OMap.ofList, this]
  exact Option.or_none

/-- Renaming some edges to names which the tensor does not have. -/
theorem dense_rename [Zero α] {t : Tensor ν NoSymmetry α} (h : Dense t) {d : List (ν × ν)}
    (h1 : (d.map Prod.fst).Nodup) (h2 : (d.map Prod.snd).Nodup)
    (hd : ∀ c ∈ d, leg t c.2 = none) :
    Dense (edgeRename t (OMap.ofList d)) ∧
      (∀ n, leg (edgeRename t (OMap.ofList d)) n =
        match d.find? fun c => decide (c.2 = n) with
        | some c => leg t c.1
        | none => if n ∈ d.map Prod.fst then none else leg t n) ∧
      ∀ x, val (edgeRename t (OMap.ofList d)) x = val t fun n => x ((OMap.find? d n).getD n) := by
  have hnew : ∀ n, newName (OMap.ofList d) n = (OMap.find? d n).getD n := by
    intro n
    rw [newName, find?_ofList h1]
  have hinj : ∀ a ∈ t.names, ∀ b ∈ t.names, newName (OMap.ofList d) a = newName (OMap.ofList d) b → a = b := by
    intro a ha b hb hab
    rw [hnew, hnew] at hab
    cases ea : OMap.find? d a with
    | none =>
      cases eb : OMap.find? d b with
      | none => rwa [ea, eb] at hab
      | some m =>
        rw [ea, eb] at hab
        have := hd _ (OMap.mem_of_find? eb)
        change a = m at hab
        subst hab
        exact absurd ha (leg_eq_none.1 this)
    | some m =>
      cases eb : OMap.find? d b with
      | none =>
        rw [ea, eb] at hab
        have := hd _ (OMap.mem_of_find? ea)
        change m = b at hab
        subst hab
        exact absurd hb (leg_eq_none.1 this)
      | some m' =>
        rw [ea, eb] at hab
        change m = m' at hab
        subst hab
        have := List.inj_on_of_nodup_map h2 (OMap.mem_of_find? ea) (OMap.mem_of_find? eb) rfl
        exact congrArg Prod.fst this
  obtain ⟨c1, -, -, c4, c5, c6⟩ := C23_rename h.wf (OMap.ofList d)
  have hnames := edgeRename_names t (OMap.ofList d)
  have hwf : WF (edgeRename t (OMap.ofList d)) := c6 (by
    rw [hnames]
    exact h.wf.nodup.map_on hinj)
  have hedge : ∀ n ∈ t.names, edgeOf (edgeRename t (OMap.ofList d)) (newName (OMap.ofList d) n) = edgeOf t n := by
    have e1 := edges_named hwf
    rw [c1, edges_named h.wf, hnames, List.map_map] at e1
    intro n hn
    exact (List.map_inj_left.1 e1 n hn).symm
  have hleg : ∀ n, leg (edgeRename t (OMap.ofList d)) n =
        match d.find? fun c => decide (c.2 = n) with
        | some c => leg t c.1
        | none => if n ∈ d.map Prod.fst then none else leg t n := by
    intro n
    have hold : ∀ m ∈ t.names, newName (OMap.ofList d) m = n →
        leg (edgeRename t (OMap.ofList d)) n = leg t m := by
      intro m hm he
      have : n ∈ (edgeRename t (OMap.ofList d)).names := by
        rw [hnames, ← he]
        exact List.mem_map_of_mem hm
      rw [leg_of_mem this, leg_of_mem hm, mapOf, ← he, hedge m hm]
      rfl
    have hnone : (∀ m ∈ t.names, newName (OMap.ofList d) m ≠ n) →
        leg (edgeRename t (OMap.ofList d)) n = none := by
      intro hm
      rw [leg_eq_none, hnames]
      intro hc
      obtain ⟨m, a, b⟩ := List.mem_map.1 hc
      exact hm m a b
    cases hf : d.find? fun c => decide (c.2 = n) with
    | some c =>
      have hc := List.mem_of_find?_eq_some hf
      have he : c.2 = n := by simpa using List.find?_some hf
      subst he
      have hfind : OMap.find? d c.1 = some c.2 := OMap.find?_of_mem h1 hc
      by_cases hm : c.1 ∈ t.names
      · exact hold c.1 hm (by rw [hnew, hfind]; rfl)
      · show _ = leg t c.1
        rw [leg_eq_none.2 hm]
        apply hnone
        intro m hm' he
        rw [hnew] at he
        cases e : OMap.find? d m with
        | none =>
          rw [e] at he
          change m = c.2 at he
          subst he
          exact leg_eq_none.1 (hd c hc) hm'
        | some m' =>
          rw [e] at he
          change m' = c.2 at he
          subst he
          have := congrArg Prod.fst (List.inj_on_of_nodup_map h2 (OMap.mem_of_find? e) hc rfl)
          exact hm (this ▸ hm')
    | none =>
      have hnd : n ∉ d.map Prod.snd := by
        intro hc
        obtain ⟨c, a, b⟩ := List.mem_map.1 hc
        have := List.find?_eq_none.1 hf c a
        simp [b] at this
      show _ = if n ∈ d.map Prod.fst then none else leg t n
      have hne : ∀ m m', OMap.find? d m = some m' → m' ≠ n := by
        rintro m m' e rfl
        exact hnd (List.mem_map.2 ⟨_, OMap.mem_of_find? e, rfl⟩)
      split
      · rename_i hc
        apply hnone
        intro m hm he
        rw [hnew] at he
        cases e : OMap.find? d m with
        | none =>
          rw [e] at he
          change m = n at he
          subst he
          exact OMap.find?_eq_none.1 e hc
        | some m' =>
          rw [e] at he
          exact hne _ _ e he
      · rename_i hc
        have e0 : OMap.find? d n = none := OMap.find?_eq_none.2 hc
        by_cases hm : n ∈ t.names
        · exact hold n hm (by rw [hnew, e0]; rfl)
        · rw [leg_eq_none.2 hm]
          apply hnone
          intro m hm' he
          rw [hnew] at he
          cases e : OMap.find? d m with
          | none =>
            rw [e] at he
            change m = n at he
            subst he
            exact hm hm'
          | some m' =>
            rw [e] at he
            exact hne _ _ e he
  refine ⟨⟨hwf, fun n => ?_⟩, hleg, fun x => ?_⟩
  · rw [legDim, hleg]
    split
    · exact h.pos _
    · split
      · simp
      · exact h.pos _
  · have hx : (fun n => x ((OMap.find? d n).getD n)) = fun n => x (newName (OMap.ofList d) n) := by
      funext n
      rw [hnew]
    rw [hx]
    by_cases hv : ValidPos (edgeRename t (OMap.ofList d)) (fun n => (0, x n))
    · have hv' := (c4 _).1 hv
      have := c5 fun n => (0, x n)
      rw [amp_valid hwf hv, amp_valid h.wf hv', Option.some.injEq] at this
      exact this
    · rw [val, amp_zero hwf hv, val, amp_zero h.wf]
      exact fun hv' => hv ((c4 _).2 hv')

end TAT
