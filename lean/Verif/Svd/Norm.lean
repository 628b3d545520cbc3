import Verif.Svd.Props

/-!
# The norm of a tensor and what a cut drops

C71.
-/

set_option linter.unusedSectionVars false

namespace TAT

variable {ν σ α β : Type} [LinearOrder ν] [TatSym σ]

/-! ## sums of products -/

theorem sumOver_append {β : Type} [AddCommMonoid α] (E : ν → List β) (F : (ν → β) → α)
    (ns ms : List ν) (w : ν → β) :
    sumOver E F (ns ++ ms) w = sumOver E (fun w => sumOver E F ms w) ns w := by
  induction ns generalizing w with
  | nil => rfl
  | cons n ns ih =>
    change ((E n).map fun x => sumOver E F (ns ++ ms) (Function.update w n x)).sum =
      ((E n).map fun x => sumOver E (fun w => sumOver E F ms w) ns (Function.update w n x)).sum
    congr 1
    exact List.map_congr_left fun x _ => ih _

theorem sumOver_edges {β : Type} [AddCommMonoid α] {E E' : ν → List β} (F : (ν → β) → α)
    {ns : List ν} (h : ∀ n ∈ ns, E n = E' n) (w : ν → β) :
    sumOver E F ns w = sumOver E' F ns w := by
  induction ns generalizing w with
  | nil => rfl
  | cons n ns ih =>
    change ((E n).map fun x => sumOver E F ns (Function.update w n x)).sum =
      ((E' n).map fun x => sumOver E' F ns (Function.update w n x)).sum
    rw [h n (by simp)]
    congr 1
    exact List.map_congr_left fun x _ => ih (fun m hm => h m (List.mem_cons_of_mem _ hm)) _

theorem sumOver_list {β X : Type} [AddCommMonoid α] (E : ν → List β) (F : X → (ν → β) → α)
    (xs : List X) (ns : List ν) (w : ν → β) :
    sumOver E (fun w => (xs.map fun x => F x w).sum) ns w =
      (xs.map fun x => sumOver E (F x) ns w).sum := by
  induction ns generalizing w with
  | nil => rfl
  | cons n ns ih =>
    change ((E n).map fun y => sumOver E _ ns (Function.update w n y)).sum =
      (xs.map fun x => ((E n).map fun y => sumOver E (F x) ns (Function.update w n y)).sum).sum
    simp only [ih]
    clear ih
    generalize E n = l
    induction xs with
    | nil => simp
    | cons x xs ihx => simp only [List.map_cons, List.sum_cons, List.sum_map_add, ihx]

theorem sum_delta {X : Type} [DecidableEq X] [CommRing α] {xs : List X} (hn : xs.Nodup) (g : X → α)
    {x : X} (hx : x ∈ xs) :
    (xs.map fun y => g y * (if x = y then (1 : α) else 0)).sum = g x := by
  induction xs with
  | nil => simp at hx
  | cons z xs ih =>
    rw [List.nodup_cons] at hn
    rw [List.map_cons, List.sum_cons]
    by_cases hxz : x = z
    · subst hxz
      rw [if_pos rfl, mul_one, List.sum_eq_zero, add_zero]
      intro y hy
      obtain ⟨y', hy', rfl⟩ := List.mem_map.1 hy
      rw [if_neg (fun hc : x = y' => hn.1 (hc ▸ hy')), mul_zero]
    · rw [if_neg hxz, mul_zero, zero_add]
      rcases List.mem_cons.1 hx with h | h
      · exact absurd h hxz
      · exact ih hn.2 h

/-- The square of the norm of a sum of products of orthonormal factors. -/
theorem norm_of_products {β X : Type} [DecidableEq X] [CommRing α] (conj : α →+* α)
    {E : ν → List β} {G1 G2 : List ν} (hn : (G1 ++ G2).Nodup) {xs : List X} (hx : xs.Nodup)
    {A B : X → (ν → β) → α} (g : X → α)
    (hA : ∀ x w w', (∀ n ∈ G1, w n = w' n) → A x w = A x w')
    (oA : ∀ x ∈ xs, ∀ y ∈ xs, ∀ w0, sumOver E (fun w => conj (A x w) * A y w) G1 w0 =
      if x = y then 1 else 0)
    (oB : ∀ x ∈ xs, ∀ y ∈ xs, ∀ w0, sumOver E (fun w => conj (B x w) * B y w) G2 w0 =
      if x = y then 1 else 0) (w0 : ν → β) :
    sumOver E (fun p => conj ((xs.map fun x => A x p * g x * B x p).sum) *
      (xs.map fun x => A x p * g x * B x p).sum) (G1 ++ G2) w0 =
    (xs.map fun x => conj (g x) * g x).sum := by
  have hn' := List.nodup_append.1 hn
  have h1 : ∀ p : ν → β, conj ((xs.map fun x => A x p * g x * B x p).sum) *
      (xs.map fun x => A x p * g x * B x p).sum =
      (xs.map fun x => (xs.map fun y => (conj (g x) * g y) * ((conj (A x p) * A y p) *
        (conj (B x p) * B y p))).sum).sum := by
    intro p
    rw [map_list_sum, List.map_map, ← List.sum_map_mul_right]
    congr 1
    refine List.map_congr_left fun x _ => ?_
    rw [← List.sum_map_mul_left]
    congr 1
    refine List.map_congr_left fun y _ => ?_
    simp only [Function.comp_apply, map_mul]
    ring
  simp only [h1]
  rw [sumOver_list]
  congr 1
  refine List.map_congr_left fun x hx' => ?_
  rw [sumOver_list]
  rw [← sum_delta hx (fun y => conj (g x) * g y) hx']
  congr 1
  refine List.map_congr_left fun y hy => ?_
  rw [← sumOver_mul_left, sumOver_append]
  congr 1
  by_cases hxy : x = y
  · subst hxy
    rw [if_pos rfl, ← if_pos (c := x = x) (t := (1 : α)) (e := 0) rfl, ← oA x hx' x hx' w0]
    refine sumOver_congr hn'.1 fun w _ _ => ?_
    rw [← mul_one (conj (A x w) * A x w), ← if_pos (c := x = x) (t := (1 : α)) (e := 0) rfl,
      ← oB x hx' x hx' w, sumOver_mul_left]
    refine sumOver_congr hn'.2.1 fun w' _ hw' => ?_
    have : ∀ n ∈ G1, w' n = w n := fun n h => hw' n fun h' => hn'.2.2 n h n h' rfl
    rw [hA x w' w this]
  · rw [if_neg hxy]
    refine sumOver_zero hn'.1 fun w _ _ => ?_
    rw [sumOver_congr (F' := fun w' => (conj (A x w) * A y w) * (conj (B x w') * B y w')) hn'.2.1
      fun w' _ hw' => ?_]
    · rw [← sumOver_mul_left, oB x hx' y hy w, if_neg hxy, mul_zero]
    · have : ∀ n ∈ G1, w' n = w n := fun n h => hw' n fun h' => hn'.2.2 n h n h' rfl
      rw [hA x w' w this, hA y w' w this]

/-! ## sums over the common edge -/

theorem amp_local [Zero α] {t : Tensor ν σ α} {p q : ν → σ × ℕ} (h : ∀ n ∈ t.names, p n = q n) :
    amp t p = amp t q := by
  have h1 : keyOf t.names p = keyOf t.names q := List.map_congr_left fun n hn => by rw [h n hn]
  have h2 : idxOf t.names p = idxOf t.names q := List.map_congr_left fun n hn => by rw [h n hn]
  have h3 : elem t p = elem t q := by rw [elem, elem, h1, h2]
  unfold amp
  rw [h1, h3]
  congr 1
  refine propext (and_congr_left fun _ => forall₂_congr fun x hx => ?_)
  rw [h x.1 (List.of_mem_zip hx).1]

theorem sum_edgePositions [AddCommMonoid α] (m : List (σ × ℕ)) (h : σ × ℕ → α) :
    ((edgePositions m).map h).sum =
      (m.map fun e => ((List.range e.2).map fun l => h (e.1, l)).sum).sum := by
  unfold edgePositions
  rw [List.map_flatMap, List.flatMap_def, List.sum_flatten, List.map_map]
  congr 1
  refine List.map_congr_left fun e _ => ?_
  simp [Function.comp_def]

theorem sum_sector [AddCommMonoid α] {m : List (σ × ℕ)} (hm : OMap.Sorted m) (h : σ × ℕ → α) (s : σ) :
    ((edgePositions m).map fun x => if x.1 = s then h x else 0).sum =
      ((List.range (dimM m s)).map fun l => h (s, l)).sum := by
  rw [sum_edgePositions]
  have hn := hm.nodup
  clear hm
  induction m with
  | nil => simp [dimM, OMap.find?]
  | cons e m ih =>
    rw [OMap.keys_cons, List.nodup_cons] at hn
    rw [List.map_cons, List.sum_cons, ih hn.2]
    unfold dimM
    by_cases he : e.1 = s
    · subst he
      rw [OMap.find?_eq_none.2 hn.1]
      simp [OMap.find?]
    · simp [OMap.find?, he, Ne.symm he]

theorem sum_range_tail [AddCommGroup α] (f : ℕ → α) {d' d : ℕ} (h : d' ≤ d) :
    ((List.range d).map f).sum - ((List.range d').map f).sum =
      ((List.range d).map fun l => if l < d' then 0 else f l).sum := by
  obtain ⟨k, rfl⟩ := Nat.exists_eq_add_of_le h
  rw [List.range_add, List.map_append, List.map_append, List.sum_append, List.sum_append,
    add_sub_cancel_left]
  have : ((List.range d').map fun l => if l < d' then 0 else f l).sum = 0 := by
    apply List.sum_eq_zero
    intro y hy
    obtain ⟨l, hl, rfl⟩ := List.mem_map.1 hy
    rw [if_pos (List.mem_range.1 hl)]
  rw [this, zero_add, List.map_map, List.map_map]
  congr 1
  refine List.map_congr_left fun l _ => ?_
  simp

theorem sum_drop [AddCommMonoid α] [Zero β] (f : β → α) (l : List β) (k : ℕ) :
    ((List.range l.length).map fun i => if i < k then 0 else f (l.getD i 0)).sum =
      ((l.drop k).map f).sum := by
  induction l generalizing k with
  | nil => simp
  | cons x l ih =>
    rw [List.length_cons, List.range_succ_eq_map, List.map_cons, List.sum_cons, List.map_map]
    cases k with
    | zero =>
      have := ih 0
      simp only [Nat.not_lt_zero, if_false, List.drop_zero] at this
      simp only [Function.comp_def, Nat.succ_eq_add_one, Nat.not_lt_zero, if_false,
        List.getD_cons_succ, List.getD_cons_zero, List.drop_zero, List.map_cons, List.sum_cons, this]
    | succ k =>
      have := ih k
      simp only [Function.comp_def, Nat.succ_eq_add_one, Nat.add_lt_add_iff_right, List.getD_cons_succ,
        Nat.zero_lt_succ, if_true, zero_add, List.drop_succ_cons]
      exact this

/-! ## the norm -/

section
variable [CommRing α] [Zero β] {c : β → α} {t u v : Tensor ν σ α} {GU GV : List ν} {cU cV : ν}
  {S : List (σ × List β)} {DU DV : List (σ × ℕ)} {aU aV : (ν → σ × ℕ) → α} {conj : α →+* α}

/-- The singular value at a position of the common edge. -/
def singularAt (c : β → α) (S : List (σ × List β)) (x : σ × ℕ) : α :=
  c (((OMap.find? S x.1).getD []).getD x.2 0)

theorem SvdParts.full (sp : SvdParts c t GU GV cU cV S DU DV aU aV) (hp : t.names.Perm (GU ++ GV)) :
    (∀ p, KeyOk (mapOf t) t.names p → -(keyOf GU p).sum ∈ OMap.keys DU) ∧
    ∀ p, KeyOk (mapOf t) t.names p → -(keyOf GV p).sum ∈ OMap.keys DV := by
  have hfull : ∀ p, KeyOk (mapOf t) t.names p → -(keyOf GU p).sum ∈ OMap.keys DU := fun p hk => by
    rw [sp.sectors]
    refine ⟨p, hk, ?_⟩
    have := hk.2
    rw [sum_split hp] at this
    exact (neg_eq_of_add_eq_zero_right this).symm
  refine ⟨hfull, fun p hk => ?_⟩
  have h1 := hfull p hk
  have := hk.2
  rw [sum_split hp] at this
  rw [← OMap.find?_isSome, sp.opposite, OMap.find?_isSome] at h1
  rwa [← eq_neg_of_add_eq_zero_left this, ← neg_neg (keyOf GU p).sum]

/-- What some of the singular values make up is a sum of products. -/
theorem SvdParts.products (sp : SvdParts c t GU GV cU cV S DU DV aU aV) (ht : WF t)
    (hp : t.names.Perm (GU ++ GV)) (hu : HalfOf t GU cU true DU true u aU)
    (hv : HalfOf t GV cV false DV false v aV) (g : σ × ℕ → α) (f : (ν → σ × ℕ) → α)
    (hf : ∀ p, ValidPos t p → f p = ((List.range (dimM DU (-(keyOf GU p).sum))).map fun l =>
      (aU (Function.update p cU (-(keyOf GU p).sum, l)) * g (-(keyOf GU p).sum, l)) *
      aV (Function.update p cV ((keyOf GU p).sum, l))).sum)
    (hf0 : ∀ p, ¬ ValidPos t p → f p = 0) {p : ν → σ × ℕ}
    (hpos : ∀ n ∈ GU ++ GV, p n ∈ edgePositions (mapOf t n)) :
    f p = ((edgePositions DU).map fun x => amp u (Function.update p cU x) * g x *
        amp v (Function.update p cV (-x.1, x.2))).sum := by
  have hin : ∀ n ∈ t.names, (p n).2 < dimM (mapOf t n) (p n).1 := fun n hn =>
    (mem_edgePositions (mapOf_sorted ht n hn)).1 (hpos n (hp.mem_iff.1 hn))
  have hdim : ∀ s, dimM DV (-s) = dimM DU s := fun s => by unfold dimM; rw [sp.opposite]
  have e1 : ∀ x ∈ edgePositions DU, amp u (Function.update p cU x) =
      if (keyOf GU p).sum = -x.1 then aU (Function.update p cU x) else 0 := fun x hx =>
    hu.amp_update ht (fun n hn => hin n (hu.sub n hn)) ((mem_edgePositions sp.sortedU).1 hx)
  have e2 : ∀ x ∈ edgePositions DU, amp v (Function.update p cV (-x.1, x.2)) =
      if (keyOf GV p).sum = x.1 then aV (Function.update p cV (-x.1, x.2)) else 0 := fun x hx => by
    rw [hv.amp_update ht (fun n hn => hin n (hv.sub n hn)), neg_neg]
    rw [hdim]
    exact (mem_edgePositions sp.sortedU).1 hx
  by_cases hvp : ValidPos t p
  · have hs : (keyOf GU p).sum + (keyOf GV p).sum = 0 := by
      rw [← sum_split hp]; exact hvp.2
    rw [hf p hvp]
    have := sum_sector sp.sortedU (fun x => aU (Function.update p cU x) * g x *
      aV (Function.update p cV (-x.1, x.2))) (-(keyOf GU p).sum)
    simp only [neg_neg] at this
    rw [← this]
    congr 1
    refine List.map_congr_left fun x hx => ?_
    rw [e1 x hx, e2 x hx]
    by_cases hxs : x.1 = -(keyOf GU p).sum
    · rw [if_pos hxs, if_pos (by rw [hxs, neg_neg]),
        if_pos (by rw [hxs]; exact (neg_eq_of_add_eq_zero_right hs).symm)]
    · rw [if_neg hxs, if_neg fun hc => hxs (by rw [hc, neg_neg]), zero_mul, zero_mul]
  · rw [hf0 p hvp, List.sum_eq_zero]
    intro y hy
    obtain ⟨x, hx, rfl⟩ := List.mem_map.1 hy
    rw [e1 x hx, e2 x hx]
    by_cases h1 : (keyOf GU p).sum = -x.1
    · rw [if_neg (c := (keyOf GV p).sum = x.1), mul_zero]
      intro h2
      refine hvp ((validPos_iff ht).2 ⟨hin, ?_⟩)
      rw [sum_split hp, h1, h2, neg_add_cancel]
    · rw [if_neg h1, zero_mul, zero_mul]

/-- An element of a factor at a position of its common edge depends on its other edges. -/
theorem HalfOf.amp_local {G : List ν} {n : ν} {left arrow : Bool} {D : List (σ × ℕ)}
    {A : Tensor ν σ α} {a : (ν → σ × ℕ) → α} (h : HalfOf t G n left D arrow A a) (x : σ × ℕ)
    {w w' : ν → σ × ℕ} (hw : ∀ m ∈ G, w m = w' m) :
    amp A (Function.update w n x) = amp A (Function.update w' n x) := by
  refine TAT.amp_local fun m hm => ?_
  rcases List.mem_append.1 (h.perm.mem_iff.1 hm) with hm | hm
  · rw [Function.update_of_ne (h.ne hm), Function.update_of_ne (h.ne hm), hw m hm]
  · rw [List.mem_singleton] at hm
    subst hm
    rw [Function.update_self, Function.update_self]

/-- The factors are orthonormal. -/
theorem SvdParts.ortho (sp : SvdParts c t GU GV cU cV S DU DV aU aV) (ht : WF t)
    (hp : t.names.Perm (GU ++ GV)) (hu : HalfOf t GU cU true DU true u aU)
    (hv : HalfOf t GV cV false DV false v aV) (oU : CellsOrtho conj t GU cU DU aU)
    (oV : CellsOrtho conj t GV cV DV aV) {x y : σ × ℕ} (hx : x ∈ edgePositions DU)
    (hy : y ∈ edgePositions DU) (w0 : ν → σ × ℕ) :
    sumOver (fun n => edgePositions (mapOf t n)) (fun w => conj (amp u (Function.update w cU x)) *
      amp u (Function.update w cU y)) GU w0 = (if x = y then 1 else 0) ∧
    sumOver (fun n => edgePositions (mapOf t n))
      (fun w => conj (amp v (Function.update w cV (-x.1, x.2))) *
        amp v (Function.update w cV (-y.1, y.2))) GV w0 = if x = y then 1 else 0 := by
  have mU := hu.maps ht (sp.full hp).1
  have mV := hv.maps ht (sp.full hp).2
  have iU := hu.isometry ht oU fun _ => le_refl _
  have iV := hv.isometry ht oV fun _ => le_refl _
  have hdim : ∀ s, dimM DV (-s) = dimM DU s := fun s => by unfold dimM; rw [sp.opposite]
  constructor
  · rw [← iU x (by rw [(hu.view ht).2.1]; exact hx) y (by rw [(hu.view ht).2.1]; exact hy) w0]
    exact sumOver_edges _ (fun n hn => by rw [mU n hn]) w0
  · have hpair : x = y ↔ (-x.1, x.2) = (-y.1, y.2) := by
      rw [Prod.ext_iff, Prod.ext_iff]
      simp only [neg_inj]
    have hmem : ∀ z ∈ edgePositions DU, (-z.1, z.2) ∈ edgePositions (mapOf v cV) := fun z hz => by
      rw [(hv.view ht).2.1, mem_edgePositions sp.sortedV]
      dsimp only
      rw [hdim]
      exact (mem_edgePositions sp.sortedU).1 hz
    simp only [hpair]
    rw [← iV _ (hmem x hx) _ (hmem y hy) w0]
    exact sumOver_edges _ (fun n hn => by rw [mV n hn]) w0

/-- The norm of what some of the singular values make up. -/
theorem SvdParts.norm (sp : SvdParts c t GU GV cU cV S DU DV aU aV) (ht : WF t)
    (hp : t.names.Perm (GU ++ GV)) (hu : HalfOf t GU cU true DU true u aU)
    (hv : HalfOf t GV cV false DV false v aV) (oU : CellsOrtho conj t GU cU DU aU)
    (oV : CellsOrtho conj t GV cV DV aV) (g : σ × ℕ → α) (f : (ν → σ × ℕ) → α)
    (hf : ∀ p, ValidPos t p → f p = ((List.range (dimM DU (-(keyOf GU p).sum))).map fun l =>
      (aU (Function.update p cU (-(keyOf GU p).sum, l)) * g (-(keyOf GU p).sum, l)) *
      aV (Function.update p cV ((keyOf GU p).sum, l))).sum)
    (hf0 : ∀ p, ¬ ValidPos t p → f p = 0) (w0 : ν → σ × ℕ) :
    sumOver (fun n => edgePositions (mapOf t n)) (fun p => conj (f p) * f p) t.names w0 =
      ((edgePositions DU).map fun x => conj (g x) * g x).sum := by
  have hnd : (GU ++ GV).Nodup := hp.nodup_iff.1 ht.nodup
  rw [sumOver_perm ht.nodup (fun n hn => edgePositions_nodup (mapOf_sorted ht n hn)) hp,
    ← norm_of_products conj (E := fun n => edgePositions (mapOf t n)) hnd
      (edgePositions_nodup sp.sortedU) (A := fun x w => amp u (Function.update w cU x))
      (B := fun x w => amp v (Function.update w cV (-x.1, x.2))) g
      (fun x w w' h => hu.amp_local x h)
      (fun x hx y hy w => (sp.ortho ht hp hu hv oU oV hx hy w).1)
      (fun x hx y hy w => (sp.ortho ht hp hu hv oU oV hx hy w).2) w0]
  refine sumOver_congr hnd fun p hpos _ => ?_
  rw [sp.products ht hp hu hv g f hf hf0 hpos]

/-- A table and the edge with as many dimensions as it has values. -/
theorem table_map {S : List (σ × List β)} {D : List (σ × ℕ)} (hS : OMap.Sorted S)
    (hD : OMap.Sorted D) (h : ∀ s, OMap.find? D s = (OMap.find? S s).map List.length) :
    D = S.map fun e => (e.1, e.2.length) := by
  refine OMap.ext hD ?_ fun s => ?_
  · unfold OMap.Sorted at hS ⊢
    rwa [List.map_map]
  · rw [h s]
    clear h hS
    induction S with
    | nil => rfl
    | cons e l ih =>
      rw [List.map_cons]
      simp only [OMap.find?]
      split
      · rfl
      · exact ih

/-- The sum over the common edge is one over the singular values. -/
theorem SvdParts.sum_values (sp : SvdParts c t GU GV cU cV S DU DV aU aV) (k : σ → ℕ) (h : β → α) :
    ((edgePositions DU).map fun x => if x.2 < k x.1 then 0 else
      h (((OMap.find? S x.1).getD []).getD x.2 0)).sum =
    (S.map fun e => ((e.2.drop (k e.1)).map h).sum).sum := by
  have hm := table_map sp.sortedS sp.sortedU fun s => (sp.table s).symm
  rw [sum_edgePositions, hm, List.map_map]
  congr 1
  refine List.map_congr_left fun e he => ?_
  simp only [Function.comp_apply]
  rw [OMap.find?_of_mem sp.sortedS.nodup he]
  exact sum_drop h e.2 (k e.1)

end

section
variable [CommRing α] [LinearOrder β] [Zero β] {c : β → α} {gesvd : Gesvd α β} {conj : α →+* α}

/-- The square of the norm of a tensor: the sum over all of its elements. -/
def normSq (conj : α →+* α) (E : ν → List (σ × ℕ)) (f : (ν → σ × ℕ) → α) (names : List ν) : α :=
  sumOver E (fun p => conj (f p) * f p) names fun _ => (0, 0)

/-- **C71.** The sum of the squares of all elements of a tensor is the sum of the squares of all
singular values. -/
theorem C71_norm (hsvd : GesvdOk c gesvd) (ho : GesvdOrtho conj gesvd) (env : DecompEnv σ α)
    (junk : ℕ → α) {sn : SvdNames ν} (hx : sn.u ≠ sn.v) {t : Tensor ν σ α} (ht : WF t) (set : List ν)
    {commonU commonV : ν} (hU1 : sn.u ≠ commonU) (hV1 : sn.v ≠ commonV)
    (hU : commonU ∉ t.names.filter fun n => decide (n ∈ set))
    (hV : commonV ∉ t.names.filter fun n => !decide (n ∈ set)) {u v : Tensor ν σ α}
    {S : List (σ × List β)}
    (h : svd gesvd env junk sn t set commonU commonV (2 ^ 64 - 1) = .ok (u, S, v)) :
    normSq conj (fun n => edgePositions (mapOf t n)) (amp t) t.names =
      (S.map fun e => (e.2.map fun x => conj (c x) * c x).sum).sum := by
  obtain ⟨S0, DU, DV, aU, aV, sp, so, _, hs⟩ := svd_spec_ortho hsvd env junk hx ht set hU1 hV1 hU hV
  obtain ⟨oU, oV⟩ := so conj ho
  obtain ⟨u1, v1, e1, hu, hv⟩ := (hs (2 ^ 64 - 1)).1 _ (C34_no_cut S0 (Or.inl rfl))
  rw [h] at e1
  obtain ⟨rfl, rfl, rfl⟩ : u = u1 ∧ S = S0 ∧ v = v1 := by cases e1; exact ⟨rfl, rfl, rfl⟩
  rw [cutMap_nil sp.sortedU] at hu
  rw [cutMap_nil sp.sortedV] at hv
  have hp : t.names.Perm ((t.names.filter fun n => decide (n ∈ set)) ++
      (t.names.filter fun n => !decide (n ∈ set))) :=
    (filter_perm _ _).trans List.perm_append_comm
  have hsq : ∀ p : ν → σ × ℕ, conj (amp t p) * amp t p =
      conj (applySign (orderSign t.names (t.names.filter (fun n => decide (n ∈ set)) ++
        t.names.filter fun n => !decide (n ∈ set)) p) (amp t p)) *
      applySign (orderSign t.names (t.names.filter (fun n => decide (n ∈ set)) ++
        t.names.filter fun n => !decide (n ∈ set)) p) (amp t p) := by
    intro p
    unfold applySign
    split
    · rw [map_neg, neg_mul_neg]
    · rfl
  unfold normSq
  simp only [hsq]
  rw [sp.norm ht hp hu hv oU oV (singularAt c S) _ (fun p hv => (sp.value p hv).symm) (fun p hv => by
    rw [amp_zero ht hv]; simp [applySign])]
  have := sp.sum_values (fun _ => 0) fun x => conj (c x) * c x
  simpa [singularAt] using this

/-- **C71.** With a cut, the square of the distance between the tensor and what is left of it is the
sum of the squares of the singular values dropped. -/
theorem C71_cut (hsvd : GesvdOk c gesvd) (ho : GesvdOrtho conj gesvd) (env : DecompEnv σ α)
    (junk : ℕ → α) {sn : SvdNames ν} (hx : sn.u ≠ sn.v) {t : Tensor ν σ α} (ht : WF t) (set : List ν)
    {commonU commonV : ν} (hU1 : sn.u ≠ commonU) (hV1 : sn.v ≠ commonV)
    (hU : commonU ∉ t.names.filter fun n => decide (n ∈ set))
    (hV : commonV ∉ t.names.filter fun n => !decide (n ∈ set)) {u0 v0 : Tensor ν σ α}
    {S : List (σ × List β)}
    (h0 : svd gesvd env junk sn t set commonU commonV (2 ^ 64 - 1) = .ok (u0, S, v0)) {cut : ℕ}
    (hdesc : ∀ e ∈ S, e.2.Pairwise (· ≥ ·)) (hlt : cut < (S.map fun e => e.2.length).sum)
    (hpos : cut ≤ (S.map fun e => (e.2.filter fun x => decide (0 < x)).length).sum)
    (hc : cut ≠ 2 ^ 64 - 1) (hcut : 0 < cut) :
    ∃ u S' v, svd gesvd env junk sn t set commonU commonV cut = .ok (u, S', v) ∧
      ∀ (ce : ContractEnv σ α) (cn : ContractNames ν) (junk' : List σ → ℕ → α) (inv : β → β),
      GemmOk ce.gemm → [cn.c0, cn.c1, cn.c2].Nodup → ∃ w r,
      multiple junk' (fun x y => x * c y) inv u S' commonU 'u' false = .ok w ∧
      contract ce cn w v [(commonU, commonV)] = .ok r ∧ r.names = (t.names.filter
        fun n => decide (n ∈ set)) ++ (t.names.filter fun n => !decide (n ∈ set)) ∧
      normSq conj (fun n => edgePositions (mapOf t n))
        (fun p => applySign (orderSign t.names r.names p) (amp t p) - amp r p) t.names =
      (S.map fun e => ((e.2.drop ((OMap.find? S' e.1).getD []).length).map
        fun x => conj (c x) * c x).sum).sum := by
  obtain ⟨S0, DU, DV, aU, aV, sp, so, _, hs⟩ := svd_spec_ortho hsvd env junk hx ht set hU1 hV1 hU hV
  obtain ⟨oU, oV⟩ := so conj ho
  obtain ⟨u1, v1, e1, hu0, hv0⟩ := (hs (2 ^ 64 - 1)).1 _ (C34_no_cut S0 (Or.inl rfl))
  rw [h0] at e1
  obtain ⟨rfl, rfl, rfl⟩ : u0 = u1 ∧ S = S0 ∧ v0 = v1 := by cases e1; exact ⟨rfl, rfl, rfl⟩
  rw [cutMap_nil sp.sortedU] at hu0
  rw [cutMap_nil sp.sortedV] at hv0
  have hp : t.names.Perm ((t.names.filter fun n => decide (n ∈ set)) ++
      (t.names.filter fun n => !decide (n ∈ set))) :=
    (filter_perm _ _).trans List.perm_append_comm
  obtain ⟨S', ru, rv, p1, p2, p3, p4, p5, hU', hV'⟩ := sp.cut hdesc hlt hpos hc
  obtain ⟨u, v, e2, hu, hv⟩ := (hs cut).1 _ p1
  dsimp only at e2 hu hv
  refine ⟨u, S', v, e2, fun ce cn junk' inv hg hcn => ?_⟩
  have hle : ∀ s, dimM (cutMap ru DU) s ≤ dimM DU s := cutMap_le _ sp.sortedU
  have hlen : ∀ s, dimM (cutMap ru DU) s = ((OMap.find? S' s).getD []).length := fun s => by
    unfold dimM
    rw [hU']
    cases OMap.find? S' s <;> rfl
  have hfit : TableFits S' 'u' (cutMap ru DU) := fun s hs => by
    rw [← OMap.find?_isSome, hU', Option.isSome_map] at hs
    obtain ⟨l, hl⟩ := Option.isSome_iff_exists.1 hs
    have : tableSym 'u' s = s := if_neg (by decide)
    exact ⟨l, by rw [this, hl], by rw [hlen, hl]; rfl⟩
  obtain ⟨w, w1, hw⟩ := hu.multiple ht c junk' inv (direction := 'u') (by simp [IsDirection]) hfit
  have hne : cutMap ru DU ≠ [] := fun hc => by
    cases hS' : S' with
    | nil => rw [hS'] at p3; simp at p3; omega
    | cons e l =>
      have := hU' e.1
      rw [hc, hS'] at this
      simp [OMap.find?] at this
  obtain ⟨r, r1, r2, r3, -, -, -, r4, r5⟩ := join_spec ce hg hcn ht hw hv hp
    (fun s => by rw [hU', hV', neg_neg]) hne
  refine ⟨w, r, w1, r1, r2, ?_⟩
  unfold normSq
  rw [r2, sp.norm ht hp hu0 hv0 oU oV
    (fun x => if x.2 < ((OMap.find? S' x.1).getD []).length then 0 else singularAt c S x) _
    (fun p hvp => ?_) (fun p hvp => ?_)]
  · have := sp.sum_values (fun s => ((OMap.find? S' s).getD []).length) fun x => conj (c x) * c x
    rw [← this]
    congr 1
    refine List.map_congr_left fun x _ => ?_
    split
    · rw [mul_zero]
    · rfl
  · rw [← sp.value p hvp, r5 p hvp]
    have htab : ∀ s, ∀ l < dimM (cutMap ru DU) s, (tableAt S' 'u' (s, l)).getD 0 =
        ((OMap.find? S s).getD []).getD l 0 := by
      intro s l hl
      have : tableSym 'u' s = s := if_neg (by decide)
      unfold tableAt
      rw [this]
      rw [hlen] at hl
      cases hf : OMap.find? S' s with
      | none => rw [hf] at hl; simp at hl
      | some x =>
        rw [hf] at hl
        obtain ⟨-, y, hy, z, rfl⟩ := p4 _ (OMap.mem_of_find? hf)
        rw [OMap.find?_of_mem sp.sortedS.nodup hy]
        have hl' : l < x.length := hl
        simp [List.getD_eq_getElem?_getD, List.getElem?_append_left hl']
    rw [List.map_congr_left (l := List.range (dimM (cutMap ru DU) _)) (g := fun l =>
      aU (Function.update p commonU (-(keyOf (t.names.filter fun n => decide (n ∈ set)) p).sum, l)) *
        singularAt c S (-(keyOf (t.names.filter fun n => decide (n ∈ set)) p).sum, l) *
      aV (Function.update p commonV ((keyOf (t.names.filter fun n => decide (n ∈ set)) p).sum, l)))
      fun l hl => by
        simp only [Function.update_self]
        rw [htab _ l (List.mem_range.1 hl)]
        rfl]
    refine (sum_range_tail _ (hle _)).trans ?_
    congr 1
    refine List.map_congr_left fun l _ => ?_
    dsimp only
    rw [hlen]
    split
    · rw [mul_zero, zero_mul]
    · rfl
  · rw [amp_zero ht hvp, amp_zero r3 fun hc => hvp (r4 p hc)]
    simp [applySign]

end

end TAT
