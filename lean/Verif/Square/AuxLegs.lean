import Verif.Square.AuxModel
import Mathlib.Data.Fintype.Prod

/-!
# Tensors whose names come from a fixed set

`ι` embeds a type of labels into the names.  The value of a tensor all of whose names are labels is a
function of one index for each label.
-/

namespace TAT

set_option linter.unusedSectionVars false

variable {ν α β G : Type} [LinearOrder ν] [DecidableEq G] {ι : G → ν}

/-- The dimension of the edge with a label. -/
def gleg (ι : G → ν) (t : Tensor ν NoSymmetry α) (g : G) : Option ℕ := leg t (ι g)

/-- The element at the given indices. -/
noncomputable def gval [Zero α] (ι : G → ν) (t : Tensor ν NoSymmetry α) (f : G → ℕ) : α :=
  val t (Function.extend ι f fun _ => 0)

/-- All names are labels and the edges have the dimensions given by `T`. -/
structure HasLegs (ι : G → ν) (t : Tensor ν NoSymmetry α) (T : G → Option ℕ) : Prop where
  dense : Dense t
  only : ∀ n, leg t n ≠ none → ∃ g, n = ι g
  legs : ∀ g, gleg ι t g = T g

theorem extend_update (hι : Function.Injective ι) (f : G → ℕ) (g : G) (k : ℕ) :
    Function.update (Function.extend ι f fun _ => 0) (ι g) k =
      Function.extend ι (Function.update f g k) fun _ => 0 := by
  funext n
  by_cases h : ∃ g', ι g' = n
  · obtain ⟨g', rfl⟩ := h
    rw [hι.extend_apply]
    by_cases hg : g' = g
    · subst hg
      simp
    · rw [Function.update_of_ne (hι.ne hg), Function.update_of_ne hg, hι.extend_apply]
  · rw [Function.extend_apply' _ _ _ h, Function.update_of_ne, Function.extend_apply' _ _ _ h]
    rintro rfl
    exact h ⟨g, rfl⟩

theorem gval_congr [Zero α] (hι : Function.Injective ι) {t : Tensor ν NoSymmetry α} {T : G → Option ℕ}
    (h : HasLegs ι t T) {f f' : G → ℕ} (hf : ∀ g, T g ≠ none → f g = f' g) : gval ι t f = gval ι t f' := by
  refine val_congr fun n hn => ?_
  obtain ⟨g, rfl⟩ := h.only n hn
  rw [hι.extend_apply, hι.extend_apply]
  exact hf g (by rw [← h.legs g]; exact hn)

theorem val_eq_gval [Zero α] (hι : Function.Injective ι) {t : Tensor ν NoSymmetry α} {T : G → Option ℕ}
    (h : HasLegs ι t T) (x : ν → ℕ) : val t x = gval ι t fun g => x (ι g) := by
  refine val_congr fun n hn => ?_
  obtain ⟨g, rfl⟩ := h.only n hn
  rw [hι.extend_apply]

/-- Sum over the indices of contracted pairs. -/
def sumPairs [AddCommMonoid α] (dims : G → ℕ) (F : (G → ℕ) → (G → ℕ) → α) :
    List (G × G) → (G → ℕ) → (G → ℕ) → α
  | [], x, y => F x y
  | c :: cs, x, y => ∑ k ∈ Finset.range (dims c.1),
      sumPairs dims F cs (Function.update x c.1 k) (Function.update y c.2 k)

theorem sumLegs_labels [CommRing α] (hι : Function.Injective ι) (t1 t2 : Tensor ν NoSymmetry α)
    (pairs : List (G × G)) (x y : G → ℕ) :
    sumLegs (legDim t1) (fun x y => val t1 x * val t2 y) (pairs.map fun p => (ι p.1, ι p.2))
      (Function.extend ι x fun _ => 0) (Function.extend ι y fun _ => 0) =
    sumPairs (fun g => (gleg ι t1 g).getD 1) (fun x y => gval ι t1 x * gval ι t2 y) pairs x y := by
  induction pairs generalizing x y with
  | nil => rfl
  | cons c cs ih =>
    rw [List.map_cons, sumLegs, sumPairs]
    refine Finset.sum_congr rfl fun k _ => ?_
    rw [extend_update hι, extend_update hι, ih]

theorem mem_labels {l : List (G × G)} (hι : Function.Injective ι) (π : G × G → G) (g : G)
    (π' : ν × ν → ν) (hπ : ∀ p : G × G, π' (ι p.1, ι p.2) = ι (π p)) :
    ι g ∈ (l.map fun p => (ι p.1, ι p.2)).map π' ↔ g ∈ l.map π := by
  rw [List.map_map, List.mem_map, List.mem_map]
  constructor
  · rintro ⟨p, hp, h⟩
    exact ⟨p, hp, hι (by rw [← h]; exact (hπ p).symm)⟩
  · rintro ⟨p, hp, rfl⟩
    exact ⟨p, hp, hπ p⟩

theorem not_mem_labels {l : List (G × G)} {n : ν} (hn : ∀ g, n ≠ ι g) (π : G × G → G)
    (π' : ν × ν → ν) (hπ : ∀ p : G × G, π' (ι p.1, ι p.2) = ι (π p)) :
    n ∉ (l.map fun p => (ι p.1, ι p.2)).map π' := by
  rw [List.map_map, List.mem_map]
  rintro ⟨p, _, h⟩
  exact hn (π p) (by rw [← h]; exact hπ p)

theorem nodup_labels {l : List (G × G)} (hι : Function.Injective ι) {π : G × G → G}
    {π' : ν × ν → ν} (hπ : ∀ p : G × G, π' (ι p.1, ι p.2) = ι (π p)) (h : (l.map π).Nodup) :
    ((l.map fun p => (ι p.1, ι p.2)).map π').Nodup := by
  have : (l.map fun p => (ι p.1, ι p.2)).map π' = (l.map π).map ι := by
    rw [List.map_map, List.map_map]
    exact List.map_congr_left fun p _ => hπ p
  rw [this]
  exact h.map hι

/-- The dimensions of a contraction. -/
def contractLegs (T1 T2 : G → Option ℕ) (pairs : List (G × G)) (g : G) : Option ℕ :=
  ((if g ∈ pairs.map Prod.fst then none else T1 g).or (if g ∈ pairs.map Prod.snd then none else T2 g))

theorem label_contract [CommRing α] (hι : Function.Injective ι) (ce : ContractEnv NoSymmetry α)
    (hg : GemmOk ce.gemm) {cn : ContractNames ν} (hcn : [cn.c0, cn.c1, cn.c2].Nodup)
    {t1 t2 : Tensor ν NoSymmetry α} {T1 T2 : G → Option ℕ} (h1 : HasLegs ι t1 T1) (h2 : HasLegs ι t2 T2)
    (pairs : List (G × G)) (hp1 : (pairs.map Prod.fst).Nodup) (hp2 : (pairs.map Prod.snd).Nodup)
    (hm : ∀ c ∈ pairs, T1 c.1 = T2 c.2)
    (hd : ∀ g, g ∉ pairs.map Prod.fst → g ∉ pairs.map Prod.snd → T1 g = none ∨ T2 g = none) :
    ∃ r, contract ce cn t1 t2 (pairs.map fun p => (ι p.1, ι p.2)) = .ok r ∧
      HasLegs ι r (contractLegs T1 T2 pairs) ∧
      ∀ f, gval ι r f = sumPairs (fun g => (T1 g).getD 1) (fun x y => gval ι t1 x * gval ι t2 y) pairs f f := by
  have off1 : ∀ n, (∀ g, n ≠ ι g) → leg t1 n = none := fun n hn => by
    by_contra h
    obtain ⟨g, rfl⟩ := h1.only n h
    exact hn g rfl
  have off2 : ∀ n, (∀ g, n ≠ ι g) → leg t2 n = none := fun n hn => by
    by_contra h
    obtain ⟨g, rfl⟩ := h2.only n h
    exact hn g rfl
  have l1 : ∀ g, leg t1 (ι g) = T1 g := h1.legs
  have l2 : ∀ g, leg t2 (ι g) = T2 g := h2.legs
  obtain ⟨r, e1, e2, e3, e4⟩ := dense_contract ce hg hcn h1.dense h2.dense
    (pairs := pairs.map fun p => (ι p.1, ι p.2))
    (nodup_labels hι (fun _ => rfl) hp1) (nodup_labels hι (fun _ => rfl) hp2) (by
      intro c hc
      obtain ⟨p, hp, rfl⟩ := List.mem_map.1 hc
      rw [l1, l2, hm p hp]) (by
      intro n a b
      by_cases hn : ∃ g, n = ι g
      · obtain ⟨g, rfl⟩ := hn
        rw [mem_labels hι Prod.fst g Prod.fst fun _ => rfl] at a
        rw [mem_labels hι Prod.snd g Prod.snd fun _ => rfl] at b
        rw [l1, l2]
        exact hd g a b
      · push Not at hn
        exact Or.inl (off1 n hn))
  refine ⟨r, e1, ⟨e2, fun n hn => ?_, fun g => ?_⟩, fun f => ?_⟩
  · by_contra h
    push Not at h
    rw [e3, off1 n h, off2 n h, ite_self, ite_self] at hn
    exact hn rfl
  · rw [gleg, e3, contractLegs, l1, l2]
    congr 1
    · exact if_congr (mem_labels hι Prod.fst g Prod.fst fun _ => rfl) rfl rfl
    · exact if_congr (mem_labels hι Prod.snd g Prod.snd fun _ => rfl) rfl rfl
  · rw [gval, e4, sumLegs_labels hι]
    congr 1
    funext g
    rw [h1.legs]

/-- The dimensions after renaming. -/
def renameLegs (T : G → Option ℕ) (d : List (G × G)) (g : G) : Option ℕ :=
  match d.find? fun c => decide (c.2 = g) with
  | some c => T c.1
  | none => if g ∈ d.map Prod.fst then none else T g

/-- The new label. -/
def renameTo (d : List (G × G)) (g : G) : G :=
  match d.find? fun c => decide (c.1 = g) with
  | some c => c.2
  | none => g

theorem label_rename [Zero α] (hι : Function.Injective ι) {t : Tensor ν NoSymmetry α} {T : G → Option ℕ}
    (h : HasLegs ι t T) (d : List (G × G)) (h1 : (d.map Prod.fst).Nodup) (h2 : (d.map Prod.snd).Nodup)
    (hd : ∀ c ∈ d, T c.2 = none) :
    HasLegs ι (edgeRename t (OMap.ofList (d.map fun p => (ι p.1, ι p.2)))) (renameLegs T d) ∧
      ∀ f, gval ι (edgeRename t (OMap.ofList (d.map fun p => (ι p.1, ι p.2)))) f =
        gval ι t fun g => f (renameTo d g) := by
  have l : ∀ g, leg t (ι g) = T g := h.legs
  obtain ⟨e1, e2, e3⟩ := dense_rename h.dense (d := d.map fun p => (ι p.1, ι p.2))
    (nodup_labels hι (fun _ => rfl) h1) (nodup_labels hι (fun _ => rfl) h2) (by
      intro c hc
      obtain ⟨p, hp, rfl⟩ := List.mem_map.1 hc
      rw [l, hd p hp])
  have hfind : ∀ g, ((d.map fun p => (ι p.1, ι p.2)).find? fun c => decide (c.2 = ι g)) =
      (d.find? fun c => decide (c.2 = g)).map fun p => (ι p.1, ι p.2) := by
    intro g
    rw [List.find?_map]
    congr 2
    funext p
    simp [hι.eq_iff]
  refine ⟨⟨e1, fun n hn => ?_, fun g => ?_⟩, fun f => ?_⟩
  · by_contra h'
    push Not at h'
    rw [e2, List.find?_eq_none.2] at hn
    · have : leg t n = none := by
        by_contra hc
        obtain ⟨g, rfl⟩ := h.only n hc
        exact h' g rfl
      have hn : (if _ then none else leg t n) ≠ none := hn
      rw [this, ite_self] at hn
      exact hn rfl
    · intro c hc
      obtain ⟨p, _, rfl⟩ := List.mem_map.1 hc
      simpa using fun hh => h' _ hh.symm
  · rw [gleg, e2, hfind, renameLegs]
    cases d.find? fun c => decide (c.2 = g) with
    | some c => exact l _
    | none =>
      show (if _ then none else leg t (ι g)) = if _ then none else T g
      rw [l]
      exact if_congr (mem_labels hι Prod.fst g Prod.fst fun _ => rfl) rfl rfl
  · rw [gval, e3, val_eq_gval hι h]
    congr 1
    funext g
    have : OMap.find? (d.map fun p => (ι p.1, ι p.2)) (ι g) =
        (d.find? fun c => decide (c.1 = g)).map fun p => ι p.2 := by
      clear e1 e2 e3 h1 h2 hd hfind
      induction d with
      | nil => rfl
      | cons c d ih =>
        rw [List.map_cons, OMap.find?, List.find?_cons]
        by_cases hc : c.1 = g
        · simp [hc]
        · have hc' : ι c.1 ≠ ι g := hι.ne hc
          rw [if_neg (fun h => hc' h.symm), ih]
          simp [hc]
    rw [this, renameTo]
    cases d.find? fun c => decide (c.1 = g) with
    | some c => exact hι.extend_apply _ _ _
    | none => exact hι.extend_apply _ _ _

theorem mem_map_label (hι : Function.Injective ι) {g : G} {set : List G} : ι g ∈ set.map ι ↔ g ∈ set :=
  List.mem_map_of_injective hι

theorem label_qr [CommRing α] (hι : Function.Injective ι) (ce : ContractEnv NoSymmetry α)
    (hg : GemmOk ce.gemm) {cn : ContractNames ν} (hcn : [cn.c0, cn.c1, cn.c2].Nodup)
    {lp : LapackQr α} (hlp : LapackQrOk lp) (env : DecompEnv NoSymmetry α)
    (junk : ℕ → α) {qn : QrNames ν} (hx : qn.x1 ≠ qn.x2) (hx1 : ∀ g, qn.x1 ≠ ι g) (hx2 : ∀ g, qn.x2 ≠ ι g)
    {t : Tensor ν NoSymmetry α} {T : G → Option ℕ} (ht : HasLegs ι t T) (set : List G) {commonQ commonR : G}
    (hQ : commonQ ∉ set → T commonQ = none) (hR : commonR ∈ set → T commonR = none) :
    ∃ q r K, qr lp env junk qn t 'r' (set.map ι) (ι commonQ) (ι commonR) = .ok (q, r) ∧
      HasLegs ι q (fun g => if g = commonQ then some K else if g ∈ set then none else T g) ∧
      HasLegs ι r (fun g => if g = commonR then some K else if g ∈ set then T g else none) ∧
      ∀ f, gval ι t f = ∑ k ∈ Finset.range K,
        gval ι q (Function.update f commonQ k) * gval ι r (Function.update f commonR k) := by
  have l : ∀ g, leg t (ι g) = T g := ht.legs
  have off : ∀ n, (∀ g, n ≠ ι g) → leg t n = none := fun n hn => by
    by_contra h
    obtain ⟨g, rfl⟩ := ht.only n h
    exact hn g rfl
  obtain ⟨q, r, K, e1, e2, e3, e4, e5, e6⟩ := dense_qr ce hg hcn hlp env junk hx ht.dense (set.map ι)
    (commonQ := ι commonQ) (commonR := ι commonR) (hx1 _) (hx2 _) (hx1 _) (hx2 _)
    (fun h => by rw [l]; exact hQ fun h' => h ((mem_map_label hι).2 h'))
    (fun h => by rw [l]; exact hR ((mem_map_label hι).1 h))
  refine ⟨q, r, K, e1, ⟨e2, fun n hn => ?_, fun g => ?_⟩, ⟨e3, fun n hn => ?_, fun g => ?_⟩, fun f => ?_⟩
  · by_contra h
    push Not at h
    rw [e4, if_neg (h _), off n h, ite_self] at hn
    exact hn rfl
  · rw [gleg, e4, l]
    exact if_congr hι.eq_iff rfl (if_congr (mem_map_label hι) rfl rfl)
  · by_contra h
    push Not at h
    rw [e5, if_neg (h _), off n h, ite_self] at hn
    exact hn rfl
  · rw [gleg, e5, l]
    exact if_congr hι.eq_iff rfl (if_congr (mem_map_label hι) rfl rfl)
  · rw [gval, e6]
    refine Finset.sum_congr rfl fun k _ => ?_
    rw [extend_update hι, extend_update hι]
    rfl

/-- A cut which keeps at least `K` singular values. -/
def Keeps (K cut : ℕ) : Prop := K ≤ cut ∨ cut = 2 ^ 64 - 1

theorem label_svd [CommRing α] [LinearOrder β] [Zero β] (hι : Function.Injective ι) {c : β → α}
    {gesvd : Gesvd α β} (ce : ContractEnv NoSymmetry α) (hg : GemmOk ce.gemm)
    {cn : ContractNames ν} (hcn : [cn.c0, cn.c1, cn.c2].Nodup)
    (hsvd : GesvdOk c gesvd) (env : DecompEnv NoSymmetry α)
    (junk : ℕ → α) (junk' : List NoSymmetry → ℕ → α) (inv : β → β) {sn : SvdNames ν}
    (hx : sn.u ≠ sn.v) (hu : ∀ g, sn.u ≠ ι g) (hv : ∀ g, sn.v ≠ ι g)
    {t : Tensor ν NoSymmetry α} {T : G → Option ℕ} (ht : HasLegs ι t T) (set : List G) {commonU commonV : G}
    (hU : commonU ∈ set → T commonU = none) (hV : commonV ∉ set → T commonV = none) :
    ∃ K w v, (∀ cut, Keeps K cut → ∃ u S, svd gesvd env junk sn t (set.map ι) (ι commonU) (ι commonV) cut =
        .ok (u, S, v) ∧ multiple junk' (fun x y => x * c y) inv u S (ι commonU) 'u' false = .ok w) ∧
      HasLegs ι w (fun g => if g = commonU then some K else if g ∈ set then T g else none) ∧
      HasLegs ι v (fun g => if g = commonV then some K else if g ∈ set then none else T g) ∧
      ∀ f, gval ι t f = ∑ k ∈ Finset.range K,
        gval ι w (Function.update f commonU k) * gval ι v (Function.update f commonV k) := by
  have l : ∀ g, leg t (ι g) = T g := ht.legs
  have off : ∀ n, (∀ g, n ≠ ι g) → leg t n = none := fun n hn => by
    by_contra h
    obtain ⟨g, rfl⟩ := ht.only n h
    exact hn g rfl
  obtain ⟨u, S, v, w, K, e1, e2, e3, e4, e5, e6, e7, e8⟩ := dense_svd ce hg hcn hsvd env junk junk' inv hx
    ht.dense (set.map ι) (commonU := ι commonU) (commonV := ι commonV) (hu _) (hv _)
    (fun h => by rw [l]; exact hU ((mem_map_label hι).1 h))
    (fun h => by rw [l]; exact hV fun h' => h ((mem_map_label hι).2 h'))
  refine ⟨K, w, v, fun cut hc => ⟨u, S, ?_, e2⟩,
    ⟨e3, fun n hn => ?_, fun g => ?_⟩, ⟨e4, fun n hn => ?_, fun g => ?_⟩, fun f => ?_⟩
  · rcases hc with hc | rfl
    · exact C35_large_cut env junk sn t _ _ _ e1 (by rw [e5]; exact hc)
    · exact e1
  · by_contra h
    push Not at h
    rw [e6, if_neg (h _), off n h, ite_self] at hn
    exact hn rfl
  · rw [gleg, e6, l]
    exact if_congr hι.eq_iff rfl (if_congr (mem_map_label hι) rfl rfl)
  · by_contra h
    push Not at h
    rw [e7, if_neg (h _), off n h, ite_self] at hn
    exact hn rfl
  · rw [gleg, e7, l]
    exact if_congr hι.eq_iff rfl (if_congr (mem_map_label hι) rfl rfl)
  · rw [gval, e8]
    refine Finset.sum_congr rfl fun k _ => ?_
    rw [extend_update hι, extend_update hι]
    rfl

end TAT
