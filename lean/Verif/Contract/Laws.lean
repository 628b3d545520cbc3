import Verif.Contract.FermiProps
import Verif.EdgeMisc.Steps
import Mathlib.Tactic.LinearCombination
import Mathlib.Algebra.BigOperators.GroupWithZero.Action

/-!
# Helper lemmas for the laws of contraction

What a contraction computes as a statement about all positions (`IsContraction`), and sums over
several groups of contracted edges.
-/

set_option linter.unusedSectionVars false

namespace TAT

variable {ν σ α β : Type}

/-! ## sums over lists of positions -/

section
variable [DecidableEq ν]

/-- The position `w` with the values `xs` at the names `ns`. -/
def overlayAll : List ν → List β → (ν → β) → ν → β
  | n :: ns, x :: xs, w => overlayAll ns xs (Function.update w n x)
  | _, _, w => w

theorem sumOver_choices [AddCommMonoid α] (E : ν → List β) (F : (ν → β) → α) (ns : List ν)
    (w : ν → β) : sumOver E F ns w = ((choices (ns.map E)).map fun x => F (overlayAll ns x w)).sum := by
  induction ns generalizing w with
  | nil => simp [sumOver, choices, overlayAll]
  | cons n ns ih =>
    rw [List.map_cons, choices, List.map_flatMap, List.flatMap_def, List.sum_flatten, List.map_map]
    show ((E n).map fun x => sumOver E F ns (Function.update w n x)).sum = _
    congr 1
    refine List.map_congr_left fun x _ => ?_
    rw [ih, Function.comp, List.map_map]
    rfl

theorem overlayAll_free {ns : List ν} {x : List β} {w : ν → β} {n : ν} (hn : n ∉ ns) :
    overlayAll ns x w n = w n := by
  induction ns generalizing x w with
  | nil => rfl
  | cons m ns ih =>
    rw [List.mem_cons, not_or] at hn
    cases x with
    | nil => rfl
    | cons y x =>
      rw [overlayAll, ih hn.2, Function.update_of_ne hn.1]

theorem overlayAll_agree {E : ν → List β} {ns : List ν} {x : List β}
    (hx : x ∈ choices (ns.map E)) (w w' : ν → β) {n : ν} (h : n ∈ ns) :
    overlayAll ns x w n = overlayAll ns x w' n := by
  induction ns generalizing x w w' with
  | nil => cases h
  | cons m ns ih =>
    rw [List.map_cons, choices, List.mem_flatMap] at hx
    obtain ⟨y, -, hx⟩ := hx
    obtain ⟨x', hx', rfl⟩ := List.mem_map.1 hx
    rw [overlayAll, overlayAll]
    by_cases hm : n ∈ ns
    · exact ih hx' _ _ hm
    · rw [overlayAll_free hm, overlayAll_free hm]
      rcases List.mem_cons.1 h with rfl | h'
      · simp
      · exact absurd h' hm

theorem overlayAll_mem {E : ν → List β} {ns : List ν} (hn : ns.Nodup) {x : List β}
    (hx : x ∈ choices (ns.map E)) (w : ν → β) {n : ν} (h : n ∈ ns) : overlayAll ns x w n ∈ E n := by
  induction ns generalizing x w with
  | nil => cases h
  | cons m ns ih =>
    rw [List.nodup_cons] at hn
    rw [List.map_cons, choices, List.mem_flatMap] at hx
    obtain ⟨y, hy, hx⟩ := hx
    obtain ⟨x', hx', rfl⟩ := List.mem_map.1 hx
    rw [overlayAll]
    rcases List.mem_cons.1 h with rfl | h'
    · rw [overlayAll_free hn.1]; simpa using hy
    · exact ih hn.2 hx' _ h'

theorem sum_map_comm {γ δ : Type} [AddCommMonoid α] (l : List γ) (m : List δ) (f : γ → δ → α) :
    (l.map fun a => (m.map fun b => f a b).sum).sum = (m.map fun b => (l.map fun a => f a b).sum).sum := by
  induction l with
  | nil => simp
  | cons a l ih =>
    rw [List.map_cons, List.sum_cons, ih]
    simp only [List.map_cons, List.sum_cons]
    rw [List.sum_map_add]

end

section
variable [LinearOrder ν] [TatSym σ]

theorem amp_same [Zero α] {t : Tensor ν σ α} {p q : ν → σ × ℕ} (h : ∀ n ∈ t.names, p n = q n) :
    amp t p = amp t q := by
  have h1 : keyOf t.names p = keyOf t.names q := List.map_congr_left fun n hn => by rw [h n hn]
  have h2 : idxOf t.names p = idxOf t.names q := List.map_congr_left fun n hn => by rw [h n hn]
  have h3 : elem t p = elem t q := by rw [elem, elem, h1, h2]
  unfold amp
  rw [h1, h3]
  refine if_congr (and_congr_left fun _ => forall₂_congr fun x hx => ?_) rfl rfl
  rw [h x.1 (List.of_mem_zip hx).1]

/-- `r` is the contraction of two tensors: its names, its edges up to symmetries without blocks, and
its elements. -/
structure IsContraction [CommRing α] (t1 t2 : Tensor ν σ α) (cs : List (ν × ν)) (r : Tensor ν σ α) :
    Prop where
  names : r.names = others t1.names (cs.map Prod.fst) ++ others t2.names (cs.map Prod.snd)
  wf : WF r
  sub : ∀ n ∈ r.names, ∀ x ∈ mapOf r n, x ∈ (outerEdge t1 t2 cs n).map
  used : ∀ q, KeyOk (fun n => (outerEdge t1 t2 cs n).map) r.names q →
    ∀ n ∈ r.names, (q n).1 ∈ OMap.keys (mapOf r n)
  arrows : TatSym.isFermi σ = true → ∀ n ∈ r.names, arrowValid (edgeOf r n) = true →
    (edgeOf r n).arrow = (outerEdge t1 t2 cs n).arrow
  amps : ∀ p, amp r p = contracted t1 t2 cs p

theorem outerEdge_left {t1 t2 : Tensor ν σ α} {cs : List (ν × ν)} {n : ν}
    (h : n ∈ others t1.names (cs.map Prod.fst)) : outerEdge t1 t2 cs n = edgeOf t1 n := if_pos h

theorem outerEdge_right {t1 t2 : Tensor ν σ α} {cs : List (ν × ν)}
    (hnd : (others t1.names (cs.map Prod.fst) ++ others t2.names (cs.map Prod.snd)).Nodup) {n : ν}
    (h : n ∈ others t2.names (cs.map Prod.snd)) : outerEdge t1 t2 cs n = edgeOf t2 n :=
  if_neg fun h' => (List.nodup_append.1 hnd).2.2 n h' n h rfl

/-- Where the contracted sum has a summand which is not zero the position is allowed. -/
theorem contracted_outside [CommRing α] {t1 t2 : Tensor ν σ α} (h1 : Shaped t1) (h2 : Shaped t2)
    {cs : List (ν × ν)} (hp : Pairs t1.names t2.names cs)
    (hnd : (others t1.names (cs.map Prod.fst) ++ others t2.names (cs.map Prod.snd)).Nodup)
    {p : ν → σ × ℕ}
    (hv : ¬ FineOk (fun n => (outerEdge t1 t2 cs n).map)
      (others t1.names (cs.map Prod.fst) ++ others t2.names (cs.map Prod.snd)) p) :
    contracted t1 t2 cs p = 0 := by
  unfold contracted
  refine sumOver_zero hp.nodup1 fun w _ hw => ?_
  by_cases v1 : ValidPos t1 w
  · by_cases v2 : ValidPos t2 (partner cs p w)
    · exfalso
      rw [validPos_iff' h1] at v1
      rw [validPos_iff' h2] at v2
      refine hv ⟨fun n hn => ?_, ?_⟩
      · dsimp only
        rcases List.mem_append.1 hn with hn | hn
        · rw [outerEdge_left hn, ← hw n (mem_others.1 hn).2]
          exact v1.1 n (mem_others.1 hn).1
        · rw [outerEdge_right hnd hn, ← partner_free p w (mem_others.1 hn).2]
          exact v2.1 n (mem_others.1 hn).1
      · have e1 := ((hp.split1 h1.nodup).map fun n => (w n).1).sum_eq
        have e2 := ((hp.split2 h2.nodup).map fun n => (partner cs p w n).1).sum_eq
        have k1 := v1.2
        have k2 := v2.2
        unfold keyOf at k1 k2
        rw [k1, List.map_append, List.sum_append] at e1
        rw [k2, List.map_append, List.sum_append] at e2
        have e3 := partner_sum hp.nodup2 p w
        unfold keyOf at e3
        rw [e3] at e2
        have f1 : (others t1.names (cs.map Prod.fst)).map (fun n => (w n).1) =
            (others t1.names (cs.map Prod.fst)).map fun n => (p n).1 :=
          List.map_congr_left fun n hn => by rw [hw n (mem_others.1 hn).2]
        have f2 : (others t2.names (cs.map Prod.snd)).map (fun n => (partner cs p w n).1) =
            (others t2.names (cs.map Prod.snd)).map fun n => (p n).1 :=
          List.map_congr_left fun n hn => by rw [partner_free p w (mem_others.1 hn).2]
        rw [f1] at e1
        rw [f2] at e2
        unfold keyOf
        rw [List.map_append, List.sum_append]
        have g1 := eq_neg_of_add_eq_zero_left e1.symm
        have g2 := eq_neg_of_add_eq_zero_left e2.symm
        rw [g1, g2, neg_neg, neg_add_cancel]
    · rw [amp_zero' h2 v2, mul_zero, smul_zero]
  · rw [amp_zero' h1 v1, zero_mul, smul_zero]

theorem isContraction_of [CommRing α] {t1 t2 r : Tensor ν σ α} (h1 : Shaped t1) (h2 : Shaped t2)
    {cs : List (ν × ν)} (hp : Pairs t1.names t2.names cs)
    (hnd : (others t1.names (cs.map Prod.fst) ++ others t2.names (cs.map Prod.snd)).Nodup)
    (hr : r.names = others t1.names (cs.map Prod.fst) ++ others t2.names (cs.map Prod.snd))
    (hw : WF r)
    (he : ∃ e : ν → Edge σ, r.core.edges = prunedEdges (r.names.map e) ∧
        ∀ n ∈ r.names, (e n).map = (outerEdge t1 t2 cs n).map ∧
          (TatSym.isFermi σ = true → arrowValid (outerEdge t1 t2 cs n) = true →
            (e n).arrow = (outerEdge t1 t2 cs n).arrow))
    (hel : ∀ p, FineOk (fun n => (outerEdge t1 t2 cs n).map) r.names p →
        elem r p = some (contracted t1 t2 cs p)) : IsContraction t1 t2 cs r := by
  classical
  obtain ⟨e, he1, he2⟩ := he
  rw [prunedEdges_named hw.nodup] at he1
  have heo : ∀ n ∈ r.names, edgeOf r n =
      ⟨(e n).arrow, usedMap (fun n => (e n).map) r.names n⟩ := fun n hn =>
    edgeOf_unique hw he1 n hn
  have hsub : ∀ n ∈ r.names, ∀ x ∈ mapOf r n, x ∈ (outerEdge t1 t2 cs n).map := by
    intro n hn x hx
    unfold mapOf at hx
    rw [heo n hn] at hx
    rw [← (he2 n hn).1]
    exact (List.mem_filter.1 hx).1
  have hsorted : ∀ n ∈ r.names, OMap.Sorted (outerEdge t1 t2 cs n).map := by
    intro n hn
    rw [hr] at hn
    rcases List.mem_append.1 hn with hn | hn
    · rw [outerEdge_left hn]; exact mapOf_sorted' h1 n (mem_others.1 hn).1
    · rw [outerEdge_right hnd hn]; exact mapOf_sorted' h2 n (mem_others.1 hn).1
  have hused : ∀ q, KeyOk (fun n => (outerEdge t1 t2 cs n).map) r.names q →
      ∀ n ∈ r.names, (q n).1 ∈ OMap.keys (mapOf r n) := by
    intro q hq n hn
    obtain ⟨x, hx, hx'⟩ := List.mem_map.1 (hq.1 n hn)
    refine List.mem_map.2 ⟨x, ?_, hx'⟩
    unfold mapOf
    rw [heo n hn]
    refine List.mem_filter.2 ⟨by dsimp only; rw [(he2 n hn).1]; exact hx, ?_⟩
    rw [decide_eq_true_eq]
    exact ⟨q, (keyOk_congr fun m hm => (he2 m hm).1).2 hq, hx'.symm⟩
  refine ⟨hr, hw, hsub, hused, fun hf n hn hv => ?_, fun p => ?_⟩
  · rw [heo n hn]
    refine (he2 n hn).2 hf ?_
    unfold arrowValid at hv ⊢
    rw [List.any_eq_true] at hv ⊢
    obtain ⟨x, hx, hx'⟩ := hv
    exact ⟨x, hsub n hn x hx, hx'⟩
  · by_cases hv : ValidPos r p
    · have hv' := (validPos_iff hw).1 hv
      have := amp_valid hw hv
      rw [hel p ⟨fun n hn => ?_, hv'.2⟩, Option.some.injEq] at this
      · exact this.symm
      · have hn' := hv'.1 n hn
        cases hd : OMap.find? (mapOf r n) (p n).1 with
        | none => simp [dimM, hd] at hn'
        | some d =>
          have hm := hsub n hn _ (OMap.mem_of_find? hd)
          have := OMap.find?_of_mem (hsorted n hn).nodup hm
          simp only [dimM, hd] at hn'
          simp only [dimM, this]
          exact hn'
    · rw [amp_zero hw hv]
      by_cases hf : FineOk (fun n => (outerEdge t1 t2 cs n).map) r.names p
      · exfalso
        refine hv ((validPos_iff hw).2 ⟨fun n hn => ?_, hf.2⟩)
        have hk : KeyOk (fun n => (outerEdge t1 t2 cs n).map) r.names p := by
          refine ⟨fun m hm => ?_, hf.2⟩
          have := hf.1 m hm
          by_contra hc
          have := OMap.find?_eq_none.2 hc
          simp_all [dimM]
        have hd := hf.1 n hn
        cases hs : OMap.find? (outerEdge t1 t2 cs n).map (p n).1 with
        | none => simp [dimM, hs] at hd
        | some d =>
          simp only [dimM, hs] at hd
          have hm := OMap.mem_of_find? hs
          have : ((p n).1, d) ∈ mapOf r n := by
            unfold mapOf
            rw [heo n hn]
            refine List.mem_filter.2 ⟨by dsimp only; rw [(he2 n hn).1]; exact hm, ?_⟩
            rw [decide_eq_true_eq]
            exact ⟨p, (keyOk_congr fun m hm => (he2 m hm).1).2 hk, rfl⟩
          have := OMap.find?_of_mem (mapOf_sorted' hw.shaped n hn).nodup this
          simp only [dimM, this]
          exact hd
      · rw [hr] at hf
        exact (contracted_outside h1 h2 hp hnd hf).symm

/-! ## three tensors -/

theorem others_append (A B K : List ν) : others (A ++ B) K = others A K ++ others B K :=
  List.filter_append ..

theorem others_self {A K : List ν} (h : ∀ n ∈ A, n ∉ K) : others A K = A := by
  unfold others
  rw [List.filter_eq_self]
  intro n hn
  rw [decide_eq_true_eq]
  exact h n hn

theorem others_comm (A K L : List ν) : others (others A K) L = others (others A L) K := by
  unfold others
  rw [List.filter_filter, List.filter_filter]
  refine List.filter_congr fun n _ => Bool.and_comm _ _

theorem oddAt_congr {p q : ν → σ × ℕ} {n : ν} (h : p n = q n) : oddAt p n = oddAt q n := by
  unfold oddAt; rw [h]

/-- The sign of a contraction depends on the positions of the edges, and on the arrows of the
contracted edges that are odd. -/
theorem contractSign_congr {t1 t2 t1' t2' : Tensor ν σ α} {cs : List (ν × ν)} {w w' v v' : ν → σ × ℕ}
    (hp : Pairs t1.names t2.names cs)
    (n1 : t1.names = t1'.names) (n2 : t2.names = t2'.names)
    (h1 : ∀ n ∈ t1.names, w n = w' n) (h2 : ∀ n ∈ t2.names, v n = v' n)
    (ha : TatSym.isFermi σ = true → ∀ c ∈ cs, oddAt w c.1 = true →
      (edgeOf t1 c.1).arrow = (edgeOf t1' c.1).arrow) :
    contractSign t1 t2 cs w v = contractSign t1' t2' cs w' v' := by
  unfold contractSign
  by_cases hf : TatSym.isFermi σ = true
  · rw [if_pos hf, if_pos hf, ← n1, ← n2, exchangeOf_congr (fun n hn => oddAt_congr (h1 n hn)),
      exchangeOf_congr (fun n hn => oddAt_congr (h2 n hn))]
    congr 2
    refine List.map_congr_left fun c hc => ?_
    have ho : oddAt w c.1 = oddAt w' c.1 := oddAt_congr (h1 _ (hp.sub1 c hc))
    by_cases h : oddAt w c.1 = true
    · rw [ha hf c hc h, ho]
    · rw [if_neg (fun x => h x.2), if_neg (fun x => h (ho ▸ x.2))]
  · rw [if_neg hf, if_neg hf]

section assoc
variable [CommRing α] {t1 t2 t3 r12 r23 : Tensor ν σ α} {cs ds : List (ν × ν)}

/-- Contracting a contraction as a sum over the edges of the tensors it was made of. -/
theorem contracted_left (h2 : Shaped t2)
    (hq : Pairs t2.names t3.names ds)
    (hdis : ∀ n ∈ ds.map Prod.fst, n ∉ cs.map Prod.snd) (hr : IsContraction t1 t2 cs r12)
    (p : ν → σ × ℕ) :
    contracted r12 t3 ds p = sumOver (fun n => edgePositions (mapOf t2 n))
      (fun w => (if TatSym.isFermi σ then
        exchangeOf (oddAt w) r12.names
          (others r12.names (ds.map Prod.fst) ++ (ds.map Prod.fst).reverse) *
        exchangeOf (oddAt (partner ds p w)) t3.names
          (ds.map Prod.snd ++ others t3.names (ds.map Prod.snd)) *
        (ds.map fun c => if (edgeOf t2 c.1).arrow = false ∧ oddAt w c.1 = true then -1 else 1).prod
        else 1 : ℤ) • (contracted t1 t2 cs w * amp t3 (partner ds p w))) (ds.map Prod.fst) p := by
  have hin : ∀ n ∈ ds.map Prod.fst, n ∈ others t2.names (cs.map Prod.snd) := by
    intro n hn
    refine mem_others.2 ⟨?_, hdis n hn⟩
    obtain ⟨c, hc, rfl⟩ := List.mem_map.1 hn
    exact hq.sub1 c hc
  have hin' : ∀ n ∈ ds.map Prod.fst, n ∈ r12.names := fun n hn => by
    rw [hr.names]; exact List.mem_append_right _ (hin n hn)
  have hnd := hr.names ▸ hr.wf.nodup
  have hout : ∀ n ∈ ds.map Prod.fst, outerEdge t1 t2 cs n = edgeOf t2 n := fun n hn =>
    outerEdge_right hnd (hin n hn)
  have hs2 : ∀ n ∈ ds.map Prod.fst, OMap.Sorted (mapOf t2 n) := fun n hn =>
    mapOf_sorted' h2 n (mem_others.1 (hin n hn)).1
  have hsr : ∀ n ∈ ds.map Prod.fst, OMap.Sorted (mapOf r12 n) := fun n hn =>
    mapOf_sorted' hr.wf.shaped n (hin' n hn)
  have hsub : ∀ n ∈ ds.map Prod.fst, ∀ x ∈ edgePositions (mapOf r12 n),
      x ∈ edgePositions (mapOf t2 n) := by
    intro n hn x hx
    unfold edgePositions at hx ⊢
    obtain ⟨e, he, hx⟩ := List.mem_flatMap.1 hx
    have := hr.sub n (hin' n hn) e he
    rw [hout n hn] at this
    exact List.mem_flatMap.2 ⟨e, this, hx⟩
  unfold contracted
  rw [sumOver_congr hq.nodup1 (F' := fun w => (if TatSym.isFermi σ then
        exchangeOf (oddAt w) r12.names
          (others r12.names (ds.map Prod.fst) ++ (ds.map Prod.fst).reverse) *
        exchangeOf (oddAt (partner ds p w)) t3.names
          (ds.map Prod.snd ++ others t3.names (ds.map Prod.snd)) *
        (ds.map fun c => if (edgeOf t2 c.1).arrow = false ∧ oddAt w c.1 = true then -1 else 1).prod
        else 1 : ℤ) • (contracted t1 t2 cs w * amp t3 (partner ds p w)))]
  · refine (sumOver_restrict hq.nodup1 (fun n hn => edgePositions_nodup (hs2 n hn))
      (fun n hn => edgePositions_nodup (hsr n hn)) hsub fun w _ _ hw => ?_).symm
    obtain ⟨n, hn, hn'⟩ := hw
    rw [← hr.amps w, amp_zero hr.wf, zero_mul, smul_zero]
    intro hv
    refine hn' ((mem_edgePositions (hsr n hn)).2 ?_)
    exact ((validPos_iff hr.wf).1 hv).1 n (hin' n hn)
  · intro w hw _
    rw [hr.amps w]
    congr 1
    unfold contractSign
    split
    · rename_i hf
      congr 2
      refine List.map_congr_left fun c hc => ?_
      have hc' : c.1 ∈ ds.map Prod.fst := List.mem_map_of_mem hc
      by_cases ho : oddAt w c.1 = true
      · rw [hr.arrows hf c.1 (hin' _ hc'), hout _ hc']
        have hm := hw c.1 hc'
        unfold edgePositions at hm
        obtain ⟨e, he, hx⟩ := List.mem_flatMap.1 hm
        unfold arrowValid
        rw [List.any_eq_true]
        refine ⟨e, he, ?_⟩
        obtain ⟨i, -, hi⟩ := List.mem_map.1 hx
        unfold oddAt at ho
        rw [← hi] at ho
        dsimp only at ho
        by_contra hz
        have : TatSym.fermi e.1 = 0 := by simpa using hz
        rw [this] at ho
        exact absurd ho (by decide)
      · rw [if_neg (fun x => ho x.2), if_neg (fun x => ho x.2)]
    · rfl

/-- The positions of the three tensors for given positions `x`, `y` of the contracted edges do not
depend on the order of the contractions. -/
theorem assoc_positions (hp : Pairs t1.names t2.names cs) (hq : Pairs t2.names t3.names ds)
    (hdis : ∀ n ∈ ds.map Prod.fst, n ∉ cs.map Prod.snd)
    (nd12 : (others t1.names (cs.map Prod.fst) ++ others t2.names (cs.map Prod.snd)).Nodup)
    (nd23 : (others t2.names (ds.map Prod.fst) ++ others t3.names (ds.map Prod.snd)).Nodup)
    {E1 E2 : ν → List (σ × ℕ)} {x y : List (σ × ℕ)} (hx : x ∈ choices ((cs.map Prod.fst).map E1))
    (hy : y ∈ choices ((ds.map Prod.fst).map E2)) (p : ν → σ × ℕ) :
    (∀ n ∈ t1.names, overlayAll (cs.map Prod.fst) x (overlayAll (ds.map Prod.fst) y p) n =
      overlayAll (cs.map Prod.fst) x p n) ∧
    (∀ n, partner cs (overlayAll (ds.map Prod.fst) y p)
        (overlayAll (cs.map Prod.fst) x (overlayAll (ds.map Prod.fst) y p)) n =
      overlayAll (ds.map Prod.fst) y (partner cs p (overlayAll (cs.map Prod.fst) x p)) n) ∧
    (∀ n ∈ t3.names, partner ds p (overlayAll (ds.map Prod.fst) y p) n =
      partner ds (partner cs p (overlayAll (cs.map Prod.fst) x p))
        (overlayAll (ds.map Prod.fst) y (partner cs p (overlayAll (cs.map Prod.fst) x p))) n) := by
  have hin : ∀ n ∈ ds.map Prod.fst, n ∈ others t2.names (cs.map Prod.snd) := by
    intro n hn
    refine mem_others.2 ⟨?_, hdis n hn⟩
    obtain ⟨c, hc, rfl⟩ := List.mem_map.1 hn
    exact hq.sub1 c hc
  have hin' : ∀ n ∈ cs.map Prod.snd, n ∈ others t2.names (ds.map Prod.fst) := by
    intro n hn
    refine mem_others.2 ⟨?_, fun h => hdis n h hn⟩
    obtain ⟨c, hc, rfl⟩ := List.mem_map.1 hn
    exact hp.sub2 c hc
  refine ⟨fun n hn => ?_, fun n => ?_, fun n hn => ?_⟩
  · by_cases hc : n ∈ cs.map Prod.fst
    · exact overlayAll_agree hx _ _ hc
    · rw [overlayAll_free hc, overlayAll_free hc, overlayAll_free]
      intro hd
      exact (List.nodup_append.1 nd12).2.2 n (mem_others.2 ⟨hn, hc⟩) n (hin n hd) rfl
  · by_cases hc : n ∈ cs.map Prod.snd
    · have hd : n ∉ ds.map Prod.fst := fun h => hdis n h hc
      rw [overlayAll_free hd]
      obtain ⟨c, hc', rfl⟩ := List.mem_map.1 hc
      rw [partner_common hp.nodup2 _ _ hc', partner_common hp.nodup2 _ _ hc',
        overlayAll_agree hx _ p (List.mem_map_of_mem hc')]
    · rw [partner_free _ _ hc]
      by_cases hd : n ∈ ds.map Prod.fst
      · exact overlayAll_agree hy _ _ hd
      · rw [overlayAll_free hd, overlayAll_free hd, partner_free _ _ hc]
  · by_cases hc : n ∈ ds.map Prod.snd
    · obtain ⟨c, hc', rfl⟩ := List.mem_map.1 hc
      rw [partner_common hq.nodup2 _ _ hc', partner_common hq.nodup2 _ _ hc',
        overlayAll_agree hy p _ (List.mem_map_of_mem hc')]
    · rw [partner_free _ _ hc, partner_free _ _ hc, partner_free]
      intro h
      exact (List.nodup_append.1 nd23).2.2 n (hin' n h) n (mem_others.2 ⟨hn, hc⟩) rfl

/-- Bringing the edges of the middle tensor into the order in which both groups of contracted edges
meet their partners. -/
theorem assoc_exchange {odd odd1 odd3 : ν → Bool} {N1 N2 N3 : List ν} (hn : N2.Nodup)
    (hp : Pairs N1 N2 cs) (hq : Pairs N2 N3 ds)
    (hdis : ∀ n ∈ ds.map Prod.fst, n ∉ cs.map Prod.snd)
    (nd12 : (others N1 (cs.map Prod.fst) ++ others N2 (cs.map Prod.snd)).Nodup)
    (nd23 : (others N2 (ds.map Prod.fst) ++ others N3 (ds.map Prod.snd)).Nodup)
    (ho1 : ∀ n ∈ others N2 (cs.map Prod.snd), odd1 n = odd n)
    (ho3 : ∀ n ∈ others N2 (ds.map Prod.fst), odd3 n = odd n) :
    exchangeOf odd1 (others N1 (cs.map Prod.fst) ++ others N2 (cs.map Prod.snd))
        (others (others N1 (cs.map Prod.fst) ++ others N2 (cs.map Prod.snd)) (ds.map Prod.fst) ++
          (ds.map Prod.fst).reverse) *
      exchangeOf odd N2 (cs.map Prod.snd ++ others N2 (cs.map Prod.snd)) =
    exchangeOf odd3 (others N2 (ds.map Prod.fst) ++ others N3 (ds.map Prod.snd))
        (cs.map Prod.snd ++
          others (others N2 (ds.map Prod.fst) ++ others N3 (ds.map Prod.snd)) (cs.map Prod.snd)) *
      exchangeOf odd N2 (others N2 (ds.map Prod.fst) ++ (ds.map Prod.fst).reverse) := by
  set C := cs.map Prod.snd
  set D := ds.map Prod.fst
  set O1 := others N1 (cs.map Prod.fst)
  set O3 := others N3 (ds.map Prod.snd)
  have hC : ∀ n ∈ C, n ∈ N2 := by
    intro n hn
    obtain ⟨c, hc, rfl⟩ := List.mem_map.1 hn
    exact hp.sub2 c hc
  have hD : ∀ n ∈ D, n ∈ N2 := by
    intro n hn
    obtain ⟨c, hc, rfl⟩ := List.mem_map.1 hn
    exact hq.sub1 c hc
  have d1 := (List.nodup_append.1 nd12).2.2
  have d2 := (List.nodup_append.1 nd23).2.2
  have hO1 : others O1 D = O1 := others_self fun n hn hn' =>
    d1 n hn n (mem_others.2 ⟨hD n hn', hdis n hn'⟩) rfl
  have hO3 : others O3 C = O3 := others_self fun n hn hn' =>
    d2 n (mem_others.2 ⟨hC n hn', fun h => hdis n h hn'⟩) n hn rfl
  have p1 : (others N2 C).Perm (others (others N2 C) D ++ D) :=
    others_perm (hn.filter _) hq.nodup1 fun n h => mem_others.2 ⟨hD n h, hdis n h⟩
  have p2 : (others N2 D).Perm (others (others N2 D) C ++ C) :=
    others_perm (hn.filter _) hp.nodup2 fun n h => mem_others.2 ⟨hC n h, fun h' => hdis n h' h⟩
  have p1' : (others N2 C).Perm (others (others N2 C) D ++ D.reverse) :=
    p1.trans (List.Perm.append_left _ (List.reverse_perm D).symm)
  have p2' : (others N2 D).Perm (C ++ others (others N2 D) C) := p2.trans List.perm_append_comm
  have q1 : N2.Perm (C ++ others N2 C) :=
    (others_perm hn hp.nodup2 hC).trans List.perm_append_comm
  have q2 : N2.Perm (others N2 D ++ D.reverse) :=
    (others_perm hn hq.nodup1 hD).trans (List.Perm.append_left _ (List.reverse_perm D).symm)
  have dC : ∀ n ∈ C, n ∉ others N2 C := fun n h h' => (mem_others.1 h').2 h
  have dD : ∀ n ∈ others N2 D, n ∉ D.reverse := fun n h h' =>
    (mem_others.1 h).2 (List.mem_reverse.1 h')
  -- the left side
  have e1 : exchangeOf odd1 (O1 ++ others N2 C) (others (O1 ++ others N2 C) D ++ D.reverse) =
      exchangeOf odd (C ++ others N2 C) (C ++ (others (others N2 C) D ++ D.reverse)) := by
    rw [others_append, hO1, List.append_assoc,
      exchangeOf_append odd1 (List.Perm.refl O1) p1' (fun n h h' => d1 n h n h' rfl),
      exchangeOf_append odd (List.Perm.refl C) p1' dC, exchangeOf_refl, exchangeOf_refl,
      exchangeOf_congr ho1]
  have e2 : exchangeOf odd3 (others N2 D ++ O3) (C ++ others (others N2 D ++ O3) C) =
      exchangeOf odd (others N2 D ++ D.reverse) ((C ++ others (others N2 D) C) ++ D.reverse) := by
    rw [others_append, hO3, ← List.append_assoc,
      exchangeOf_append odd3 p2' (List.Perm.refl O3) (fun n h h' => d2 n h n h' rfl),
      exchangeOf_append odd p2' (List.Perm.refl D.reverse) dD, exchangeOf_refl, exchangeOf_refl,
      exchangeOf_congr ho3]
  rw [e1, e2, mul_comm, exchangeOf_mul odd q1 (List.Perm.append_left C p1'), mul_comm,
    exchangeOf_mul odd q2 (List.Perm.append_right D.reverse p2'), others_comm, List.append_assoc]

theorem zsmul_sum_mul {γ : Type} (s : ℤ) (l : List γ) (f : γ → α) (b : α) :
    s • ((l.map f).sum * b) = (l.map fun x => s • (f x * b)).sum := by
  induction l with
  | nil => simp
  | cons x l ih => simp only [List.map_cons, List.sum_cons, add_mul, smul_add, ih]

theorem zsmul_mul_sum {γ : Type} (s : ℤ) (l : List γ) (f : γ → α) (a : α) :
    s • (a * (l.map f).sum) = (l.map fun x => s • (a * f x)).sum := by
  induction l with
  | nil => simp
  | cons x l ih => simp only [List.map_cons, List.sum_cons, mul_add, smul_add, ih]

/-- The order of two contractions does not matter. -/
theorem contracted_assoc (h2 : Shaped t2)
    (hp : Pairs t1.names t2.names cs) (hq : Pairs t2.names t3.names ds)
    (hdis : ∀ n ∈ ds.map Prod.fst, n ∉ cs.map Prod.snd)
    (hr : IsContraction t1 t2 cs r12) (hs : IsContraction t2 t3 ds r23) (p : ν → σ × ℕ) :
    contracted r12 t3 ds p = contracted t1 r23 cs p := by
  have nd12 := hr.names ▸ hr.wf.nodup
  have nd23 := hs.names ▸ hs.wf.nodup
  rw [contracted_left h2 hq hdis hr, sumOver_choices]
  conv_rhs => unfold contracted
  rw [sumOver_choices]
  simp only [hs.amps]
  unfold contracted
  simp only [sumOver_choices]
  simp only [zsmul_sum_mul, zsmul_mul_sum]
  rw [sum_map_comm]
  congr 1
  refine List.map_congr_left fun x hx => ?_
  congr 1
  refine List.map_congr_left fun y hy => ?_
  obtain ⟨k1, k2, k3⟩ := assoc_positions hp hq hdis nd12 nd23 hx hy p
  have k2' := funext k2
  rw [k2', amp_same k1, amp_same k3, smul_mul_assoc, mul_smul_comm, smul_smul, smul_smul]
  congr 1
  swap
  · exact mul_assoc _ _ _
  unfold contractSign
  by_cases hf : TatSym.isFermi σ = true
  · rw [if_pos hf, if_pos hf, if_pos hf, if_pos hf]
    have f1 := exchangeOf_congr (fun n hn => oddAt_congr (k1 n hn))
      (others t1.names (cs.map Prod.fst) ++ (cs.map Prod.fst).reverse)
    have f3 := exchangeOf_congr (fun n hn => oddAt_congr (k3 n hn))
      (ds.map Prod.snd ++ others t3.names (ds.map Prod.snd))
    have f2 := assoc_exchange (odd := oddAt (overlayAll (ds.map Prod.fst) y
        (partner cs p (overlayAll (cs.map Prod.fst) x p))))
      (odd1 := oddAt (overlayAll (ds.map Prod.fst) y p))
      (odd3 := oddAt (partner cs p (overlayAll (cs.map Prod.fst) x p))) h2.nodup hp hq hdis nd12 nd23
      (fun n hn => oddAt_congr ?_) (fun n hn => oddAt_congr ?_)
    · have g1 : (cs.map fun c => if (edgeOf t1 c.1).arrow = false ∧
          oddAt (overlayAll (cs.map Prod.fst) x (overlayAll (ds.map Prod.fst) y p)) c.1 = true
            then (-1 : ℤ) else 1) = cs.map fun c => if (edgeOf t1 c.1).arrow = false ∧
          oddAt (overlayAll (cs.map Prod.fst) x p) c.1 = true then (-1 : ℤ) else 1 :=
        List.map_congr_left fun c hc => by rw [oddAt_congr (k1 _ (hp.sub1 c hc))]
      have g2 : (ds.map fun c => if (edgeOf t2 c.1).arrow = false ∧
          oddAt (overlayAll (ds.map Prod.fst) y p) c.1 = true then (-1 : ℤ) else 1) =
          ds.map fun c => if (edgeOf t2 c.1).arrow = false ∧
            oddAt (overlayAll (ds.map Prod.fst) y (partner cs p (overlayAll (cs.map Prod.fst) x p))) c.1 = true
            then (-1 : ℤ) else 1 :=
        List.map_congr_left fun c hc => by
          rw [oddAt_congr (overlayAll_agree hy p _ (List.mem_map_of_mem hc))]
      rw [g1, g2, f1, f3, hr.names, hs.names]
      linear_combination (exchangeOf (oddAt (overlayAll (cs.map Prod.fst) x p)) t1.names
        (others t1.names (cs.map Prod.fst) ++ (cs.map Prod.fst).reverse) *
        exchangeOf (oddAt (partner ds (partner cs p (overlayAll (cs.map Prod.fst) x p))
          (overlayAll (ds.map Prod.fst) y (partner cs p (overlayAll (cs.map Prod.fst) x p))))) t3.names
          (ds.map Prod.snd ++ others t3.names (ds.map Prod.snd)) *
        (cs.map fun c => if (edgeOf t1 c.1).arrow = false ∧
          oddAt (overlayAll (cs.map Prod.fst) x p) c.1 = true then (-1 : ℤ) else 1).prod *
        (ds.map fun c => if (edgeOf t2 c.1).arrow = false ∧
            oddAt (overlayAll (ds.map Prod.fst) y (partner cs p (overlayAll (cs.map Prod.fst) x p))) c.1 = true
            then (-1 : ℤ) else 1).prod) * f2
    · by_cases hd : n ∈ ds.map Prod.fst
      · exact overlayAll_agree hy _ _ hd
      · rw [overlayAll_free hd, overlayAll_free hd, partner_free _ _ (mem_others.1 hn).2]
    · rw [overlayAll_free (mem_others.1 hn).2]
  · rw [if_neg hf, if_neg hf, if_neg hf, if_neg hf]

end assoc

/-! ## exchanging the tensors -/

section swap
variable {t1 t2 : Tensor ν σ α} {cs : List (ν × ν)}

theorem map_swap_fst (cs : List (ν × ν)) : (cs.map Prod.swap).map Prod.fst = cs.map Prod.snd := by
  rw [List.map_map]; rfl

theorem map_swap_snd (cs : List (ν × ν)) : (cs.map Prod.swap).map Prod.snd = cs.map Prod.fst := by
  rw [List.map_map]; rfl

theorem map_swap_swap (cs : List (ν × ν)) : (cs.map Prod.swap).map Prod.swap = cs := by
  rw [List.map_map, Prod.swap_swap_eq, List.map_id]

theorem partner_partner (h1 : (cs.map Prod.fst).Nodup) (h2 : (cs.map Prod.snd).Nodup)
    {p w : ν → σ × ℕ} (hw : ∀ n, n ∉ cs.map Prod.fst → w n = p n) :
    partner (cs.map Prod.swap) p (partner cs p w) = w := by
  funext n
  by_cases hn : n ∈ cs.map Prod.fst
  · obtain ⟨c, hc, rfl⟩ := List.mem_map.1 hn
    have hc' : c.swap ∈ cs.map Prod.swap := List.mem_map_of_mem hc
    have := partner_common (by rw [map_swap_snd]; exact h1) p (partner cs p w) hc'
    rw [Prod.snd_swap, Prod.fst_swap, partner_common h2 p w hc] at this
    rw [this, neg_neg]
  · rw [partner_free _ _ (by rw [map_swap_snd]; exact hn), hw n hn]

/-- The product of the signs of a contraction and of the one with the tensors exchanged. -/
theorem swap_sign (h1 : Shaped t1) (h2 : Shaped t2) (hp : Pairs t1.names t2.names cs)
    (hnd : (others t1.names (cs.map Prod.fst) ++ others t2.names (cs.map Prod.snd)).Nodup)
    {p w : ν → σ × ℕ} (hw : ∀ n, n ∉ cs.map Prod.fst → w n = p n)
    (v1 : ValidPos t1 w) (v2 : ValidPos t2 (partner cs p w))
    (ha : TatSym.isFermi σ = true → ∀ c ∈ cs, oddAt w c.1 = true →
      (edgeOf t1 c.1).arrow ≠ (edgeOf t2 c.2).arrow) :
    contractSign t2 t1 (cs.map Prod.swap) (partner cs p w) w =
      contractSign t1 t2 cs w (partner cs p w) *
      (if TatSym.isFermi σ then exchangeOf (oddAt p)
        (others t1.names (cs.map Prod.fst) ++ others t2.names (cs.map Prod.snd))
        (others t2.names (cs.map Prod.snd) ++ others t1.names (cs.map Prod.fst)) else 1) := by
  unfold contractSign
  rw [map_swap_fst, map_swap_snd, List.map_map]
  by_cases hf : TatSym.isFermi σ = true
  swap
  · rw [if_neg hf, if_neg hf, if_neg hf, mul_one]
  rw [if_pos hf, if_pos hf, if_pos hf]
  set G1 := others t1.names (cs.map Prod.fst) with hG1
  set G2 := others t2.names (cs.map Prod.snd) with hG2
  set v := partner cs p w with hv
  have ho : ∀ c ∈ cs, oddAt w c.1 = oddAt v c.2 := by
    intro c hc
    unfold oddAt
    rw [hv, partner_common hp.nodup2 p w hc]
    exact (TatSym.odd_neg _).symm
  have s1 := hp.split1 h1.nodup
  have s2 := hp.split2 h2.nodup
  have n1 := List.nodup_append.1 (s1.nodup_iff.1 h1.nodup)
  have n2 := List.nodup_append.1 (s2.nodup_iff.1 h2.nodup)
  have d1 : ∀ x ∈ G1, x ∉ cs.map Prod.fst := fun x hx hx' => n1.2.2 x hx x hx' rfl
  have d2 : ∀ x ∈ G2, x ∉ cs.map Prod.snd := fun x hx hx' => n2.2.2 x hx x hx' rfl
  have c1 : oddCount (oddAt w) G1 % 2 = oddCount (oddAt w) (cs.map Prod.fst) % 2 :=
    oddCount_even (by rw [← v1.2]; exact ((s1.map _).sum_eq).symm)
  have c2 : oddCount (oddAt v) G2 % 2 = oddCount (oddAt v) (cs.map Prod.snd) % 2 :=
    oddCount_even (by rw [← v2.2]; exact ((s2.map _).sum_eq).symm)
  have c3 := oddCount_pairs ho
  set k : ℤ := if oddCount (oddAt w) (cs.map Prod.fst) % 2 = 1 then -1 else 1 with hk
  have hkk : k * k = 1 := by rw [hk]; split <;> rfl
  have kw : ∀ a b : ℕ, a % 2 = oddCount (oddAt w) (cs.map Prod.fst) % 2 →
      b % 2 = oddCount (oddAt w) (cs.map Prod.fst) % 2 → (-1 : ℤ) ^ (a * b) = k := by
    intro a b hab hb
    rw [neg_one_pow_sq (hab.trans hb.symm), hk, hab]
  -- bring everything to the order in which the contracted edges are last
  have r1 := (List.reverse_perm (cs.map Prod.fst)).symm
  have r2 := (List.reverse_perm (cs.map Prod.snd)).symm
  have e1 : exchangeOf (oddAt w) t1.names (G1 ++ (cs.map Prod.fst).reverse) =
      exchangeOf (oddAt w) t1.names (G1 ++ cs.map Prod.fst) *
      reversalSign ((cs.map Prod.fst).map (oddAt w)) := by
    rw [← exchangeOf_mul (oddAt w) s1 (r1.append_left _),
      exchangeOf_append _ (List.Perm.refl _) r1 d1, exchangeOf_refl, one_mul,
      exchangeOf_reverse _ hp.nodup1]
  have e1' : exchangeOf (oddAt v) t2.names (G2 ++ (cs.map Prod.snd).reverse) =
      exchangeOf (oddAt v) t2.names (G2 ++ cs.map Prod.snd) *
      reversalSign ((cs.map Prod.snd).map (oddAt v)) := by
    rw [← exchangeOf_mul (oddAt v) s2 (r2.append_left _),
      exchangeOf_append _ (List.Perm.refl _) r2 d2, exchangeOf_refl, one_mul,
      exchangeOf_reverse _ hp.nodup2]
  have e2 : exchangeOf (oddAt w) t1.names (cs.map Prod.fst ++ G1) =
      exchangeOf (oddAt w) t1.names (G1 ++ cs.map Prod.fst) * k := by
    rw [← exchangeOf_mul (oddAt w) s1 List.perm_append_comm,
      exchangeOf_swap _ n1.1 hp.nodup1 d1, kw _ _ c1 rfl]
  have e3 : exchangeOf (oddAt v) t2.names (cs.map Prod.snd ++ G2) =
      exchangeOf (oddAt v) t2.names (G2 ++ cs.map Prod.snd) * k := by
    rw [← exchangeOf_mul (oddAt v) s2 List.perm_append_comm,
      exchangeOf_swap _ n2.1 hp.nodup2 d2, kw _ _ (by rw [c2, c3]) (by rw [c3])]
  have e4 : (cs.map Prod.fst).map (oddAt w) = (cs.map Prod.snd).map (oddAt v) := by
    rw [List.map_map, List.map_map]
    exact List.map_congr_left ho
  have e5 : exchangeOf (oddAt p) (G1 ++ G2) (G2 ++ G1) = k := by
    have g1 : oddCount (oddAt p) G1 = oddCount (oddAt w) G1 := by
      unfold oddCount
      congr 1
      exact List.map_congr_left fun n hn => oddAt_congr (hw n (mem_others.1 hn).2).symm
    have g2 : oddCount (oddAt p) G2 = oddCount (oddAt v) G2 := by
      unfold oddCount
      congr 1
      exact List.map_congr_left fun n hn =>
        oddAt_congr (partner_free p w (mem_others.1 hn).2).symm
    rw [exchangeOf_swap _ n1.1 n2.1 (fun n h h' => (List.nodup_append.1 hnd).2.2 n h n h' rfl), g1, g2]
    exact kw _ _ c1 (by rw [c2, c3])
  have e6 : (cs.map ((fun c => if (edgeOf t2 c.1).arrow = false ∧ oddAt v c.1 = true then (-1 : ℤ)
      else 1) ∘ Prod.swap)).prod * (cs.map fun c => if (edgeOf t1 c.1).arrow = false ∧
        oddAt w c.1 = true then (-1 : ℤ) else 1).prod = k := by
    rw [← List.prod_map_mul]
    have g : ∀ l : List (ν × ν), (∀ c ∈ l, c ∈ cs) → (l.map fun c =>
        ((fun c => if (edgeOf t2 c.1).arrow = false ∧ oddAt v c.1 = true then (-1 : ℤ)
          else 1) ∘ Prod.swap) c * (if (edgeOf t1 c.1).arrow = false ∧ oddAt w c.1 = true
          then (-1 : ℤ) else 1)).prod =
        if oddCount (oddAt w) (l.map Prod.fst) % 2 = 1 then -1 else 1 := by
      intro l
      induction l with
      | nil => intro _; simp [oddCount]
      | cons c l ih =>
        intro hl
        have hc := hl c (by simp)
        rw [List.map_cons, List.prod_cons, ih fun d hd => hl d (by simp [hd])]
        have hcnt : oddCount (oddAt w) ((c :: l).map Prod.fst) =
            oddCount (oddAt w) (l.map Prod.fst) + if oddAt w c.1 = true then 1 else 0 := by
          unfold oddCount
          rw [List.map_cons, List.map_cons, List.count_cons]
          simp
        rw [hcnt]
        simp only [Function.comp, Prod.fst_swap]
        have hoc := ho c hc
        by_cases hodd : oddAt w c.1 = true
        · have := ha hf c hc hodd
          rw [if_pos hodd]
          rcases Nat.mod_two_eq_zero_or_one (oddCount (oddAt w) (l.map Prod.fst)) with h0 | h0 <;>
          · have hx : (oddCount (oddAt w) (l.map Prod.fst) + 1) % 2 =
                1 - oddCount (oddAt w) (l.map Prod.fst) % 2 := by omega
            rw [hx, h0]
            rcases Bool.eq_false_or_eq_true (edgeOf t1 c.1).arrow with ha1 | ha1 <;>
            rcases Bool.eq_false_or_eq_true (edgeOf t2 c.2).arrow with ha2 | ha2 <;>
              simp_all
        · rw [if_neg (fun x => hodd (hoc.trans x.2)), if_neg (fun x => hodd x.2), if_neg hodd,
            one_mul, one_mul, Nat.add_zero]
    rw [hk]
    exact g cs fun _ h => h
  have e7 := exchangeOf_sq (oddAt w) t1.names (G1 ++ cs.map Prod.fst)
  set A := (cs.map fun c => if (edgeOf t1 c.1).arrow = false ∧
        oddAt w c.1 = true then (-1 : ℤ) else 1).prod with hA
  have hAA : A * A = 1 := by
    rw [hA, ← List.prod_map_mul]
    apply List.prod_eq_one
    intro x hx
    obtain ⟨c, -, rfl⟩ := List.mem_map.1 hx
    split <;> rfl
  set B := (cs.map ((fun c => if (edgeOf t2 c.1).arrow = false ∧ oddAt v c.1 = true then (-1 : ℤ)
      else 1) ∘ Prod.swap)).prod
  have hB : B = k * A := by linear_combination A * e6 - B * hAA
  rw [e1, e1', e2, e3, e4, e5, hB]
  ring

theorem contracted_swap [CommRing α] (h1 : Shaped t1) (h2 : Shaped t2)
    (hp : Pairs t1.names t2.names cs)
    (hnd : (others t1.names (cs.map Prod.fst) ++ others t2.names (cs.map Prod.snd)).Nodup)
    (ha : TatSym.isFermi σ = true → ∀ c ∈ cs, (edgeOf t1 c.1).arrow ≠ (edgeOf t2 c.2).arrow)
    (p : ν → σ × ℕ) :
    contracted t2 t1 (cs.map Prod.swap) p = (if TatSym.isFermi σ then exchangeOf (oddAt p)
        (others t1.names (cs.map Prod.fst) ++ others t2.names (cs.map Prod.snd))
        (others t2.names (cs.map Prod.snd) ++ others t1.names (cs.map Prod.fst)) else 1 : ℤ) •
      contracted t1 t2 cs p := by
  classical
  unfold contracted
  rw [sumOver_eq, sumOver_eq, map_swap_fst]
  have hs1 : ∀ n ∈ cs.map Prod.fst, OMap.Sorted (mapOf t1 n) := by
    intro n hn
    obtain ⟨c, hc, rfl⟩ := List.mem_map.1 hn
    exact mapOf_sorted' h1 _ (hp.sub1 c hc)
  have hs2 : ∀ n ∈ cs.map Prod.snd, OMap.Sorted (mapOf t2 n) := by
    intro n hn
    obtain ⟨c, hc, rfl⟩ := List.mem_map.1 hn
    exact mapOf_sorted' h2 _ (hp.sub2 c hc)
  rw [← List.sum_toFinset _ (assigns_nodup hp.nodup1 (fun n hn => edgePositions_nodup (hs1 n hn)) p),
    ← List.sum_toFinset _ (assigns_nodup hp.nodup2 (fun n hn => edgePositions_nodup (hs2 n hn)) p),
    Finset.smul_sum]
  have hval : ∀ {u v : ν → σ × ℕ} {s : ℤ}, s • (amp t1 u * amp t2 v) ≠ 0 →
      ValidPos t1 u ∧ ValidPos t2 v := by
    intro u v s h
    constructor
    · by_contra hc; exact h (by rw [amp_zero' h1 hc, zero_mul, smul_zero])
    · by_contra hc; exact h (by rw [amp_zero' h2 hc, mul_zero, smul_zero])
  have hval' : ∀ {u v : ν → σ × ℕ} {s : ℤ}, s • (amp t2 v * amp t1 u) ≠ 0 →
      ValidPos t1 u ∧ ValidPos t2 v := fun h => hval (by rw [mul_comm]; exact h)
  symm
  refine Finset.sum_bij_ne_zero (fun w _ _ => partner cs p w) ?_ ?_ ?_ ?_
  · intro w hw hne
    rw [List.mem_toFinset, mem_assigns hp.nodup1] at hw
    rw [smul_smul] at hne
    obtain ⟨-, v2⟩ := hval hne
    rw [List.mem_toFinset, mem_assigns hp.nodup2]
    refine ⟨fun n hn => (mem_edgePositions (hs2 n hn)).2 ?_, fun n hn => partner_free _ _ hn⟩
    obtain ⟨c, hc, rfl⟩ := List.mem_map.1 hn
    exact ((validPos_iff' h2).1 v2).1 _ (hp.sub2 c hc)
  · intro w hw _ w' hw' _ he
    rw [List.mem_toFinset, mem_assigns hp.nodup1] at hw hw'
    rw [← partner_partner hp.nodup1 hp.nodup2 hw.2, ← partner_partner hp.nodup1 hp.nodup2 hw'.2]
    exact congrArg _ he
  · intro u hu hne
    rw [List.mem_toFinset, mem_assigns hp.nodup2] at hu
    have hback : partner cs p (partner (cs.map Prod.swap) p u) = u := by
      have := partner_partner (cs := cs.map Prod.swap) (p := p) (w := u)
        (by rw [map_swap_fst]; exact hp.nodup2) (by rw [map_swap_snd]; exact hp.nodup1)
        (by rw [map_swap_fst]; exact hu.2)
      rwa [map_swap_swap] at this
    obtain ⟨v1, v2⟩ := hval' hne
    have hmem : partner (cs.map Prod.swap) p u ∈
        assigns (fun n => edgePositions (mapOf t1 n)) (cs.map Prod.fst) p := by
      rw [mem_assigns hp.nodup1]
      refine ⟨fun n hn => (mem_edgePositions (hs1 n hn)).2 ?_, fun n hn => partner_free _ _
        (by rw [map_swap_snd]; exact hn)⟩
      obtain ⟨c, hc, rfl⟩ := List.mem_map.1 hn
      exact ((validPos_iff' h1).1 v1).1 _ (hp.sub1 c hc)
    refine ⟨_, List.mem_toFinset.2 hmem, ?_, hback⟩
    rw [hback]
    intro hz
    apply hne
    have hs := swap_sign h1 h2 hp hnd (p := p) (w := partner (cs.map Prod.swap) p u)
      ((mem_assigns hp.nodup1).1 hmem).2 v1 (by rw [hback]; exact v2) (fun hf c hc _ => ha hf c hc)
    rw [hback] at hs
    rw [hs, mul_comm (amp t2 u), mul_comm (contractSign _ _ _ _ _), ← smul_smul]
    exact hz
  · intro w hw hne
    rw [List.mem_toFinset, mem_assigns hp.nodup1] at hw
    rw [smul_smul] at hne
    obtain ⟨v1, v2⟩ := hval hne
    rw [partner_partner hp.nodup1 hp.nodup2 hw.2,
      swap_sign h1 h2 hp hnd hw.2 v1 v2 (fun hf c hc _ => ha hf c hc), mul_comm (amp t2 _),
      mul_comm (contractSign _ _ _ _ _), ← smul_smul]

end swap

end

end TAT
