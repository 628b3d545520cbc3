import Verif.Shrink.Model
import Verif.Contract.FuseProps

/-!
# The helper tensor with a single one, and contraction for all kinds of symmetry
-/

set_option linter.unusedSectionVars false

namespace TAT

variable {ν σ α : Type} [LinearOrder ν] [TatSym σ]

/-- Contraction without shared names, with or without symmetry. -/
theorem contract_unified [CommRing α] (ce : ContractEnv σ α) (hg : GemmOk ce.gemm)
    {cn : ContractNames ν} (hcn : [cn.c0, cn.c1, cn.c2].Nodup)
    {t1 t2 : Tensor ν σ α} (h1 : WF t1) (h2 : WF t2) (hb1 : t1.core.blocks ≠ [])
    (hb2 : t2.core.blocks ≠ []) {pairs cs : List (ν × ν)}
    (hcs : knownPairs t1 t2 pairs = cs)
    (hp1 : (cs.map Prod.fst).Nodup) (hp2 : (cs.map Prod.snd).Nodup)
    (hm : Matched t1 t2 cs)
    (hl : Separated t1 (cs.map Prod.fst) ∨ ∀ s : σ, -s = s)
    (hnd : (others t1.names (cs.map Prod.fst) ++ others t2.names (cs.map Prod.snd)).Nodup) :
    ∃ r, contract ce cn t1 t2 pairs = .ok r ∧
      r.names = others t1.names (cs.map Prod.fst) ++ others t2.names (cs.map Prod.snd) ∧ WF r ∧
      (∃ e : ν → Edge σ, r.core.edges = prunedEdges (r.names.map e) ∧
        ∀ n ∈ r.names, (e n).map = (outerEdge t1 t2 cs n).map ∧
          (TatSym.isFermi σ = true → arrowValid (outerEdge t1 t2 cs n) = true →
            (e n).arrow = (outerEdge t1 t2 cs n).arrow)) ∧
      ∀ p, FineOk (fun n => (outerEdge t1 t2 cs n).map) r.names p →
        elem r p = some (contracted t1 t2 cs p) := by
  by_cases hns : TatSym.isNoSym σ = true
  · have hfe : fuseNames cs t1.names t2.names = [] := by
      rw [List.eq_nil_iff_forall_not_mem]
      intro n hn'
      rw [mem_fuseNames] at hn'
      rw [List.nodup_append] at hnd
      exact hnd.2.2 n (mem_others.2 ⟨hn'.1, hn'.2.2.1⟩) n (mem_others.2 ⟨hn'.2.1, hn'.2.2.2⟩) rfl
    have hkeep : keepPairs t1.names t2.names pairs = cs := by rw [knownPairs_eq]; exact hcs
    obtain ⟨r, e1, e2, e3, e4, e5⟩ := contractWithFuse_spec hg hns ce.env1 ce.env2 ce.junk ce.junk'
      hcn h1 h2 hb1 hb2 (pairs := pairs)
      (by rw [hkeep]; exact (duplicated_iff _).2 ⟨hp1, hp2⟩) hkeep hm (by rw [hfe]; simp)
    have hn : r.names = others t1.names (cs.map Prod.fst) ++ others t2.names (cs.map Prod.snd) := by
      rw [e2, hfe]
      unfold kept others
      rw [List.nil_append]
      congr 1 <;> exact List.filter_congr fun n _ => by simp
    refine ⟨r, by unfold contract; rw [hns, if_pos rfl]; exact e1, hn, e3,
      ⟨outerEdge t1 t2 cs, ?_, fun n _ => ⟨rfl, fun _ _ => rfl⟩⟩, fun p hp => e5 p ?_⟩
    · rw [← e4, e3.pruned]
    · rw [validPos_iff e3]
      refine ⟨fun n hn => ?_, hp.2⟩
      unfold mapOf
      rw [edgeOf_unique e3 e4 n hn]
      exact hp.1 n hn
  · rw [Bool.not_eq_true] at hns
    have hcn' : cn.c1 ≠ cn.c2 := by
      simp only [List.nodup_cons, List.mem_cons, List.not_mem_nil, or_false] at hcn
      exact hcn.2.1
    exact C28_contract_partial ce hg hcn' hns h1 h2 hcs hp1 hp2 hm hl hnd (Or.inr hb1)

/-! ## the helper tensor -/

theorem singles_shapes (l : List (Slot ν σ)) (h0 : (l.map Slot.sym).sum = 0) :
    blockShapes ((l.map Slot.edge).map Edge.map) =
      [(l.map Slot.sym, (l.map Slot.dim).prod)] := by
  unfold blockShapes
  have : (l.map Slot.edge).map Edge.map = l.map fun s => [(s.sym, s.dim)] := by
    rw [List.map_map]; rfl
  rw [this, choices_unit (fun s : Slot ν σ => (s.sym, s.dim))]
  have e1 : (l.map fun s : Slot ν σ => (s.sym, s.dim)).map Prod.fst = l.map Slot.sym := by
    rw [List.map_map]; rfl
  have e2 : (l.map fun s : Slot ν σ => (s.sym, s.dim)).map Prod.snd = l.map Slot.dim := by
    rw [List.map_map]; rfl
  rw [List.filter_cons, e1, if_pos (decide_eq_true h0), List.filter_nil, List.map_cons, e1, e2]
  rfl

theorem singles_none (l : List (Slot ν σ)) (h0 : (l.map Slot.sym).sum ≠ 0) :
    blockShapes ((l.map Slot.edge).map Edge.map) = [] := by
  unfold blockShapes
  have : (l.map Slot.edge).map Edge.map = l.map fun s => [(s.sym, s.dim)] := by
    rw [List.map_map]; rfl
  rw [this, choices_unit (fun s : Slot ν σ => (s.sym, s.dim))]
  have e1 : (l.map fun s : Slot ν σ => (s.sym, s.dim)).map Prod.fst = l.map Slot.sym := by
    rw [List.map_map]; rfl
  rw [List.filter_cons, e1, if_neg (by simpa using h0)]
  rfl

theorem singles_pruned (l : List (Slot ν σ)) (h0 : (l.map Slot.sym).sum = 0) :
    prunedEdges (l.map Slot.edge) = l.map Slot.edge := by
  unfold prunedEdges usedAt
  rw [singles_shapes l h0]
  apply List.ext_getElem
  · simp
  · intro i h1 h2
    rw [List.getElem_mapIdx, List.getElem_map]
    unfold Slot.edge
    have hi : i < l.length := by simpa using h2
    simp [hi]

theorem slot_sorted (l : List (Slot ν σ)) : ∀ e ∈ l.map Slot.edge, OMap.Sorted e.map := by
  intro e he
  obtain ⟨s, _, rfl⟩ := List.mem_map.1 he
  simp [Slot.edge, OMap.Sorted]

theorem slotOffset_eq (l : List (Slot ν σ)) :
    slotOffset l = rowMajor (l.map Slot.dim) (l.map Slot.index) := by
  have : ∀ (l : List (Slot ν σ)) (a : ℕ), l.foldl (fun o s => o * s.dim + s.index) a =
      a * (l.map Slot.dim).prod + rowMajor (l.map Slot.dim) (l.map Slot.index) := by
    intro l
    induction l with
    | nil => intro a; simp [rowMajor]
    | cons s l ih =>
      intro a
      rw [List.foldl_cons, ih, List.map_cons, List.map_cons, rowMajor, List.prod_cons]
      ring
  unfold slotOffset
  rw [this]; simp

/-- The position of the one in the helper tensor. -/
def AtSlots (l : List (Slot ν σ)) (p : ν → σ × ℕ) : Prop := ∀ s ∈ l, p s.name = (s.sym, s.index)

instance (l : List (Slot ν σ)) (p : ν → σ × ℕ) : Decidable (AtSlots l p) :=
  inferInstanceAs (Decidable (∀ s ∈ l, _))

/-- What is known of the helper tensor. -/
structure UnitView [Zero α] [One α] (l : List (Slot ν σ)) (u : Tensor ν σ α) : Prop where
  names : u.names = l.map Slot.name
  wf : WF u
  edges : u.core.edges = l.map Slot.edge
  blocks : u.core.blocks ≠ []
  elem : ∀ p, ValidPos u p → elem u p = some (if AtSlots l p then 1 else 0)

theorem mkTensor_slots (junk : List σ → ℕ → α) (l : List (Slot ν σ)) (hn : (l.map Slot.name).Nodup) :
    mkTensor junk (l.map Slot.name) (l.map Slot.edge) = .ok ⟨l.map Slot.name,
      prunedEdges (l.map Slot.edge), freshBlocks junk ((l.map Slot.edge).map Edge.map)⟩ := by
  have := mkTensor_eq junk (l.map Slot.name) (l.map Slot.edge) false (slot_sorted l) (by simp) hn
  have ha : arrowed (l.map Slot.edge) false = l.map Slot.edge := by simp [arrowed]
  rwa [ha] at this

theorem unitTensor_ub [Zero α] [One α] (junk : List σ → ℕ → α) (l : List (Slot ν σ)) (o : ℕ)
    (hn : (l.map Slot.name).Nodup) (h0 : (l.map Slot.sym).sum ≠ 0) :
    unitTensor junk (l.map Slot.name) (l.map Slot.edge) o = .ub := by
  unfold unitTensor
  rw [mkTensor_slots junk l hn]
  unfold freshBlocks
  rw [singles_none l h0]
  rfl

theorem unitTensor_spec [Zero α] [One α] (junk : List σ → ℕ → α) (l : List (Slot ν σ)) {o : ℕ}
    (ho : o = slotOffset l)
    (hn : (l.map Slot.name).Nodup) (h0 : (l.map Slot.sym).sum = 0) (hi : ∀ s ∈ l, s.index < s.dim) :
    ∃ u, unitTensor junk (l.map Slot.name) (l.map Slot.edge) o = .ok u ∧ UnitView l u := by
  have hbox : InBox (l.map Slot.dim) (l.map Slot.index) := by
    unfold InBox
    rw [List.forall₂_map_left_iff, List.forall₂_map_right_iff]
    exact List.forall₂_same.2 hi
  set size := (l.map Slot.dim).prod with hsz
  have hlt : o < size := by rw [ho, slotOffset_eq]; exact rowMajor_lt hbox
  have hz : (zero (⟨l.map Slot.name, prunedEdges (l.map Slot.edge),
      freshBlocks junk ((l.map Slot.edge).map Edge.map)⟩ : Tensor ν σ α)).core.blocks =
      [(l.map Slot.sym, List.replicate size 0)] := by
    rw [zero_eq]
    unfold mapTensor freshBlocks
    rw [singles_shapes l h0]
    simp [hsz, Function.comp_def, List.map_const']
  have hwf : WF (⟨l.map Slot.name, prunedEdges (l.map Slot.edge),
      [(l.map Slot.sym, (List.replicate size 0).set o 1)]⟩ : Tensor ν σ α) := by
    have := wf_fresh (fun _ _ => (0 : α)) (l.map Slot.name) (l.map Slot.edge) false (slot_sorted l)
      (by simp) hn
    have ha : arrowed (l.map Slot.edge) false = l.map Slot.edge := by simp [arrowed]
    rw [ha] at this
    refine ⟨this.rank, this.nodup, this.sorted, ?_, this.pruned⟩
    have hb := this.blocks
    unfold freshBlocks at hb
    rw [singles_shapes l h0] at hb
    simpa using hb
  refine ⟨⟨l.map Slot.name, prunedEdges (l.map Slot.edge),
      [(l.map Slot.sym, (List.replicate size 0).set o 1)]⟩, ?_, rfl, hwf, singles_pruned l h0, by simp,
      fun p hp => ?_⟩
  · unfold unitTensor
    rw [mkTensor_slots junk l hn]
    simp only [Outcome.bind]
    rw [hz]
    simp [hlt]
  · have hv := hp
    obtain ⟨hv1, hv2⟩ := hv
    rw [singles_pruned l h0] at hv1
    simp only [List.map_map, List.forall₂_map_left_iff, List.forall₂_map_right_iff] at hv1
    have hv' : ∀ s ∈ l, (p s.name).1 = s.sym ∧ (p s.name).2 < s.dim := by
      intro s hs
      have := List.forall₂_same.1 hv1 s hs
      simp only [Function.comp, Slot.edge, dimOf, OMap.find?] at this
      by_cases he : (p s.name).1 = s.sym
      · rw [if_pos he] at this
        exact ⟨he, this⟩
      · rw [if_neg he] at this
        simp at this
    have hkey : keyOf (l.map Slot.name) p = l.map Slot.sym := by
      unfold keyOf
      rw [List.map_map]
      exact List.map_congr_left fun s hs => (hv' s hs).1
    have hidx : InBox (l.map Slot.dim) (idxOf (l.map Slot.name) p) := by
      unfold InBox idxOf
      rw [List.map_map, List.forall₂_map_left_iff, List.forall₂_map_right_iff]
      exact List.forall₂_same.2 fun s hs => (hv' s hs).2
    have hdims : dimsOf (l.map Slot.edge) (l.map Slot.sym) = l.map Slot.dim := by
      unfold dimsOf
      rw [List.zipWith_map, List.zipWith_self]
      exact List.map_congr_left fun s _ => by simp [dimOf, Slot.edge, OMap.find?]
    unfold TAT.elem elemAt
    dsimp only
    rw [hkey, singles_pruned l h0, hdims]
    simp only [OMap.find?, if_true]
    dsimp only [Option.bind]
    have hlt' := rowMajor_lt hidx
    rw [List.getElem?_set, List.length_replicate]
    by_cases ha : AtSlots l p
    · have : idxOf (l.map Slot.name) p = l.map Slot.index := by
        unfold idxOf
        rw [List.map_map]
        exact List.map_congr_left fun s hs => by simp [ha s hs]
      rw [if_pos ha, this, ho, slotOffset_eq, if_pos rfl, if_pos (rowMajor_lt hbox)]
    · rw [if_neg ha, if_neg, List.getElem?_replicate, if_pos hlt']
      intro he
      apply ha
      rw [ho, slotOffset_eq] at he
      have := rowMajor_inj hbox hidx he
      unfold idxOf at this
      rw [List.map_map] at this
      intro s hs
      exact Prod.ext (hv' s hs).1 (List.map_inj_left.1 this s hs).symm

/-- The position with the symmetries and indices of the slots on the edges `C`. -/
def atSlot (l : List (Slot ν σ)) (C : List ν) (p : ν → σ × ℕ) (n : ν) : σ × ℕ :=
  match l.find? fun s => decide (s.name = n) with
  | some s => if n ∈ C then (s.sym, s.index) else p n
  | none => p n

theorem atSlot_mem {l : List (Slot ν σ)} (hn : (l.map Slot.name).Nodup) {C : List ν}
    (p : ν → σ × ℕ) {s : Slot ν σ} (hs : s ∈ l) (hC : s.name ∈ C) :
    atSlot l C p s.name = (s.sym, s.index) := by
  unfold atSlot
  cases hf : l.find? fun y => decide (y.name = s.name) with
  | none =>
    rw [List.find?_eq_none] at hf
    simpa using hf s hs
  | some y =>
    have : y = s := List.inj_on_of_nodup_map hn (List.mem_of_find?_eq_some hf) hs
      (by simpa using List.find?_some hf)
    rw [this]
    exact if_pos hC

theorem atSlot_not {l : List (Slot ν σ)} {C : List ν} (p : ν → σ × ℕ) {n : ν} (hC : n ∉ C) :
    atSlot l C p n = p n := by
  unfold atSlot
  cases l.find? fun y => decide (y.name = n) with
  | none => rfl
  | some y => exact if_neg hC

theorem UnitView.map [Zero α] [One α] {l : List (Slot ν σ)} {u : Tensor ν σ α} (h : UnitView l u)
    {s : Slot ν σ} (hs : s ∈ l) : edgeOf u s.name = s.edge := by
  have := edges_named h.wf
  rw [h.edges, h.names, List.map_map] at this
  exact (List.map_inj_left.1 this s hs).symm

/-- Contraction with the helper tensor takes the slice. -/
theorem contracted_unit [CommRing α] {l : List (Slot ν σ)} {u t : Tensor ν σ α} (h : UnitView l u)
    (ht : WF t) (hi : ∀ s ∈ l, s.index < s.dim) {C : List ν} (hC : C.Nodup)
    (hCu : ∀ n ∈ C, n ∈ l.map Slot.name) (h0 : (l.map Slot.sym).sum = 0) (p : ν → σ × ℕ) :
    contracted u t (C.map fun n => (n, n)) p =
      if AtSlots (l.filter fun s => decide (s.name ∉ C)) p then
        contractSign u t (C.map fun n => (n, n)) (atSlot l C p)
          (partner (C.map fun n => (n, n)) p (atSlot l C p)) •
          amp t (partner (C.map fun n => (n, n)) p (atSlot l C p))
      else 0 := by
  have hn : (l.map Slot.name).Nodup := h.names ▸ h.wf.nodup
  have c1 : (C.map fun n => (n, n)).map Prod.fst = C := by
    rw [List.map_map]; exact List.map_id _
  have hval : ∀ w, ValidPos u w ↔ (∀ s ∈ l, (w s.name).1 = s.sym ∧ (w s.name).2 < s.dim) := by
    intro w
    rw [validPos_iff h.wf, h.names]
    have hd : ∀ s ∈ l, dimM (mapOf u s.name) (w s.name).1 =
        if (w s.name).1 = s.sym then s.dim else 0 := by
      intro s hs
      unfold mapOf
      rw [h.map hs]
      unfold dimM Slot.edge
      simp only [OMap.find?]
      split <;> rfl
    constructor
    · rintro ⟨h1, _⟩ s hs
      have := h1 s.name (List.mem_map_of_mem hs)
      rw [hd s hs] at this
      by_cases he : (w s.name).1 = s.sym
      · rw [if_pos he] at this; exact ⟨he, this⟩
      · rw [if_neg he] at this; simp at this
    · intro h1
      refine ⟨fun n hn => ?_, ?_⟩
      · obtain ⟨s, hs, rfl⟩ := List.mem_map.1 hn
        rw [hd s hs, if_pos (h1 s hs).1]
        exact (h1 s hs).2
      · rw [← h0]
        congr 1
        unfold keyOf
        rw [List.map_map]
        exact List.map_congr_left fun s hs => (h1 s hs).1
  have hamp : ∀ w, amp u w = if AtSlots l w then 1 else 0 := by
    intro w
    by_cases hv : ValidPos u w
    · have := h.elem w hv
      rw [amp_valid h.wf hv] at this
      exact Option.some.inj this
    · rw [amp_zero h.wf hv, if_neg]
      intro ha
      exact hv ((hval w).2 fun s hs => by rw [ha s hs]; exact ⟨rfl, hi s hs⟩)
  have hAt : ∀ w : ν → σ × ℕ, (∀ n, n ∉ C → w n = p n) → (AtSlots l w ↔
      AtSlots (l.filter fun s => decide (s.name ∉ C)) p ∧ w = atSlot l C p) := by
    intro w hw
    constructor
    · intro ha
      refine ⟨fun s hs => ?_, funext fun n => ?_⟩
      · rw [List.mem_filter] at hs
        rw [← hw s.name (by simpa using hs.2)]
        exact ha s hs.1
      · by_cases hnC : n ∈ C
        · obtain ⟨s, hs, rfl⟩ := List.mem_map.1 (hCu n hnC)
          rw [atSlot_mem hn p hs hnC]
          exact ha s hs
        · rw [atSlot_not p hnC]
          exact hw n hnC
    · rintro ⟨ha, rfl⟩ s hs
      by_cases hnC : s.name ∈ C
      · exact atSlot_mem hn p hs hnC
      · rw [atSlot_not p hnC]
        exact ha s (List.mem_filter.2 ⟨hs, by simpa using hnC⟩)
  unfold contracted
  rw [c1]
  refine (sumOver_single (w0 := atSlot l C p) hC (fun n hn' => ?_) (fun n hn' => ?_)
    (fun n hn' => atSlot_not p hn') (fun w' _ hw' hne => ?_)).trans ?_
  · exact edgePositions_nodup (mapOf_sorted h.wf _ (by rw [h.names]; exact hCu n hn'))
  · rw [mem_edgePositions (mapOf_sorted h.wf _ (by rw [h.names]; exact hCu n hn'))]
    obtain ⟨s, hs, rfl⟩ := List.mem_map.1 (hCu n hn')
    rw [atSlot_mem hn p hs hn']
    unfold mapOf
    rw [h.map hs]
    simp only [dimM, Slot.edge, OMap.find?, if_true]
    exact hi s hs
  · rw [hamp, if_neg, zero_mul, smul_zero]
    intro ha
    exact hne ((hAt w' hw').1 ha).2
  · rw [hamp]
    by_cases ha : AtSlots (l.filter fun s => decide (s.name ∉ C)) p
    · rw [if_pos ha, if_pos ((hAt _ fun n hn => atSlot_not p hn).2 ⟨ha, rfl⟩), one_mul]
    · rw [if_neg ha, if_neg fun hc => ha ((hAt _ fun n hn => atSlot_not p hn).1 hc).1, zero_mul,
        smul_zero]

end TAT
