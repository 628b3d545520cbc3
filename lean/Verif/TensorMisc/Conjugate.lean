import Verif.TensorMisc.Lemmas
import Verif.EdgeMisc.MergeProps

/-!
# Properties of `conjugate` (C26)
-/

set_option linter.unusedSectionVars false

namespace TAT

variable {ν σ α β : Type} [LinearOrder ν] [TatSym σ]

/-- The position with all symmetries negated. -/
def negPos (p : ν → σ × ℕ) : ν → σ × ℕ := fun n => (-(p n).1, (p n).2)

/-- The sign of conjugation: that of reversing the order of all edges. -/
def conjSign (names : List ν) (p : ν → σ × ℕ) : ℤ :=
  if TatSym.isFermi σ then reversalSign (names.map (oddAt p)) else 1

theorem find?_negFold (l acc : List (σ × ℕ)) (hn : (l.map Prod.fst).Nodup) (s : σ) :
    OMap.find? (l.foldl (fun m x => OMap.set m (-x.1) x.2) acc) s =
      (OMap.find? l (-s)).or (OMap.find? acc s) := by
  induction l generalizing acc with
  | nil => rfl
  | cons x l ih =>
    rw [List.map_cons, List.nodup_cons] at hn
    rw [List.foldl_cons, ih _ hn.2, OMap.find?_set]
    simp only [OMap.find?]
    by_cases h : -s = x.1
    · have h' : s = -x.1 := by rw [← h, neg_neg]
      have hnone : OMap.find? l (-s) = none := by
        rw [OMap.find?_eq_none, h]; exact hn.1
      rw [if_pos h, if_pos h', hnone]; rfl
    · have h' : ¬ s = -x.1 := fun e => h (by rw [e, neg_neg])
      rw [if_neg h, if_neg h']

theorem conjEdge_sorted (e : Edge σ) : OMap.Sorted (conjEdge e).map := by
  unfold conjEdge
  generalize e.map = l
  suffices ∀ acc : List (σ × ℕ), OMap.Sorted acc →
      OMap.Sorted (l.foldl (fun m x => OMap.set m (-x.1) x.2) acc) from
    this [] List.Pairwise.nil
  induction l with
  | nil => exact fun acc h => h
  | cons x l ih => exact fun acc h => ih _ (h.set _ _)

theorem find?_conjEdge {e : Edge σ} (h : OMap.Sorted e.map) (s : σ) :
    OMap.find? (conjEdge e).map s = OMap.find? e.map (-s) := by
  have := find?_negFold e.map [] h.nodup s
  unfold conjEdge
  rw [this]
  cases OMap.find? e.map (-s) <;> rfl

theorem keyOf_negPos (names : List ν) (p : ν → σ × ℕ) :
    keyOf names (negPos p) = (keyOf names p).map Neg.neg := by
  unfold keyOf negPos
  rw [List.map_map]; rfl

theorem sum_neg_list (l : List σ) : (l.map Neg.neg).sum = -l.sum := by
  induction l with
  | nil => simp
  | cons x l ih => rw [List.map_cons, List.sum_cons, ih, List.sum_cons, neg_add]

theorem negPos_negPos (p : ν → σ × ℕ) : negPos (negPos p) = p := by
  funext n; simp [negPos]

theorem oddAt_negPos (p : ν → σ × ℕ) : oddAt (negPos p) = oddAt p := by
  funext n
  unfold oddAt negPos
  exact TatSym.odd_neg _

section
variable {t : Tensor ν σ α}

theorem conj_dim (h : WF t) {n : ν} (hn : n ∈ t.names) (s : σ) :
    dimM (conjEdge (edgeOf t n)).map (-s) = dimM (mapOf t n) s := by
  unfold dimM
  rw [find?_conjEdge (mapOf_sorted h n hn), neg_neg]; rfl

theorem conj_keyOk (h : WF t) (p : ν → σ × ℕ) :
    KeyOk (fun n => (conjEdge (edgeOf t n)).map) t.names (negPos p) ↔ KeyOk (mapOf t) t.names p := by
  unfold KeyOk
  rw [keyOf_negPos, sum_neg_list, neg_eq_zero]
  refine and_congr_left fun _ => forall₂_congr fun n hn => ?_
  rw [← OMap.find?_isSome, ← OMap.find?_isSome, find?_conjEdge (mapOf_sorted h n hn)]
  simp [negPos, mapOf]

theorem conj_pruned (h : WF t) :
    prunedEdges (t.names.map fun n => conjEdge (edgeOf t n)) =
      t.names.map fun n => conjEdge (edgeOf t n) := by
  have hp := h.pruned
  rw [edges_named h, prunedEdges_eq_iff h.nodup] at hp
  rw [prunedEdges_eq_iff h.nodup]
  intro n hn s hs
  rw [← OMap.find?_isSome, find?_conjEdge (mapOf_sorted h n hn), OMap.find?_isSome] at hs
  obtain ⟨p, hk, he⟩ := hp n hn (-s) hs
  exact ⟨negPos p, (conj_keyOk h p).2 hk, by simp [negPos, he]⟩

theorem sgn_conj (names : List ν) (p : ν → σ × ℕ) :
    sgn (TatSym.isFermi σ && getSplitMergeParity ((keyOf names p).map TatSym.fermi)
      (List.replicate names.length 0) [true]) = conjSign names p := by
  have h := sgn_getSplitMergeParity [(keyOf names p).map TatSym.fermi] [true] rfl
  have hf : flagsOf [(keyOf names p).map TatSym.fermi] = List.replicate names.length 0 := by
    simp [flagsOf, flagsFrom, keyOf]
  rw [hf] at h
  simp only [List.flatten_cons, List.flatten_nil, List.append_nil, markedSign, if_true,
    mul_one] at h
  unfold conjSign
  cases TatSym.isFermi σ with
  | false => simp
  | true =>
    simp only [Bool.true_and, if_true]
    rw [h]
    congr 1
    unfold keyOf oddAt
    rw [List.map_map, List.map_map]
    rfl

/-- **C26**: `conjugate` negates every symmetry, flips every fermionic arrow and conjugates every
element. For fermionic tensors an element also gets the sign of reversing the order of its odd
edges. -/
theorem C26_conjugate [Neg α] (junk : List σ → ℕ → α) (conj : α → α) (isReal : Bool)
    (hreal : isReal = true → ∀ x, conj x = x) (h : WF t) :
    ∃ r, conjugate junk conj isReal t = .ok r ∧ WF r ∧ r.names = t.names ∧
      (∀ n ∈ t.names, (edgeOf r n).arrow =
        if TatSym.isFermi σ then !(edgeOf t n).arrow else (edgeOf t n).arrow) ∧
      (∀ n ∈ t.names, ∀ s, OMap.find? (mapOf r n) (-s) = OMap.find? (mapOf t n) s) ∧
      (∀ p, ValidPos r (negPos p) ↔ ValidPos t p) ∧
      ∀ p, ValidPos t p →
        elem r (negPos p) = (elem t p).map fun x => applySign (conjSign t.names p) (conj x) := by
  unfold conjugate
  by_cases hc : (TatSym.isNoSym σ && isReal) = true
  · rw [if_pos hc]
    rw [Bool.and_eq_true] at hc
    have hneg : ∀ s : σ, -s = s := fun s => TatSym.noSym_eq hc.1 _ _
    have hp : ∀ p : ν → σ × ℕ, negPos p = p := fun p => by
      funext n; unfold negPos; rw [hneg]
    have hb := TatSym.noSym_bose hc.1
    refine ⟨t, rfl, h, rfl, fun n _ => by simp [hb], fun n _ s => by rw [hneg], fun p => by rw [hp],
      fun p _ => ?_⟩
    rw [hp]
    have : (fun x => applySign (conjSign t.names p) (conj x)) = (id : α → α) := by
      funext x
      simp [conjSign, hb, applySign, hreal hc.2]
    rw [this, Option.map_id]; rfl
  rw [if_neg hc]
  have hedges : t.core.edges.map conjEdge = t.names.map fun n => conjEdge (edgeOf t n) := by
    conv_lhs => rw [edges_named h]
    rw [List.map_map]; rfl
  obtain ⟨r0, hr0, hF⟩ := mkTensor_fresh junk h.nodup (fun n => conjEdge (edgeOf t n))
    (fun n _ => conjEdge_sorted _)
  rw [hedges, hr0]
  obtain ⟨nm, co⟩ := r0
  obtain rfl : nm = t.names := hF.namesEq
  change ∃ r, (forBlocks _ _ t.core.blocks co.blocks).bind _ = _ ∧ _
  have hlenEq : ∀ p, KeyOk (mapOf t) t.names p → ∀ d d0,
      OMap.find? t.core.blocks (keyOf t.names p) = some d →
      OMap.find? co.blocks (keyOf t.names (negPos p)) = some d0 → d0.length = d.length := by
    intro p hk d d0 hd hd0
    rw [hF.length hd0, length_named h hd]
    congr 1
    exact List.map_congr_left fun n hn => conj_dim h hn _
  let val : List σ × List α → List α := fun c => c.2.map fun x => signed (TatSym.isFermi σ &&
    getSplitMergeParity (c.1.map TatSym.fermi) (List.replicate t.names.length 0) [true]) (conj x)
  have hsrc : ∀ c ∈ t.core.blocks, ∃ p, keyOf t.names p = c.1 ∧ KeyOk (mapOf t) t.names p ∧
      OMap.find? t.core.blocks c.1 = some c.2 := by
    intro c hc
    have hf := OMap.find?_of_mem h.blocksSorted.nodup hc
    have hm : c.1 ∈ OMap.keys t.core.blocks := OMap.find?_isSome.1 (by rw [hf]; rfl)
    obtain ⟨p, hp⟩ := exists_key h hm
    exact ⟨p, hp, (mem_keys_named h p).1 (hp ▸ hm), hf⟩
  obtain ⟨m, h1, h2, h3, h4, h5⟩ := forBlocks_spec (key := fun k => k.map Neg.neg)
    (body := conjBlock conj t.names.length) (src := t.core.blocks) val hF.wf.blocksSorted (by
      have hnd := h.blocksSorted.nodup
      have := hnd.map (f := fun k : List σ => k.map Neg.neg)
        (List.map_injective_iff.2 neg_injective)
      unfold OMap.keys at this
      rw [List.map_map] at this
      exact this) (fun c hc => by
      obtain ⟨p, hp, hk, hf⟩ := hsrc c hc
      have hm := (hF.keys (negPos p)).2 ((conj_keyOk h p).2 hk)
      obtain ⟨d0, hd0⟩ := Option.isSome_iff_exists.1 (OMap.find?_isSome.2 hm)
      have hl := hlenEq p hk c.2 d0 (hp ▸ hf) hd0
      rw [keyOf_negPos, hp] at hd0
      refine ⟨d0, hd0, ?_⟩
      unfold conjBlock stdTransform
      simp only
      rw [if_neg (by omega), ← hl, List.drop_length, List.append_nil])
  have hkeys : ∀ k, k ∈ OMap.keys co.blocks → ∃ p, keyOf t.names (negPos p) = k ∧
      KeyOk (mapOf t) t.names p := by
    intro k hk
    obtain ⟨q, hq⟩ := exists_key hF.wf hk
    change keyOf t.names q = k at hq
    have hq' := (hF.keys q).1 (hq ▸ hk)
    refine ⟨negPos q, by rw [negPos_negPos, hq], ?_⟩
    rw [← conj_keyOk h, negPos_negPos]; exact hq'
  have hwf : WF (⟨t.names, ⟨co.edges, m⟩⟩ : Tensor ν σ α) := by
    refine wf_of_blocks hF.wf h2 h3 fun k d d0 hd hd0 => ?_
    obtain ⟨p, hp, hk⟩ := hkeys k (OMap.find?_isSome.1 (by rw [hd0]; rfl))
    obtain ⟨d1, hd1⟩ := Option.isSome_iff_exists.1 (OMap.find?_isSome.2 ((mem_keys_named h p).2 hk))
    have hv := h4 (keyOf t.names p, d1) (OMap.mem_of_find? hd1)
    simp only [← keyOf_negPos] at hv
    rw [hp, hd, Option.some.injEq] at hv
    rw [hlenEq p hk d1 d0 hd1 (by rw [hp]; exact hd0), hv]
    simp [val]
  have hr : co.edges = t.names.map fun n => conjEdge (edgeOf t n) := by
    rw [show co.edges = _ from hF.edges, conj_pruned h]
  have hedge : ∀ n ∈ t.names, edgeOf (⟨t.names, ⟨co.edges, m⟩⟩ : Tensor ν σ α) n =
      conjEdge (edgeOf t n) := by
    exact edgeOf_unique hwf (e := fun n => conjEdge (edgeOf t n)) hr
  refine ⟨_, by rw [h1]; rfl, hwf, hF.namesEq, fun n hn => ?_, fun n hn s => ?_, fun p => ?_,
    fun p hv => ?_⟩
  · rw [hedge n hn]; rfl
  · unfold mapOf
    rw [hedge n hn, find?_conjEdge (mapOf_sorted h n hn), neg_neg]
  · rw [validPos_iff hwf, validPos_iff h]
    unfold FineOk
    rw [keyOf_negPos, sum_neg_list, neg_eq_zero]
    refine and_congr_left fun _ => forall₂_congr fun n hn => ?_
    have := conj_dim h hn (p n).1
    unfold mapOf at this ⊢
    rw [hedge n hn]
    change (p n).2 < dimM _ (-(p n).1) ↔ _
    rw [this]
  · obtain ⟨d, hd, _⟩ := h.valid_block hv
    have hv' := h4 (keyOf t.names p, d) (OMap.mem_of_find? hd)
    simp only [← keyOf_negPos] at hv'
    rw [elem_named hwf, elem_named h, hd, hv']
    simp only [Option.bind_some]
    have hdims : (t.names.map fun n => dimM (mapOf (⟨t.names, ⟨co.edges, m⟩⟩ :
        Tensor ν σ α) n) (negPos p n).1) = t.names.map fun n => dimM (mapOf t n) (p n).1 := by
      refine List.map_congr_left fun n hn => ?_
      rw [← conj_dim h hn]
      unfold mapOf
      rw [hedge n hn]; rfl
    rw [hdims]
    have hidx : idxOf t.names (negPos p) = idxOf t.names p := rfl
    rw [hidx]
    simp only [val, List.getElem?_map]
    rw [signed_eq, sgn_conj]

/-- **C26**: conjugating twice restores the tensor. -/
theorem C26_involution [InvolutiveNeg α] (junk junk' : List σ → ℕ → α) (conj : α → α)
    (isReal : Bool) (hreal : isReal = true → ∀ x, conj x = x) (hconj : ∀ x, conj (conj x) = x)
    (hneg : ∀ x, conj (-x) = -conj x) (h : WF t) :
    (conjugate junk conj isReal t).bind (conjugate junk' conj isReal) = .ok t := by
  obtain ⟨r, h1, h2, h3, h4, h5, h6, h7⟩ := C26_conjugate junk conj isReal hreal h
  obtain ⟨r', g1, g2, g3, g4, g5, g6, g7⟩ := C26_conjugate junk' conj isReal hreal h2
  rw [h1]
  change conjugate junk' conj isReal r = _
  rw [g1]
  congr 1
  have hedges : r'.core.edges = t.core.edges := by
    rw [edges_named g2, edges_named h, g3, h3]
    refine List.map_congr_left fun n hn => ?_
    have ha : (edgeOf r' n).arrow = (edgeOf t n).arrow := by
      rw [g4 n (h3 ▸ hn), h4 n hn]
      split <;> simp
    have hm : (edgeOf r' n).map = (edgeOf t n).map := by
      refine OMap.ext (mapOf_sorted g2 n (by rw [g3, h3]; exact hn)) (mapOf_sorted h n hn)
        fun s => ?_
      have e1 := g5 n (h3 ▸ hn) (-s)
      have e2 := h5 n hn s
      rw [neg_neg] at e1
      exact e1.trans e2
    cases h1 : edgeOf r' n
    cases h2 : edgeOf t n
    rw [h1, h2] at ha hm
    simp only at ha hm
    rw [ha, hm]
  have hvalid : ∀ p, ValidPos r' p ↔ ValidPos t p := fun p => by
    have e1 := g6 (negPos p)
    rw [negPos_negPos] at e1
    exact e1.trans (h6 p)
  refine tensor_ext g2 h (g3.trans h3) hedges fun p hp => ?_
  have hp' := (hvalid p).1 hp
  have e1 := g7 (negPos p) ((h6 p).2 hp')
  rw [negPos_negPos, h7 p hp', h3, Option.map_map] at e1
  rw [e1]
  have hs : conjSign t.names (negPos p) = conjSign t.names p := by
    unfold conjSign; rw [oddAt_negPos]
  have hsq : conjSign t.names p = 1 ∨ conjSign t.names p = -1 := by
    unfold conjSign
    split
    · exact mul_self_eq_one_iff.1 (reversalSign_sq _)
    · exact Or.inl rfl
  have : ((fun x => applySign (conjSign t.names (negPos p)) (conj x)) ∘
      fun x => applySign (conjSign t.names p) (conj x)) = (id : α → α) := by
    funext x
    rw [hs]
    rcases hsq with e | e <;> simp [e, applySign, hconj, hneg]
  rw [this, Option.map_id]; rfl

end

end TAT
