import Verif.Contract.Gemm

/-!
# The product tensor
-/

set_option linter.unusedSectionVars false

namespace TAT

variable {ν σ α : Type} [LinearOrder ν] [TatSym σ]

/-- Two things in order or exchanged. -/
def pairOf {β : Type} (straight : Bool) (x y : β) : List β := if straight then [x, y] else [y, x]

theorem two_keys {t : Tensor ν σ α} (h : WF t) {r : Bool} {A B : Edge σ}
    (he : t.core.edges = pairOf r A B) {s : σ} (hs : s ∈ OMap.keys A.map) :
    -s ∈ OMap.keys B.map := by
  have hp := h.pruned
  have hn := h.nodup
  have hE := edges_named h
  rw [hE] at hp
  rw [prunedEdges_eq_iff hn] at hp
  rw [hE] at he
  unfold pairOf at he
  cases r
  · simp only [Bool.false_eq_true, if_false] at he
    match hnm : t.names, he with
    | [b, a], he =>
      simp only [List.map_cons, List.map_nil, List.cons.injEq, and_true] at he
      rw [hnm] at hp
      obtain ⟨p, ⟨h1, h2⟩, h3⟩ := hp a (by simp) s (by rw [he.2]; exact hs)
      have h4 := h1 b (by simp)
      dsimp only at h4
      simp only [keyOf, List.map_cons, List.map_nil, List.sum_cons, List.sum_nil, add_zero] at h2
      rw [he.1, eq_neg_of_add_eq_zero_left h2, h3] at h4
      exact h4
  · simp only [if_true] at he
    match hnm : t.names, he with
    | [a, b], he =>
      simp only [List.map_cons, List.map_nil, List.cons.injEq, and_true] at he
      rw [hnm] at hp
      obtain ⟨p, ⟨h1, h2⟩, h3⟩ := hp a (by simp) s (by rw [he.1]; exact hs)
      have h4 := h1 b (by simp)
      dsimp only at h4
      simp only [keyOf, List.map_cons, List.map_nil, List.sum_cons, List.sum_nil, add_zero] at h2
      rw [he.2, eq_neg_of_add_eq_zero_right h2, h3] at h4
      exact h4

theorem two_block [Zero α] {t : Tensor ν σ α} (h : WF t) {r : Bool} {A B : Edge σ}
    (he : t.core.edges = pairOf r A B) {s s' : σ} (hs : s ∈ OMap.keys A.map)
    (hs' : s' ∈ OMap.keys B.map) (h0 : s + s' = 0) :
    ∃ d, OMap.find? t.core.blocks (pairOf r s s') = some d ∧ d.length = dimOf A s * dimOf B s' ∧
      ∀ j < dimOf A s, ∀ l < dimOf B s', elemAt t.core (pairOf r s s') (pairOf r j l) =
        some (d.getD (cell r (dimOf A s) (dimOf B s') j l) 0) := by
  have hk : List.Forall₂ (fun (e : Edge σ) s => s ∈ OMap.keys e.map) t.core.edges
      (pairOf r s s') := by
    rw [he]; unfold pairOf
    cases r
    · exact .cons hs' (.cons hs .nil)
    · exact .cons hs (.cons hs' .nil)
  have hsum : (pairOf r s s').sum = 0 := by
    unfold pairOf
    cases r
    · simpa [add_comm] using h0
    · simpa using h0
  obtain ⟨d, hd, hl⟩ := h.block_of_keys hk hsum
  have hl' : d.length = dimOf A s * dimOf B s' := by
    rw [hl, he]
    unfold pairOf dimsOf
    cases r <;> simp [mul_comm]
  refine ⟨d, hd, hl', fun j hj l hl2 => ?_⟩
  have hlt := cell_lt (s := r) hj hl2
  unfold elemAt
  rw [hd, Option.bind_some]
  have : rowMajor (dimsOf t.core.edges (pairOf r s s')) (pairOf r j l) =
      cell r (dimOf A s) (dimOf B s') j l := by
    rw [he]
    unfold pairOf dimsOf cell
    cases r <;> simp [rowMajor]
  rw [this, List.getElem?_eq_getElem (by omega), List.getD_eq_getElem?_getD,
    List.getElem?_eq_getElem (by omega), Option.getD_some]

/-- The edges of the product by name. -/
def productEdge (cn : ContractNames ν) (F1 F2 : Edge σ) (n : ν) : Edge σ := if n = cn.c1 then F1 else F2

/-- The factor of a block of the product. -/
def alphaOf [One α] [Neg α] (right1 right2 : Bool) (s : σ) : α :=
  if TatSym.isFermi σ && (right2 ^^ !right1) && oddInt (TatSym.fermi s) then -1 else 1

theorem contractProduct_spec [CommRing α] {g : Gemm α} (hg : GemmOk g) (junk : List σ → ℕ → α)
    {cn : ContractNames ν} (hcn : cn.c1 ≠ cn.c2) {right1 right2 : Bool} {m1 m2 : Tensor ν σ α}
    (h1 : WF m1) (h2 : WF m2) {F1 K1 F2 K2 : Edge σ} (he1 : m1.core.edges = pairOf right1 F1 K1)
    (he2 : m2.core.edges = pairOf right2 F2 K2) (hK : ∀ s ∈ OMap.keys K1.map,
      -s ∈ OMap.keys K2.map → dimOf K2 (-s) = dimOf K1 s) :
    ∃ r, contractProduct g junk cn right1 right2 m1 m2 = .ok r ∧
      Fresh [cn.c1, cn.c2] (productEdge cn F1 F2) r ∧
      ∀ s0 ∈ OMap.keys F1.map, ∀ s1 ∈ OMap.keys F2.map, s0 + s1 = 0 →
        ∀ j < dimOf F1 s0, ∀ i < dimOf F2 s1, elemAt r.core [s0, s1] [j, i] =
          some (alphaOf right1 right2 s0 * ((List.range (dimOf K1 s1)).map fun l =>
            (elemAt m1.core (pairOf right1 s0 s1) (pairOf right1 j l)).getD 0 *
            (elemAt m2.core (pairOf right2 s1 s0) (pairOf right2 i l)).getD 0).sum) := by
  have hn : [cn.c1, cn.c2].Nodup := by simp [hcn]
  have hmap : [cn.c1, cn.c2].map (productEdge cn F1 F2) = [F1, F2] := by
    simp [productEdge, Ne.symm hcn]
  have hsF1 : OMap.Sorted F1.map := h1.sorted _ (by rw [he1]; cases right1 <;> simp [pairOf])
  have hsF2 : OMap.Sorted F2.map := h2.sorted _ (by rw [he2]; cases right2 <;> simp [pairOf])
  obtain ⟨p, hp, hf⟩ := mkTensor_fresh junk hn (productEdge cn F1 F2) (by
    intro n _
    unfold productEdge
    split
    · exact hsF1
    · exact hsF2)
  rw [hmap] at hp
  obtain ⟨pn, pc⟩ := p
  obtain rfl : pn = [cn.c1, cn.c2] := hf.namesEq
  have hpe : pc.edges = prunedEdges [F1, F2] := by rw [← hmap]; exact hf.edges
  have hd1 : m1.core.edges.getD (if right1 then 0 else 1) {} = F1 := by
    rw [he1]; cases right1 <;> simp [pairOf]
  have hd2 : m2.core.edges.getD (if right2 then 0 else 1) {} = F2 := by
    rw [he2]; cases right2 <;> simp [pairOf]
  have hd3 : m1.core.edges.getD (if right1 then 1 else 0) {} = K1 := by
    rw [he1]; cases right1 <;> simp [pairOf]
  -- keys of the product
  have hkeys : ∀ k, k ∈ OMap.keys pc.blocks ↔ ∃ s0 s1, k = [s0, s1] ∧ s0 ∈ OMap.keys F1.map ∧
      s1 ∈ OMap.keys F2.map ∧ s0 + s1 = 0 := by
    intro k
    have hE : prunedEdges [F1, F2] = pc.edges := hpe.symm
    constructor
    · intro hk
      obtain ⟨q, hq⟩ := exists_key hf.wf hk
      have := (hf.keys q).1 (by rw [show keyOf [cn.c1, cn.c2] q = k from hq]; exact hk)
      refine ⟨(q cn.c1).1, (q cn.c2).1, hq.symm, ?_, ?_, ?_⟩
      · have := this.1 cn.c1 (by simp)
        simpa [productEdge] using this
      · have := this.1 cn.c2 (by simp)
        simpa [productEdge, Ne.symm hcn] using this
      · simpa [keyOf] using this.2
    · rintro ⟨s0, s1, rfl, a0, a1, a2⟩
      have := (hf.keys fun n => if n = cn.c1 then (s0, 0) else (s1, 0)).2 ⟨?_, ?_⟩
      · simpa [keyOf, Ne.symm hcn] using this
      · intro n hn
        rcases List.mem_cons.1 hn with rfl | hn
        · simpa [productEdge] using a0
        · obtain rfl : n = cn.c2 := by simpa using hn
          simpa [productEdge, Ne.symm hcn] using a1
      · simpa [keyOf, Ne.symm hcn] using a2
  have hdims : ∀ s0 ∈ OMap.keys F1.map, ∀ s1 ∈ OMap.keys F2.map, s0 + s1 = 0 →
      dimsOf pc.edges [s0, s1] = [dimOf F1 s0, dimOf F2 s1] ∧
      OMap.find? (pc.edges.getD 0 {}).map s0 = some (dimOf F1 s0) ∧
      OMap.find? (pc.edges.getD 1 {}).map s1 = some (dimOf F2 s1) := by
    intro s0 a0 s1 a1 a2
    have hk : List.Forall₂ (fun (e : Edge σ) s => s ∈ OMap.keys e.map) [F1, F2] [s0, s1] :=
      .cons a0 (.cons a1 .nil)
    obtain ⟨b1, b2⟩ := pruned_keys (edges := [F1, F2]) (by
      intro e he
      rcases List.mem_cons.1 he with rfl | he
      · exact hsF1
      · obtain rfl : e = F2 := by simpa using he
        exact hsF2) hk (by simpa using a2)
    rw [← hpe] at b1 b2
    refine ⟨b2, ?_⟩
    match hpc : pc.edges, b1, b2 with
    | [e, e'], .cons c0 (.cons c1 .nil), b2 =>
      simp only [dimsOf, List.zipWith_cons_cons, List.zipWith_nil_left, List.cons.injEq,
        and_true] at b2
      obtain ⟨v, hv⟩ := Option.isSome_iff_exists.1 (OMap.find?_isSome.2 c0)
      obtain ⟨v', hv'⟩ := Option.isSome_iff_exists.1 (OMap.find?_isSome.2 c1)
      refine ⟨?_, ?_⟩
      · change OMap.find? e.map s0 = _
        rw [← b2.1, dimOf, hv]; rfl
      · change OMap.find? e'.map s1 = _
        rw [← b2.2, dimOf, hv']; rfl
  -- the jobs
  let jb : List σ → Job σ α := fun key =>
    match key with
    | [s0, s1] =>
      ⟨[s0, s1], 0, right2, !right1, dimOf F2 s1, dimOf F1 s0, dimOf K1 s1, alphaOf right1 right2 s0,
        (OMap.find? m2.core.blocks (pairOf right2 s1 s0)).getD [],
        if right2 then dimOf K1 s1 else dimOf F2 s1,
        (OMap.find? m1.core.blocks (pairOf right1 s0 s1)).getD [],
        if right1 then dimOf K1 s1 else dimOf F1 s0, 0, dimOf F2 s1⟩
    | _ => ⟨key, 0, false, false, 0, 0, 0, 0, [], 0, [], 0, 0, 0⟩
  have hjk : ∀ key, (jb key).key = key := by
    intro key
    simp only [jb]
    split <;> rfl
  have hjo : ∀ key, (jb key).offset = 0 := by
    intro key
    simp only [jb]
    split <;> rfl
  have hblk : ∀ s0 ∈ OMap.keys F1.map, ∀ s1 ∈ OMap.keys F2.map, s0 + s1 = 0 →
      s1 ∈ OMap.keys K1.map ∧ s0 ∈ OMap.keys K2.map ∧ dimOf K2 s0 = dimOf K1 s1 := by
    intro s0 a0 s1 a1 a2
    have e1 : -s0 = s1 := neg_eq_of_add_eq_zero_right a2
    have e2 : -s1 = s0 := neg_eq_of_add_eq_zero_left a2
    have k1 : s1 ∈ OMap.keys K1.map := e1 ▸ two_keys h1 he1 a0
    have k2 : s0 ∈ OMap.keys K2.map := e2 ▸ two_keys h2 he2 a1
    refine ⟨k1, k2, ?_⟩
    rw [← hK s1 k1 (by rw [e2]; exact k2), e2]
  have hjob : ∀ b ∈ pc.blocks, productJob right1 right2 (pc.edges.getD 0 {}) (pc.edges.getD 1 {})
      K1 m1.core.blocks m2.core.blocks b.1 = .ok (jb b.1) := by
    intro b hb
    obtain ⟨s0, s1, hk, a0, a1, a2⟩ := (hkeys b.1).1 (List.mem_map_of_mem hb)
    obtain ⟨k1, k2, k3⟩ := hblk s0 a0 s1 a1 a2
    obtain ⟨x, hx, -, -⟩ := two_block h1 he1 a0 k1 a2
    obtain ⟨y, hy, -, -⟩ := two_block h2 he2 a1 k2 (by rw [add_comm]; exact a2)
    obtain ⟨-, d0, d1⟩ := hdims s0 a0 s1 a1 a2
    obtain ⟨v, hv⟩ := Option.isSome_iff_exists.1 (OMap.find?_isSome.2 k1)
    have hv' : dimOf K1 s1 = v := by rw [dimOf, hv]; rfl
    rw [hk]
    simp only [jb, productJob]
    unfold pairOf at hx hy ⊢
    rw [hx, hy]
    simp only [d0, d1, hv, hv', Option.getD_some]
    rfl
  have hpass := productPass_eq hjob
  have hsorted : OMap.Sorted pc.blocks := hf.wf.blocksSorted
  -- what one block becomes
  have hone : ∀ key, ∃ c : List α, ∀ d, OMap.find? pc.blocks key = some d →
      (jb key).m ≠ 0 ∧ (jb key).n ≠ 0 ∧ (jb key).k ≠ 0 →
      g ((jb key).args d) = .ok c ∧ c.length = d.length ∧
      ∀ s0 s1, key = [s0, s1] → ∀ j < dimOf F1 s0, ∀ i < dimOf F2 s1,
        c[j * dimOf F2 s1 + i]? = some (alphaOf right1 right2 s0 *
          ((List.range (dimOf K1 s1)).map fun l =>
            (elemAt m1.core (pairOf right1 s0 s1) (pairOf right1 j l)).getD 0 *
            (elemAt m2.core (pairOf right2 s1 s0) (pairOf right2 i l)).getD 0).sum) := by
    intro key
    cases hd : OMap.find? pc.blocks key with
    | none => exact ⟨[], by simp⟩
    | some d =>
      obtain ⟨s0, s1, rfl, a0, a1, a2⟩ := (hkeys key).1 (OMap.find?_isSome.1 (by rw [hd]; rfl))
      obtain ⟨k1, k2, k3⟩ := hblk s0 a0 s1 a1 a2
      obtain ⟨x, hx, hxl, hxe⟩ := two_block h1 he1 a0 k1 a2
      obtain ⟨y, hy, hyl, hye⟩ := two_block h2 he2 a1 k2 (by rw [add_comm]; exact a2)
      rw [k3] at hyl hye
      obtain ⟨d0, -, -⟩ := hdims s0 a0 s1 a1 a2
      have hdl : d.length = dimOf F1 s0 * dimOf F2 s1 := by
        rw [hf.wf.length (OMap.mem_of_find? hd)]
        change (dimsOf pc.edges [s0, s1]).prod = _
        rw [d0]; simp
      by_cases hpos : dimOf F2 s1 ≠ 0 ∧ dimOf F1 s0 ≠ 0 ∧ dimOf K1 s1 ≠ 0
      · obtain ⟨c, c1, c2, c3, -⟩ := gemm_block hg right1 right2 (Nat.pos_of_ne_zero hpos.2.1)
          (Nat.pos_of_ne_zero hpos.1) (Nat.pos_of_ne_zero hpos.2.2) (alphaOf right1 right2 s0)
          (data1 := x) (data2 := y) (dst := d) (le_of_eq hxl.symm)
          (le_of_eq (by rw [hyl, mul_comm])) (le_of_eq hdl.symm)
        refine ⟨c, fun d' hd' _ => ?_⟩
        obtain rfl := Option.some.inj hd'
        refine ⟨?_, c2, ?_⟩
        · simp only [jb, Job.args, hx, hy, Option.getD_some]
          exact c1
        · intro t0 t1 ht j hj i hi
          obtain ⟨rfl, rfl⟩ : s0 = t0 ∧ s1 = t1 := by simpa using ht
          rw [c3 j hj i hi]
          congr 3
          apply List.map_congr_left
          intro l hl
          rw [List.mem_range] at hl
          rw [hxe j hj l hl, hye i hi l hl, Option.getD_some, Option.getD_some]
      · exact ⟨[], fun d' hd' hc => absurd hc hpos⟩
  choose val hval using hone
  -- the batch
  obtain ⟨m, b1, b2, b3, b4, b5⟩ := gemmBatch_spec (g := g)
    (jobs := (pc.blocks.filter fun b =>
      decide ((jb b.1).m ≠ 0 ∧ (jb b.1).n ≠ 0 ∧ (jb b.1).k ≠ 0)).map fun b => jb b.1) val
    (blocks := pc.blocks.map fun b => (b.1, clearBlock (jb b.1) b.2))
    (by unfold OMap.Sorted at hsorted ⊢; rw [List.map_map]; exact hsorted)
    (by
      have : (List.map Job.key ((pc.blocks.filter fun b =>
          decide ((jb b.1).m ≠ 0 ∧ (jb b.1).n ≠ 0 ∧ (jb b.1).k ≠ 0)).map fun b => jb b.1)) =
          (pc.blocks.filter fun b =>
          decide ((jb b.1).m ≠ 0 ∧ (jb b.1).n ≠ 0 ∧ (jb b.1).k ≠ 0)).map Prod.fst := by
        rw [List.map_map]
        exact List.map_congr_left fun b _ => hjk b.1
      rw [this]
      exact (hsorted.filter _).nodup)
    (by
      intro j hj
      obtain ⟨b, hb, rfl⟩ := List.mem_map.1 hj
      rw [List.mem_filter, decide_eq_true_eq] at hb
      have hfind := OMap.find?_of_mem hsorted.nodup hb.1
      refine ⟨hjo _, b.2, ?_, ?_⟩
      · rw [hjk, OMap.find?_map_val pc.blocks (fun k d => clearBlock (jb k) d), hfind]
        simp only [Option.map_some, Option.some.injEq]
        unfold clearBlock
        rw [if_neg (fun hc => hb.2.2.2 hc.2.2)]
      · rw [hjk]
        exact (hval b.1 b.2 hfind hb.2).1)
  have hfm : ∀ k d, OMap.find? pc.blocks k = some d → OMap.find? m k =
      some (if (jb k).m ≠ 0 ∧ (jb k).n ≠ 0 ∧ (jb k).k ≠ 0 then val k else clearBlock (jb k) d) := by
    intro k d hd
    split
    · rename_i hc
      have := b4 (jb k) (List.mem_map.2 ⟨(k, d), List.mem_filter.2
        ⟨OMap.mem_of_find? hd, decide_eq_true hc⟩, rfl⟩)
      rwa [hjk] at this
    · rename_i hc
      rw [b5 k, OMap.find?_map_val pc.blocks (fun k d => clearBlock (jb k) d), hd]
      · rfl
      · intro j hj hjk'
        obtain ⟨b, hb, rfl⟩ := List.mem_map.1 hj
        rw [List.mem_filter, decide_eq_true_eq] at hb
        rw [hjk] at hjk'
        exact hc (hjk' ▸ hb.2)
  have hlen : ∀ k d, OMap.find? pc.blocks k = some d →
      ∃ c, OMap.find? m k = some c ∧ c.length = d.length := by
    intro k d hd
    refine ⟨_, hfm k d hd, ?_⟩
    split
    · rename_i hc
      exact (hval k d hd hc).2.1
    · unfold clearBlock
      split <;> simp
  have hm : m = pc.blocks.map fun c => (c.1, (OMap.find? m c.1).getD c.2) := by
    apply OMap.ext b2
    · unfold OMap.Sorted at hsorted ⊢; rw [List.map_map]; exact hsorted
    · intro k
      rw [OMap.find?_map_val pc.blocks (fun k d => (OMap.find? m k).getD d)]
      cases hd : OMap.find? pc.blocks k with
      | none =>
        rw [Option.map_none, OMap.find?_eq_none, b3]
        rw [OMap.find?_eq_none] at hd
        intro hc
        apply hd
        unfold OMap.keys at hc ⊢
        rw [List.map_map] at hc
        exact hc
      | some d =>
        obtain ⟨c, hc, -⟩ := hlen k d hd
        rw [hc]; rfl
  have hres : (⟨[cn.c1, cn.c2], ⟨pc.edges, m⟩⟩ : Tensor ν σ α) =
      withBlocks ⟨[cn.c1, cn.c2], pc⟩ fun k d => (OMap.find? m k).getD d := by
    unfold withBlocks
    rw [← hm]
  have hwf : WF (⟨[cn.c1, cn.c2], ⟨pc.edges, m⟩⟩ : Tensor ν σ α) := by
    rw [hres]
    refine withBlocks_wf hf.wf fun c hc => ?_
    obtain ⟨c', hc', hl⟩ := hlen c.1 c.2 (OMap.find?_of_mem hsorted.nodup hc)
    rw [hc']
    exact hl
  refine ⟨⟨[cn.c1, cn.c2], ⟨pc.edges, m⟩⟩, ?_, ⟨rfl, hf.edges, hwf, fun q => ?_, hf.dims⟩, ?_⟩
  · unfold contractProduct
    simp only [hd1, hd2, hd3]
    rw [hp]
    simp only [Outcome.bind]
    rw [hpass]
    simp only [b1]
  · rw [← hf.keys q]
    change _ ∈ OMap.keys m ↔ _ ∈ OMap.keys pc.blocks
    rw [b3]
    unfold OMap.keys
    rw [List.map_map]
    rfl
  · intro s0 a0 s1 a1 a2 j hj i hi
    have hk : [s0, s1] ∈ OMap.keys pc.blocks := (hkeys _).2 ⟨s0, s1, rfl, a0, a1, a2⟩
    obtain ⟨d, hd⟩ := Option.isSome_iff_exists.1 (OMap.find?_isSome.2 hk)
    obtain ⟨d0, -, -⟩ := hdims s0 a0 s1 a1 a2
    unfold elemAt
    change (OMap.find? m [s0, s1]).bind (fun data => data[rowMajor (dimsOf pc.edges [s0, s1]) [j, i]]?) = _
    rw [hfm _ d hd, d0, Option.bind_some]
    have hrm : rowMajor [dimOf F1 s0, dimOf F2 s1] [j, i] = j * dimOf F2 s1 + i := by
      simp [rowMajor]
    rw [hrm]
    have em : (jb [s0, s1]).m = dimOf F2 s1 := rfl
    have en : (jb [s0, s1]).n = dimOf F1 s0 := rfl
    have ek : (jb [s0, s1]).k = dimOf K1 s1 := rfl
    by_cases hk0 : dimOf K1 s1 = 0
    · have hdl : d.length = dimOf F1 s0 * dimOf F2 s1 := by
        rw [hf.wf.length (OMap.mem_of_find? hd)]
        change (dimsOf pc.edges [s0, s1]).prod = _
        rw [d0]; simp
      have hlt := cell_lt (s := true) hj hi
      simp only [cell, if_true] at hlt
      rw [if_neg (fun hc => hc.2.2 (ek.trans hk0)), clearBlock,
        if_pos ⟨by rw [em]; omega, by rw [en]; omega, ek.trans hk0⟩, List.getElem?_map,
        List.getElem?_eq_getElem (by omega), hk0]
      simp
    · have hc : (jb [s0, s1]).m ≠ 0 ∧ (jb [s0, s1]).n ≠ 0 ∧ (jb [s0, s1]).k ≠ 0 :=
        ⟨by rw [em]; omega, by rw [en]; omega, by rw [ek]; exact hk0⟩
      rw [if_pos hc]
      exact (hval _ d hd hc).2.2 s0 s1 rfl j hj i hi

end TAT
