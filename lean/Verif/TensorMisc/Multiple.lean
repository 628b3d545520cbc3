import Verif.TensorMisc.Lemmas

/-!
# Properties of `multiple` (C31)
-/

set_option linter.unusedSectionVars false

namespace TAT

variable {ν σ α β : Type} [LinearOrder ν] [TatSym σ]

/-- The valid directions of `multiple`. -/
def IsDirection (c : Char) : Prop := c ∈ ['u', 'U', 'v', 'V']

/-- The symmetry under which a singular value is found: negated for the direction `v`. -/
def tableSym (direction : Char) (s : σ) : σ := if direction ∈ ['v', 'V'] then -s else s

/-- The singular value belonging to a position on an edge. -/
def tableAt (S : List (σ × List β)) (direction : Char) (x : σ × ℕ) : Option β :=
  (OMap.find? S (tableSym direction x.1)).bind fun v => v[x.2]?

/-- The table has as many entries as the edge has positions, for every symmetry of the edge. -/
def TableFits (S : List (σ × List β)) (direction : Char) (m : List (σ × ℕ)) : Prop :=
  ∀ s ∈ OMap.keys m, ∃ v, OMap.find? S (tableSym direction s) = some v ∧ v.length = dimM m s

/-- The code after the test of the direction. -/
def multipleRun (junk : List σ → ℕ → α) (mulS : α → β → α) (inv : β → β) (t : Tensor ν σ α)
    (S : List (σ × List β)) (name : ν) (different division : Bool) : Outcome (Tensor ν σ α) :=
  match OMap.find? (nameToIndex t.names) name with
  | none => .ok t
  | some index =>
    (sameShape junk t).bind fun r =>
    (forBlocks id (multipleBlock mulS inv S index different division t.core.edges)
      t.core.blocks r.core.blocks).bind fun blocks =>
    .ok ⟨r.names, ⟨r.core.edges, blocks⟩⟩

theorem multiple_eq (junk : List σ → ℕ → α) (mulS : α → β → α) (inv : β → β) (t : Tensor ν σ α)
    (S : List (σ × List β)) (name : ν) {direction : Char} (hd : IsDirection direction)
    (division : Bool) :
    multiple junk mulS inv t S name direction division =
      multipleRun junk mulS inv t S name (decide (direction ∈ ['v', 'V'])) division := by
  unfold IsDirection at hd
  simp only [List.mem_cons, List.not_mem_nil, or_false] at hd
  unfold multiple
  rcases hd with rfl | rfl | rfl | rfl <;> rfl

/-- An element of a symmetry of an edge occurs in some block. -/
theorem exists_block_with {t : Tensor ν σ α} (h : WF t) {n : ν} (hn : n ∈ t.names) {s : σ}
    (hs : s ∈ OMap.keys (mapOf t n)) :
    ∃ p : ν → σ × ℕ, KeyOk (mapOf t) t.names p ∧ (p n).1 = s := by
  have hp := h.pruned
  rw [edges_named h, prunedEdges_eq_iff h.nodup] at hp
  exact hp n hn s hs

theorem keyOk_forall2 {t : Tensor ν σ α} (h : WF t) {p : ν → σ × ℕ}
    (hp : KeyOk (mapOf t) t.names p) :
    List.Forall₂ (fun (e : Edge σ) s => s ∈ OMap.keys e.map) t.core.edges (keyOf t.names p) := by
  unfold keyOf
  rw [edges_named h, forall2_map_self]
  exact hp.1

section split
variable {A B : List ν} {name : ν} {fm : ν → List (σ × ℕ)}

theorem blockOf_name {t : Tensor ν σ α} (h : WF t) (hn : t.names = A ++ name :: B)
    (mulS : α → β → α) (inv : β → β) (S : List (σ × List β)) (different division : Bool)
    {p : ν → σ × ℕ} (hp : KeyOk (mapOf t) t.names p) (src dst : List α) :
    multipleBlock mulS inv S A.length different division t.core.edges (keyOf t.names p) src dst =
      match OMap.find? S (if different then -(p name).1 else (p name).1) with
      | none => .error "map::at"
      | some v =>
        if v.length ≠ dimM (mapOf t name) (p name).1 then
          .error "Vector Size incompatible in Multiple with a tensor"
        else multipleKernel mulS (A.map fun n => dimM (mapOf t n) (p n).1).prod
          (dimM (mapOf t name) (p name).1) (B.map fun n => dimM (mapOf t n) (p n).1).prod src
          (if division then v.map inv else v) dst := by
  have hk : (keyOf t.names p)[A.length]? = some (p name).1 := by
    rw [hn]; unfold keyOf; simp
  unfold multipleBlock
  simp only [hk]
  cases OMap.find? S (if different then -(p name).1 else (p name).1) with
  | none => rfl
  | some v =>
    have hdims : edgeDims t.core.edges (keyOf t.names p) =
        .ok ((A.map fun n => dimM (mapOf t n) (p n).1) ++ dimM (mapOf t name) (p name).1 ::
          B.map fun n => dimM (mapOf t n) (p n).1) := by
      rw [edgeDims_ok (keyOk_forall2 h hp), dimsOf_named h]
      conv_lhs => rw [hn]
      rw [List.map_append, List.map_cons]
    simp only [hdims, Outcome.bind]
    have e1 : ((A.map fun n => dimM (mapOf t n) (p n).1) ++ dimM (mapOf t name) (p name).1 ::
        B.map fun n => dimM (mapOf t n) (p n).1).getD A.length 0 =
        dimM (mapOf t name) (p name).1 := by
      simp [List.getD_eq_getElem?_getD]
    have e2 : ((A.map fun n => dimM (mapOf t n) (p n).1) ++ dimM (mapOf t name) (p name).1 ::
        B.map fun n => dimM (mapOf t n) (p n).1).take A.length =
        A.map fun n => dimM (mapOf t n) (p n).1 := by
      rw [List.take_append_of_le_length (by simp), List.take_of_length_le (by simp)]
    have e3 : ((A.map fun n => dimM (mapOf t n) (p n).1) ++ dimM (mapOf t name) (p name).1 ::
        B.map fun n => dimM (mapOf t n) (p n).1).drop (A.length + 1) =
        B.map fun n => dimM (mapOf t n) (p n).1 := by
      rw [List.drop_append]
      simp
    rw [e1, e2, e3]

/-- Position of an element relative to one edge. -/
theorem position_at {t : Tensor ν σ α} (h : WF t) (hn : t.names = A ++ name :: B)
    {p : ν → σ × ℕ} (hv : ValidPos t p) :
    rowMajor (t.names.map fun n => dimM (mapOf t n) (p n).1) (idxOf t.names p) /
      (B.map fun n => dimM (mapOf t n) (p n).1).prod % dimM (mapOf t name) (p name).1 =
      (p name).2 := by
  have hf := ((validPos_iff h).1 hv).1
  have hB : rowMajor (B.map fun n => dimM (mapOf t n) (p n).1) (idxOf B p) <
      (B.map fun n => dimM (mapOf t n) (p n).1).prod :=
    rowMajor_lt (FineOk.inBox fun n hm => hf n (by rw [hn]; simp [hm]))
  have hname := hf name (by rw [hn]; simp)
  rw [hn]
  unfold idxOf at hB ⊢
  rw [List.map_append, List.map_append, rowMajor_append (by simp), List.map_cons, List.map_cons,
    rowMajor, List.prod_cons]
  generalize rowMajor (B.map fun n => dimM (mapOf t n) (p n).1) (B.map fun n => (p n).2) = z at hB
  generalize rowMajor (A.map fun n => dimM (mapOf t n) (p n).1) (A.map fun n => (p n).2) = y
  generalize (B.map fun n => dimM (mapOf t n) (p n).1).prod = b at hB
  generalize dimM (mapOf t name) (p name).1 = k at hname
  have : y * (k * b) + ((p name).2 * b + z) = b * (k * y + (p name).2) + z := by ring
  rw [this, Nat.mul_add_div (by omega), Nat.div_eq_of_lt hB, Nat.add_zero, Nat.mul_add_mod,
    Nat.mod_eq_of_lt hname]

end split

/-! ## C31 -/

/-- **C31**: every element is scaled by the table entry selected by its position on the named
edge. -/
theorem C31_multiple (junk : List σ → ℕ → α) (mulS : α → β → α) (inv : β → β) {t : Tensor ν σ α}
    (h : WF t) (S : List (σ × List β)) {name : ν} (hn : name ∈ t.names) {direction : Char}
    (hd : IsDirection direction) (division : Bool)
    (hS : TableFits S direction (mapOf t name)) :
    ∃ r, multiple junk mulS inv t S name direction division = .ok r ∧ WF r ∧
      r.names = t.names ∧ r.core.edges = t.core.edges ∧
      ∀ p, ValidPos t p → ∃ x v, elem t p = some x ∧ tableAt S direction (p name) = some v ∧
        elem r p = some (mulS x (if division then inv v else v)) := by
  rw [multiple_eq junk mulS inv t S name hd]
  obtain ⟨A, B, hnames⟩ := List.append_of_mem hn
  have hidx : OMap.find? (nameToIndex t.names) name = some A.length := by
    rw [nameToIndex_find h.nodup, if_pos hn]
    have hnd := h.nodup
    rw [hnames] at hnd ⊢
    have hA : name ∉ A := fun hm => by
      rw [List.nodup_append] at hnd
      exact hnd.2.2 name hm name (by simp) rfl
    rw [List.idxOf_append_of_notMem hA]; simp
  unfold multipleRun
  simp only [hidx]
  rw [sameShape_eq junk h]
  change ∃ r, (forBlocks id _ t.core.blocks (freshBlocks junk (t.core.edges.map Edge.map))).bind _ =
    _ ∧ _
  have hfresh : freshBlocks junk (t.core.edges.map Edge.map) =
      t.core.blocks.map fun c => (c.1, (List.range c.2.length).map (junk c.1)) := by
    unfold freshBlocks
    rw [← h.blocks, List.map_map]
    rfl
  have hff : ∀ k, OMap.find? (freshBlocks junk (t.core.edges.map Edge.map)) k =
      (OMap.find? t.core.blocks k).map fun d => (List.range d.length).map (junk k) := by
    intro k
    rw [hfresh]
    exact OMap.find?_map_val t.core.blocks (fun k d => (List.range d.length).map (junk k)) k
  let body := multipleBlock mulS inv S A.length (decide (direction ∈ ['v', 'V'])) division
    t.core.edges
  let val : List σ × List α → List α := fun c =>
    ((body c.1 c.2 ((List.range c.2.length).map (junk c.1))).toOption).getD []
  have hkey : ∀ p, KeyOk (mapOf t) t.names p → ∀ src,
      OMap.find? t.core.blocks (keyOf t.names p) = some src → ∃ v,
      OMap.find? S (tableSym direction (p name).1) = some v ∧
      body (keyOf t.names p) src ((List.range src.length).map (junk (keyOf t.names p))) =
        .ok (val (keyOf t.names p, src)) ∧ (val (keyOf t.names p, src)).length = src.length ∧
      ∀ i < src.length, (val (keyOf t.names p, src))[i]? = src[i]?.bind fun x =>
        ((if division then v.map inv else v)[i / (B.map fun n => dimM (mapOf t n) (p n).1).prod %
          dimM (mapOf t name) (p name).1]?).map (mulS x) := by
    intro p hp src hsrc
    obtain ⟨v, hv, hl⟩ := hS (p name).1 (hp.1 name hn)
    have hlen : src.length = (A.map fun n => dimM (mapOf t n) (p n).1).prod *
        dimM (mapOf t name) (p name).1 * (B.map fun n => dimM (mapOf t n) (p n).1).prod := by
      rw [length_named h hsrc]
      conv_lhs => rw [hnames]
      rw [List.map_append, List.map_cons, List.prod_append, List.prod_cons, Nat.mul_assoc]
    have hb := blockOf_name h hnames mulS inv S (decide (direction ∈ ['v', 'V'])) division hp src
      ((List.range src.length).map (junk (keyOf t.names p)))
    have htab : (if (decide (direction ∈ ['v', 'V'])) = true then -(p name).1 else (p name).1) =
        tableSym direction (p name).1 := by
      unfold tableSym; simp
    rw [htab, hv] at hb
    simp only [hl, ne_eq, not_true_eq_false, if_false] at hb
    obtain ⟨d', h1, h2, h3⟩ := multipleKernel_spec mulS hlen (dst :=
      (List.range src.length).map (junk (keyOf t.names p))) (by simpa using hlen)
      (S := if division then v.map inv else v) (by split <;> simp [hl])
    rw [h1] at hb
    have hval : val (keyOf t.names p, src) = d' := by
      have hb' : (body (keyOf t.names p) src
          ((List.range src.length).map (junk (keyOf t.names p)))) = .ok d' := hb
      change ((body (keyOf t.names p) src
          ((List.range src.length).map (junk (keyOf t.names p)))).toOption).getD [] = _
      rw [hb']; rfl
    rw [hval]
    exact ⟨v, hv, hb, by rw [h2, hlen], fun i hi => h3 i (hlen ▸ hi)⟩
  have hsorted : OMap.Sorted (freshBlocks junk (t.core.edges.map Edge.map)) :=
    freshBlocks_sorted junk h.sortedMaps
  have hfd : ∀ c ∈ t.core.blocks, ∃ p, keyOf t.names p = c.1 ∧ KeyOk (mapOf t) t.names p ∧
      OMap.find? t.core.blocks c.1 = some c.2 := by
    intro c hc
    have hf := OMap.find?_of_mem h.blocksSorted.nodup hc
    have hm : c.1 ∈ OMap.keys t.core.blocks := OMap.find?_isSome.1 (by rw [hf]; rfl)
    obtain ⟨p, hp⟩ := exists_key h hm
    exact ⟨p, hp, (mem_keys_named h p).1 (hp ▸ hm), hf⟩
  obtain ⟨m, h1, h2, h3, h4, h5⟩ := forBlocks_spec (key := id) (body := body)
    (src := t.core.blocks) val hsorted (by
      have := h.blocksSorted.nodup
      exact this) (fun c hc => by
      obtain ⟨p, hp, hk, hf⟩ := hfd c hc
      refine ⟨(List.range c.2.length).map (junk c.1), by rw [id, hff, hf]; rfl, ?_⟩
      have hkp := hkey p hk c.2 (hp ▸ hf)
      rw [hp] at hkp
      obtain ⟨v, _, hb, _⟩ := hkp
      exact hb)
  have hmlen : ∀ k d d', OMap.find? m k = some d → OMap.find? t.core.blocks k = some d' →
      d.length = d'.length := by
    intro k d d' hd hd'
    obtain ⟨p, hp, hk, hf⟩ := hfd (k, d') (OMap.mem_of_find? hd')
    have hkp := hkey p hk d' (hp ▸ hd')
    rw [hp] at hkp
    obtain ⟨v, _, _, hl, _⟩ := hkp
    have := h4 (k, d') (OMap.mem_of_find? hd')
    simp only [id, hd, Option.some.injEq] at this
    rw [this]; exact hl
  have hwf : WF (⟨t.names, ⟨t.core.edges, m⟩⟩ : Tensor ν σ α) := wf_of_blocks h h2 (fun k => by
    rw [h3, hfresh]
    unfold OMap.keys
    rw [List.map_map]
    rfl) hmlen
  refine ⟨⟨t.names, ⟨t.core.edges, m⟩⟩, by rw [h1]; rfl, hwf, rfl, rfl, fun p hv => ?_⟩
  have hfo := (validPos_iff h).1 hv
  obtain ⟨d, hd, _⟩ := h.valid_block hv
  obtain ⟨v, hv1, _, hv3, hv4⟩ := hkey p hfo.keyOk d hd
  have hi : rowMajor (t.names.map fun n => dimM (mapOf t n) (p n).1) (idxOf t.names p) <
      d.length := by
    rw [length_named h hd]
    exact rowMajor_lt (FineOk.inBox hfo.1)
  have e1 : elem t p = d[rowMajor (t.names.map fun n => dimM (mapOf t n) (p n).1)
      (idxOf t.names p)]? := by rw [elem_named h, hd]; rfl
  have e2 : elem (⟨t.names, ⟨t.core.edges, m⟩⟩ : Tensor ν σ α) p =
      (val (keyOf t.names p, d))[rowMajor (t.names.map fun n => dimM (mapOf t n) (p n).1)
      (idxOf t.names p)]? := by
    rw [elem_named hwf]
    have := h4 (keyOf t.names p, d) (OMap.mem_of_find? hd)
    simp only [id] at this
    rw [this]; rfl
  have hlv : (p name).2 < v.length := by
    obtain ⟨v', hv', hl'⟩ := hS (p name).1 (hfo.keyOk.1 name hn)
    rw [hv1, Option.some.injEq] at hv'
    rw [hv', hl']
    exact hfo.1 name hn
  rw [hv4 _ hi, position_at h hnames hv, List.getElem?_eq_getElem hi] at e2
  refine ⟨d[rowMajor (t.names.map fun n => dimM (mapOf t n) (p n).1) (idxOf t.names p)],
    v[(p name).2], by rw [e1, List.getElem?_eq_getElem hi], ?_, ?_⟩
  · unfold tableAt
    rw [hv1]
    exact List.getElem?_eq_getElem hlv
  · rw [e2]
    cases division <;> simp [hlv]

/-- **C31**: multiplying and then dividing restores the tensor (given the arithmetic law for the
entries of the table, which holds for non-zero entries of a field). -/
theorem C31_restore (junk : List σ → ℕ → α) (mulS : α → β → α) (inv : β → β) {t : Tensor ν σ α}
    (h : WF t) (S : List (σ × List β)) {name : ν} (hn : name ∈ t.names) {direction : Char}
    (hd : IsDirection direction) (hS : TableFits S direction (mapOf t name))
    (hinv : ∀ s v, OMap.find? S s = some v → ∀ x ∈ v, ∀ y, mulS (mulS y x) (inv x) = y) :
    (multiple junk mulS inv t S name direction false).bind
      (fun r => multiple junk mulS inv r S name direction true) = .ok t := by
  obtain ⟨r, h1, h2, h3, h4, h5⟩ := C31_multiple junk mulS inv h S hn hd false hS
  have hmap : mapOf r = mapOf t := by unfold mapOf edgeOf; rw [h3, h4]
  obtain ⟨r', g1, g2, g3, g4, g5⟩ := C31_multiple junk mulS inv h2 S (h3 ▸ hn) hd true
    (by rw [hmap]; exact hS)
  rw [h1]
  change multiple junk mulS inv r S name direction true = _
  rw [g1]
  congr 1
  have hv : ∀ p, ValidPos r p ↔ ValidPos t p := fun p => by unfold ValidPos; rw [h3, h4]
  have hv' : ∀ p, ValidPos r' p ↔ ValidPos r p := fun p => by unfold ValidPos; rw [g3, g4]
  refine tensor_ext g2 h (g3.trans h3) (g4.trans h4) fun p hp => ?_
  obtain ⟨x, v, e1, e2, e3⟩ := h5 p ((hv p).1 ((hv' p).1 hp))
  obtain ⟨x', v', f1, f2, f3⟩ := g5 p ((hv' p).1 hp)
  rw [e2, Option.some.injEq] at f2
  rw [e3, Option.some.injEq] at f1
  rw [f3, e1, ← f1, ← f2]
  unfold tableAt at e2
  obtain ⟨w, hw, hx⟩ := Option.bind_eq_some_iff.1 e2
  simp only [if_true]
  rw [if_neg (by simp), hinv _ w hw v (List.mem_of_getElem? hx)]

/-- **C31**: an absent edge leaves the tensor unchanged. -/
theorem C31_absent (junk : List σ → ℕ → α) (mulS : α → β → α) (inv : β → β) {t : Tensor ν σ α}
    (h : WF t) (S : List (σ × List β)) {name : ν} (hn : name ∉ t.names) {direction : Char}
    (hd : IsDirection direction) (division : Bool) :
    multiple junk mulS inv t S name direction division = .ok t := by
  rw [multiple_eq junk mulS inv t S name hd]
  unfold multipleRun
  rw [nameToIndex_find h.nodup, if_neg hn]

/-- **C31**: any other direction is rejected. -/
theorem C31_direction (junk : List σ → ℕ → α) (mulS : α → β → α) (inv : β → β) (t : Tensor ν σ α)
    (S : List (σ × List β)) (name : ν) {direction : Char} (hd : ¬ IsDirection direction)
    (division : Bool) :
    (multiple junk mulS inv t S name direction division).isError = true := by
  unfold IsDirection at hd
  simp only [List.mem_cons, List.not_mem_nil, or_false, not_or] at hd
  unfold multiple
  simp [hd, Outcome.isError]

/-- **C31**: a table which does not fit the edge is rejected. -/
theorem C31_table (junk : List σ → ℕ → α) (mulS : α → β → α) (inv : β → β) {t : Tensor ν σ α}
    (h : WF t) (S : List (σ × List β)) {name : ν} (hn : name ∈ t.names) {direction : Char}
    (hd : IsDirection direction) (division : Bool)
    (hS : ¬ TableFits S direction (mapOf t name)) :
    (multiple junk mulS inv t S name direction division).isError = true := by
  rw [multiple_eq junk mulS inv t S name hd]
  obtain ⟨A, B, hnames⟩ := List.append_of_mem hn
  have hidx : OMap.find? (nameToIndex t.names) name = some A.length := by
    rw [nameToIndex_find h.nodup, if_pos hn]
    have hnd := h.nodup
    rw [hnames] at hnd ⊢
    have hA : name ∉ A := fun hm => by
      rw [List.nodup_append] at hnd
      exact hnd.2.2 name hm name (by simp) rfl
    rw [List.idxOf_append_of_notMem hA]; simp
  unfold multipleRun
  simp only [hidx]
  rw [sameShape_eq junk h]
  have htab : ∀ s : σ, (if (decide (direction ∈ ['v', 'V'])) = true then -s else s) =
      tableSym direction s := by
    intro s; unfold tableSym; simp
  unfold TableFits at hS
  push Not at hS
  obtain ⟨s, hs, hbad⟩ := hS
  obtain ⟨p, hp, hps⟩ := exists_block_with h hn hs
  obtain ⟨src, hsrc⟩ := Option.isSome_iff_exists.1 (OMap.find?_isSome.2 ((mem_keys_named h p).2 hp))
  have herr := forBlocks_error (key := id)
    (body := multipleBlock mulS inv S A.length (decide (direction ∈ ['v', 'V'])) division
      t.core.edges) (src := t.core.blocks)
    (fun k d => ∀ d', OMap.find? t.core.blocks k = some d' → d.length = d'.length)
    (dst := freshBlocks junk (t.core.edges.map Edge.map)) (fun k d hd d' hd' => by
      have hfresh : freshBlocks junk (t.core.edges.map Edge.map) =
          t.core.blocks.map fun c => (c.1, (List.range c.2.length).map (junk c.1)) := by
        unfold freshBlocks
        rw [← h.blocks, List.map_map]
        rfl
      have e := OMap.find?_map_val t.core.blocks
        (fun k d => (List.range d.length).map (junk k)) k
      rw [← hfresh, hd, hd'] at e
      simp only [Option.map_some, Option.some.injEq] at e
      rw [e]; simp)
    (fun c hc d hdl => by
      have hf := OMap.find?_of_mem h.blocksSorted.nodup hc
      have hm : c.1 ∈ OMap.keys t.core.blocks := OMap.find?_isSome.1 (by rw [hf]; rfl)
      obtain ⟨q, hq⟩ := exists_key h hm
      have hk := (mem_keys_named h q).1 (hq ▸ hm)
      simp only [id] at hdl ⊢
      rw [← hq] at hdl hf ⊢
      rw [blockOf_name h hnames mulS inv S (decide (direction ∈ ['v', 'V'])) division hk]
      cases OMap.find? S (if (decide (direction ∈ ['v', 'V'])) = true then -(q name).1
          else (q name).1) with
      | none => exact Or.inr rfl
      | some v =>
        simp only
        split
        · exact Or.inr rfl
        · rename_i hl
          left
          rw [ne_eq, not_not] at hl
          have hlen : c.2.length = (A.map fun n => dimM (mapOf t n) (q n).1).prod *
              dimM (mapOf t name) (q name).1 *
              (B.map fun n => dimM (mapOf t n) (q n).1).prod := by
            rw [length_named h hf]
            conv_lhs => rw [hnames]
            rw [List.map_append, List.map_cons, List.prod_append, List.prod_cons, Nat.mul_assoc]
          obtain ⟨d', h1, h2, _⟩ := multipleKernel_spec mulS hlen (dst := d)
            ((hdl c.2 hf).trans hlen) (S := if division then v.map inv else v)
            (by split <;> simp [hl])
          refine ⟨d', h1, fun d'' hd'' => ?_⟩
          rw [hf, Option.some.injEq] at hd''
          rw [h2, ← hd'', hlen])
    (c := (keyOf t.names p, src)) (OMap.mem_of_find? hsrc) (fun d _ => by
      rw [blockOf_name h hnames mulS inv S (decide (direction ∈ ['v', 'V'])) division hp, htab, hps]
      cases hf : OMap.find? S (tableSym direction s) with
      | none => rfl
      | some v =>
        have := hbad v hf
        simp only [ne_eq, this, not_false_eq_true, if_true]
        rfl)
  revert herr
  cases hfb : forBlocks id (multipleBlock mulS inv S A.length (decide (direction ∈ ['v', 'V']))
    division t.core.edges) t.core.blocks (freshBlocks junk (t.core.edges.map Edge.map)) with
  | ok a => simp [Outcome.isError]
  | error m => intro _; simp only [Outcome.bind, hfb]; rfl
  | ub => simp [Outcome.isError]

end TAT
