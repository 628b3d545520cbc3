import Verif.Py.BlockModel
import Verif.EdgeOp.Plan
import Verif.EdgeOp.Lead

/-!
# C79: a block view shows the elements of the tensor in the order asked for
-/

namespace TAT

variable {ν σ α : Type}

/-! ## Parts of a view -/

theorem byteLeadings_eq (size : ℕ) (dims : List ℕ) :
    byteLeadings size dims = (leadingsOf dims).map (· * size) := by
  induction dims with
  | nil => rfl
  | cons d ds ih =>
    cases ds with
    | nil => simp [byteLeadings, leadingsOf]
    | cons d' ds =>
      rw [byteLeadings, leadingsOf, ih, List.map_cons]
      have hl := leadingsOf_length (d' :: ds)
      cases h : leadingsOf (d' :: ds) with
      | nil => rw [h] at hl; simp at hl
      | cons l ls => simp only [List.map_cons, List.headD_cons]; congr 1; ring

theorem viewDims_eq [LinearOrder ν] [TatSym σ] (position : List (ν × σ)) (p : ν → σ × ℕ)
    (names : List ν) (edges : List (Edge σ))
    (hp : ∀ n ∈ names, (OMap.find? position n).getD 0 = (p n).1)
    (hk : List.Forall₂ (fun e s => s ∈ OMap.keys e.map) edges (keyOf names p)) :
    viewDims position names edges = .ok (dimsOf edges (keyOf names p)) := by
  induction names generalizing edges with
  | nil => cases hk; rfl
  | cons n ns ih =>
    cases hk with
    | @cons e _ es _ h1 h2 =>
      obtain ⟨d, hd⟩ := Option.isSome_iff_exists.1 (OMap.find?_isSome.2 h1)
      rw [viewDims, hp n (by simp), hd]
      simp only
      rw [ih es (fun m hm => hp m (by simp [hm])) h2]
      simp [Outcome.bind, keyOf, dimsOf, dimOf, hd]

theorem getBlock_ok [LinearOrder ν] (position : List (ν × σ)) (f : ν → σ) (names : List ν)
    (hp : ∀ n ∈ names, OMap.find? position n = some (f n)) :
    getBlock position names = .ok (names.map f) := by
  induction names with
  | nil => rfl
  | cons n ns ih =>
    rw [getBlock, hp n (by simp)]
    simp only
    rw [ih fun m hm => hp m (by simp [hm])]
    rfl

theorem blockKey_eq [LinearOrder ν] [TatSym σ] {t : Tensor ν σ α} (h : Shaped t) {position : List (ν × σ)}
    {p : ν → σ × ℕ} (hv : keyOf t.names p ∈ OMap.keys t.core.blocks)
    (hp : TatSym.isNoSym σ = true ∨ ∀ n ∈ t.names, OMap.find? position n = some (p n).1) :
    blockKey t position = .ok (keyOf t.names p) := by
  obtain ⟨data, hd⟩ := Option.isSome_iff_exists.1 (OMap.find?_isSome.2 hv)
  unfold blockKey
  by_cases hns : TatSym.isNoSym σ = true
  · rw [if_pos hns]
    have hmem := OMap.mem_of_find? hd
    cases hb : t.core.blocks with
    | nil => rw [hb] at hmem; simp at hmem
    | cons b bs =>
      have hbk : b.1 ∈ OMap.keys t.core.blocks := by rw [hb]; simp
      have hl1 := (h.mem_keys.1 hbk).1.length_eq
      have hl2 := (h.mem_keys.1 hv).1.length_eq
      simp only [forall2_noSym_keys hns b.1 (keyOf t.names p) (by omega)]
  · rw [if_neg hns, getBlock_ok position (fun n => (p n).1) _ (hp.resolve_left hns)]
    simp only [Outcome.bind]
    rw [show t.names.map (fun n => (p n).1) = keyOf t.names p from rfl, hd]

theorem viewAxes_suffix [LinearOrder ν] {names : List ν} (hn : names.Nodup) (pre suf : List (ν × σ))
    (hp : ∀ x ∈ suf, x.1 ∈ names) :
    viewAxes names (pre ++ suf) (List.range' pre.length suf.length) =
      .ok (suf.map fun x => names.idxOf x.1) := by
  induction suf generalizing pre with
  | nil => rfl
  | cons x suf ih =>
    have h1 : (pre ++ x :: suf)[pre.length]? = some x := by simp
    have h2 : axisOf names (pre ++ x :: suf) pre.length = .ok (names.idxOf x.1) := by
      unfold axisOf
      rw [h1]
      simp only
      rw [nameToIndex_find hn, if_pos (hp x (by simp))]
    have h3 := ih (pre ++ [x]) (fun y hy => hp y (by simp [hy]))
    rw [List.append_assoc, List.singleton_append, List.length_append, List.length_singleton] at h3
    rw [List.length_cons, List.range'_succ, viewAxes, h2]
    simp only [Outcome.bind]
    rw [h3]
    rfl

theorem viewAxes_eq [LinearOrder ν] {names : List ν} (hn : names.Nodup) (position : List (ν × σ))
    (hp : ∀ x ∈ position, x.1 ∈ names) (hl : position.length = names.length) :
    viewAxes names position (List.range names.length) = .ok (position.map fun x => names.idxOf x.1) := by
  have := viewAxes_suffix hn [] position hp
  rw [List.nil_append, List.length_nil, hl, ← List.range_eq_range'] at this
  exact this

/-- Summing index times distance over the names in any order gives the address in the block. -/
theorem dot_names [DecidableEq ν] {names : List ν} (hn : names.Nodup) (f : ν → ℕ) (L : List ℕ)
    (hL : L.length = names.length) {l : List ν} (hl : l.Perm names) :
    dot (l.map f) (l.map fun n => L.getD (names.idxOf n) 0) = dot (names.map f) L := by
  have h1 : ∀ l : List ν, dot (l.map f) (l.map fun n => L.getD (names.idxOf n) 0) =
      (l.map fun n => f n * L.getD (names.idxOf n) 0).sum := by
    intro l
    unfold dot
    rw [List.zipWith_map, List.zipWith_self]
  rw [h1, (hl.map _).sum_eq, ← h1]
  congr 1
  apply List.ext_getElem
  · simp [hL]
  · intro i hi _
    have hi' : i < names.length := by simpa using hi
    rw [List.getElem_map, hn.idxOf_getElem i hi', List.getD_eq_getElem?_getD,
      List.getElem?_eq_getElem (by omega)]
    rfl

theorem insideShape_iff (v : BlockView σ) (idx : List ℕ) :
    insideShape v idx = true ↔ InBox v.shape idx := by
  unfold insideShape InBox
  generalize v.shape = s
  induction s generalizing idx with
  | nil => cases idx <;> simp
  | cons d s ih =>
    cases idx with
    | nil => simp
    | cons i idx =>
      have := ih idx
      simp only [Bool.and_eq_true, beq_iff_eq] at this ⊢
      rw [List.forall₂_cons, ← this]
      simp
      tauto

section views
variable [LinearOrder ν] [TatSym σ]

/-- The dimension of the edge with the given name for the given symmetry. -/
def axisDim (t : Tensor ν σ α) (n : ν) (s : σ) : ℕ :=
  ((t.core.edges[t.names.idxOf n]?).map fun e => dimOf e s).getD 0

theorem axisDim_getElem {t : Tensor ν σ α} (h : WF t) (i : ℕ) (hi : i < t.names.length) (s : σ) :
    axisDim t t.names[i] s = dimOf (t.core.edges[i]'(h.rank ▸ hi)) s := by
  unfold axisDim
  rw [h.nodup.idxOf_getElem i hi, List.getElem?_eq_getElem (h.rank ▸ hi)]
  rfl

theorem dimsOf_names {t : Tensor ν σ α} (h : WF t) (p : ν → σ × ℕ) :
    dimsOf t.core.edges (keyOf t.names p) = t.names.map fun n => axisDim t n (p n).1 := by
  have hr := h.rank
  apply List.ext_getElem
  · simp [dimsOf, keyOf, hr]
  · intro i h1 h2
    have hi : i < t.names.length := by simpa using h2
    simp only [List.getElem_map, axisDim_getElem h i hi]
    simp [dimsOf, keyOf]

theorem validPos_axisDim {t : Tensor ν σ α} (h : WF t) (p : ν → σ × ℕ) :
    ValidPos t p ↔ (∀ n ∈ t.names, (p n).2 < axisDim t n (p n).1) ∧ (keyOf t.names p).sum = 0 := by
  have hr := h.rank
  unfold ValidPos
  refine and_congr_left fun _ => ?_
  rw [List.forall₂_iff_get]
  simp only [List.length_map, List.get_eq_getElem, List.getElem_map]
  constructor
  · rintro ⟨_, h1⟩ n hn
    obtain ⟨i, hi, rfl⟩ := List.getElem_of_mem hn
    rw [axisDim_getElem h i hi]
    exact h1 i (by omega) hi
  · intro h1
    refine ⟨by omega, fun i h2 h3 => ?_⟩
    have := h1 _ (List.getElem_mem h3)
    rwa [axisDim_getElem h i h3] at this

/-- A view whose address is that of the element reads and writes the element. -/
theorem view_at {t : Tensor ν σ α} (h : WF t) {size : ℕ} (hs : 0 < size) {m : List (ν × (σ × ℕ))}
    (hc : Covers t m) (hv : ValidPos t (posOf m)) {v : BlockView σ} {idx : List ℕ}
    (hk : v.key = keyOf t.names (posOf m)) (hi : InBox v.shape idx)
    (ho : byteOffset v idx = rowMajor (dimsOf t.core.edges (keyOf t.names (posOf m)))
        (idxOf t.names (posOf m)) * size) :
    viewRead size t v idx = constAt t m ∧
      ∀ value, viewWrite size t v idx value = atWrite t m value := by
  obtain ⟨data, hd, hl⟩ := h.valid_block hv
  have hlt := rowMajor_lt hv.inBox
  rw [← hl] at hlt
  have hin := (insideShape_iff v idx).2 hi
  constructor
  · unfold viewRead constAt
    rw [address_eq h hc hv, if_pos hin, ho, hk, Nat.mul_mod_left, Nat.mul_div_cancel _ hs]
    simp only [Outcome.bind, hd, if_true, List.getElem?_eq_getElem hlt]
  · intro value
    unfold viewWrite atWrite
    rw [address_eq h hc hv, if_pos hin, ho, hk, Nat.mul_mod_left, Nat.mul_div_cancel _ hs]
    simp only [Outcome.bind, hd, if_true, if_pos hlt]

/-- The unordered view. -/
theorem unorderedView_eq {t : Tensor ν σ α} (h : WF t) (size : ℕ) {position : List (ν × σ)}
    {p : ν → σ × ℕ} (hv : keyOf t.names p ∈ OMap.keys t.core.blocks)
    (hp : TatSym.isNoSym σ = true ∨ ∀ n ∈ t.names, OMap.find? position n = some (p n).1) :
    unorderedView size t position = .ok ⟨keyOf t.names p, t.names.map (fun n => axisDim t n (p n).1),
      byteLeadings size (t.names.map fun n => axisDim t n (p n).1)⟩ := by
  have hp' : ∀ n ∈ t.names, (OMap.find? position n).getD 0 = (p n).1 := by
    intro n hn
    rcases hp with hp | hp
    · exact TatSym.noSym_eq hp _ _
    · rw [hp n hn]; rfl
  unfold unorderedView
  rw [blockKey_eq h.shaped hv hp]
  simp only [Outcome.bind]
  rw [viewDims_eq position p _ _ hp' (h.mem_keys.1 hv).1, dimsOf_names h]

theorem find?_ofList_mem {κ β : Type} [LinearOrder κ] {l : List (κ × β)} (h : (l.map Prod.fst).Nodup)
    {x : κ × β} (hx : x ∈ l) : OMap.find? (OMap.ofList l) x.1 = some x.2 := by
  have key : ∀ (l m : List (κ × β)), (l.map Prod.fst).Nodup → x ∈ l ∨
      (x.1 ∉ l.map Prod.fst ∧ OMap.find? m x.1 = some x.2) →
      OMap.find? (l.foldl (fun m e => OMap.set m e.1 e.2) m) x.1 = some x.2 := by
    intro l
    induction l with
    | nil => rintro m _ (h | h); · simp at h
             · exact h.2
    | cons e l ih =>
      rintro m hn hm
      rw [List.map_cons, List.nodup_cons] at hn
      rw [List.foldl_cons]
      apply ih _ hn.2
      rcases hm with hm | hm
      · rcases List.mem_cons.1 hm with rfl | hm
        · exact Or.inr ⟨hn.1, by rw [OMap.find?_set, if_pos rfl]⟩
        · exact Or.inl hm
      · rw [List.map_cons, List.mem_cons, not_or] at hm
        exact Or.inr ⟨hm.1.2, by rw [OMap.find?_set, if_neg hm.1.1]; exact hm.2⟩
  exact key l [] h (Or.inl hx)

/-- The ordered view. -/
theorem orderedView_eq {t : Tensor ν σ α} (h : WF t) (size : ℕ) {position : List (ν × σ)}
    (hperm : (position.map Prod.fst).Perm t.names) {p : ν → σ × ℕ} (hv : keyOf t.names p ∈ OMap.keys t.core.blocks)
    (hp : ∀ x ∈ position, x.2 = (p x.1).1) :
    orderedView size t position = .ok ⟨keyOf t.names p,
      position.map (fun x => axisDim t x.1 x.2),
      position.map (fun x => (byteLeadings size (t.names.map fun n => axisDim t n (p n).1)).getD
        (t.names.idxOf x.1) 0)⟩ := by
  have hnd : (position.map Prod.fst).Nodup := hperm.nodup_iff.2 h.nodup
  have hf : ∀ n ∈ t.names, OMap.find? (OMap.ofList position) n = some (p n).1 := by
    intro n hn
    obtain ⟨x, hx, rfl⟩ := List.mem_map.1 (hperm.mem_iff.2 hn)
    rw [find?_ofList_mem hnd hx, hp x hx]
  have hmem : ∀ x ∈ position, x.1 ∈ t.names := fun x hx =>
    hperm.mem_iff.1 (List.mem_map.2 ⟨x, hx, rfl⟩)
  have hlen : position.length = t.names.length := by simpa using hperm.length_eq
  unfold orderedView
  simp only
  rw [blockKey_eq h.shaped hv (Or.inr hf)]
  simp only [Outcome.bind]
  rw [viewDims_eq _ p _ _ (fun n hn => by rw [hf n hn]; rfl) (h.mem_keys.1 hv).1, dimsOf_names h]
  simp only
  rw [viewAxes_eq h.nodup position hmem hlen]
  simp only [List.map_map]
  congr 2
  apply List.map_congr_left
  intro x hx
  have hlt : t.names.idxOf x.1 < t.names.length := List.idxOf_lt_length_iff.2 (hmem x hx)
  simp only [Function.comp]
  rw [List.getD_eq_getElem?_getD, List.getElem?_map, List.getElem?_eq_getElem hlt,
    List.getElem_idxOf hlt, hp x hx]
  rfl

theorem byteOffset_ordered {t : Tensor ν σ α} (h : WF t) (size : ℕ) {position : List (ν × σ)}
    (hperm : (position.map Prod.fst).Perm t.names) (p : ν → σ × ℕ) (key : List σ) (shape : List ℕ) :
    byteOffset ⟨key, shape,
      position.map (fun x => (byteLeadings size (t.names.map fun n => axisDim t n (p n).1)).getD
        (t.names.idxOf x.1) 0)⟩ (position.map fun x => (p x.1).2) =
      rowMajor (t.names.map fun n => axisDim t n (p n).1) (idxOf t.names p) * size := by
  have hL : (byteLeadings size (t.names.map fun n => axisDim t n (p n).1)).length = t.names.length := by
    rw [byteLeadings_eq, List.length_map, leadingsOf_length, List.length_map]
  have := dot_names h.nodup (fun n => (p n).2) _ hL hperm
  rw [List.map_map, List.map_map] at this
  rw [rowMajor_eq_dot (by simp [idxOf]), ← dot_map_mul, ← byteLeadings_eq]
  exact this

omit [TatSym σ] in
theorem viewAxes_short {names : List ν} (hn : names.Nodup) (pre suf : List (ν × σ))
    (hp : ∀ x ∈ suf, x.1 ∈ names) (k : ℕ) :
    viewAxes names (pre ++ suf) (List.range' pre.length (suf.length + (k + 1))) = .ub := by
  induction suf generalizing pre with
  | nil =>
    rw [List.append_nil, List.length_nil, Nat.zero_add, List.range'_succ, viewAxes]
    have : axisOf names pre pre.length = .ub := by
      unfold axisOf
      rw [List.getElem?_eq_none (le_refl _)]
    rw [this]
    rfl
  | cons x suf ih =>
    have h1 : (pre ++ x :: suf)[pre.length]? = some x := by simp
    have h2 : axisOf names (pre ++ x :: suf) pre.length = .ok (names.idxOf x.1) := by
      unfold axisOf
      rw [h1]
      simp only
      rw [nameToIndex_find hn, if_pos (hp x (by simp))]
    have h3 := ih (pre ++ [x]) (fun y hy => hp y (by simp [hy]))
    rw [List.append_assoc, List.singleton_append, List.length_append, List.length_singleton] at h3
    rw [List.length_cons, show suf.length + 1 + (k + 1) = (suf.length + (k + 1)) + 1 by omega,
      List.range'_succ, viewAxes, h2]
    simp only [Outcome.bind]
    rw [h3]

omit [TatSym σ] in
theorem getBlock_missing {position : List (ν × σ)} {names : List ν}
    (h : ∃ n ∈ names, n ∉ OMap.keys position) :
    getBlock position names = .error "Name not found in position map when finding block" := by
  induction names with
  | nil => obtain ⟨n, hn, _⟩ := h; simp at hn
  | cons n ns ih =>
    rw [getBlock]
    cases hf : OMap.find? position n with
    | none => rfl
    | some s =>
      obtain ⟨n', hn', hk⟩ := h
      have : n' ∈ ns := by
        rcases List.mem_cons.1 hn' with rfl | h1
        · rw [OMap.find?_eq_none.2 hk] at hf; simp at hf
        · exact h1
      simp only
      rw [ih ⟨n', this, hk⟩]
      rfl

/-! ## The property -/

/-- A view for a list of names and symmetries which names every edge once: it exists when the block does,
its axes are the edges in the order of the list, and reading or writing it at an index is reading or
writing the element of the tensor with these names, symmetries and indices. -/
theorem C79_ordered_partial {t : Tensor ν σ α} (h : WF t) {size : ℕ} (hs : 0 < size)
    {position : List (ν × σ)} (hperm : (position.map Prod.fst).Perm t.names)
    {f : ν → σ} (hf : ∀ x ∈ position, x.2 = f x.1) (hb : t.names.map f ∈ OMap.keys t.core.blocks) :
    ∃ view, orderedView size t position = .ok view ∧
      view.shape = position.map (fun x => axisDim t x.1 x.2) ∧
      ∀ m, Covers t m → ValidPos t (posOf m) → (∀ n ∈ t.names, (posOf m n).1 = f n) →
        viewRead size t view (position.map fun x => (posOf m x.1).2) = constAt t m ∧
        ∀ value, viewWrite size t view (position.map fun x => (posOf m x.1).2) value =
          atWrite t m value := by
  refine ⟨_, orderedView_eq h size hperm (p := fun n => (f n, 0)) hb hf, rfl, ?_⟩
  intro m hc hv hm
  have hk : keyOf t.names (posOf m) = t.names.map f := List.map_congr_left hm
  have hd : (t.names.map fun n => axisDim t n (f n)) =
      t.names.map fun n => axisDim t n (posOf m n).1 :=
    List.map_congr_left fun n hn => by rw [hm n hn]
  have hmem : ∀ x ∈ position, x.1 ∈ t.names := fun x hx =>
    hperm.mem_iff.1 (List.mem_map.2 ⟨x, hx, rfl⟩)
  apply view_at h hs hc hv
  · exact hk.symm
  · show InBox (position.map _) (position.map _)
    unfold InBox
    rw [List.forall₂_map_left_iff, List.forall₂_map_right_iff, List.forall₂_same]
    intro x hx
    have := ((validPos_axisDim h _).1 hv).1 x.1 (hmem x hx)
    rwa [hm _ (hmem x hx), ← hf x hx] at this
  · simp only [hd]
    rw [dimsOf_names h]
    exact byteOffset_ordered h size hperm (posOf m) _ _

/-- Every index inside the shape of such a view is the index of an element of the tensor: with
`C79_ordered_partial`, the view reaches nothing outside the block. -/
theorem C79_inside_partial {t : Tensor ν σ α} (h : WF t) {position : List (ν × σ)}
    (hperm : (position.map Prod.fst).Perm t.names)
    {f : ν → σ} (hf : ∀ x ∈ position, x.2 = f x.1) (hb : t.names.map f ∈ OMap.keys t.core.blocks)
    {idx : List ℕ} (hi : InBox (position.map fun x => axisDim t x.1 x.2) idx) :
    ∃ m, Covers t m ∧ ValidPos t (posOf m) ∧ (∀ n ∈ t.names, (posOf m n).1 = f n) ∧
      (position.map fun x => (posOf m x.1).2) = idx := by
  have hnd : (position.map Prod.fst).Nodup := hperm.nodup_iff.2 h.nodup
  have hl : position.length = idx.length := by simpa using hi.length
  let l : List (ν × (σ × ℕ)) := List.zipWith (fun x i => (x.1, (x.2, i))) position idx
  have hlf : l.map Prod.fst = position.map Prod.fst := by
    apply List.ext_getElem
    · simp [l, hl]
    · intro i _ _; simp [l]
  have hpos : ∀ i (hi : i < position.length), posOf (OMap.ofList l) position[i].1 =
      (position[i].2, idx[i]) := by
    intro i hi'
    have hlt : i < l.length := by simp [l]; omega
    have := find?_ofList_mem (l := l) (by rw [hlf]; exact hnd) (x := l[i]) (List.getElem_mem hlt)
    unfold posOf
    simp only [l, List.getElem_zipWith] at this
    rw [this]
    rfl
  have hname : ∀ n ∈ t.names, ∃ i, ∃ hi : i < position.length, position[i].1 = n := by
    intro n hn
    obtain ⟨x, hx, rfl⟩ := List.mem_map.1 (hperm.mem_iff.2 hn)
    obtain ⟨i, hi', rfl⟩ := List.getElem_of_mem hx
    exact ⟨i, hi', rfl⟩
  have hfst : ∀ n ∈ t.names, (posOf (OMap.ofList l) n).1 = f n := by
    intro n hn
    obtain ⟨i, hi', rfl⟩ := hname n hn
    rw [hpos i hi', hf _ (List.getElem_mem hi')]
  refine ⟨OMap.ofList l, ?_, ?_, hfst, ?_⟩
  · intro n hn
    obtain ⟨i, hi', rfl⟩ := hname n hn
    have hlt : i < l.length := by simp [l]; omega
    have := find?_ofList_mem (l := l) (by rw [hlf]; exact hnd) (x := l[i]) (List.getElem_mem hlt)
    simp only [l, List.getElem_zipWith] at this
    exact OMap.find?_isSome.1 (by rw [this]; rfl)
  · rw [validPos_axisDim h]
    constructor
    · intro n hn
      obtain ⟨i, hi', rfl⟩ := hname n hn
      have h2 := List.forall₂_iff_get.1 hi
      have := h2.2 i (by simpa using hi') (by omega)
      rw [hpos i hi']
      simpa using this
    · have : keyOf t.names (posOf (OMap.ofList l)) = t.names.map f := List.map_congr_left hfst
      rw [this]
      exact (h.mem_keys.1 hb).2
  · apply List.ext_getElem
    · simpa using hl
    · intro i h1 h2
      rw [List.getElem_map, hpos i (by simpa using h1)]

/-- Two indices of such a view never share an element. -/
theorem C79_distinct_partial {t : Tensor ν σ α} (h : WF t) {size : ℕ} (hs : 0 < size)
    {position : List (ν × σ)} (hperm : (position.map Prod.fst).Perm t.names)
    {f : ν → σ} (hf : ∀ x ∈ position, x.2 = f x.1) (hb : t.names.map f ∈ OMap.keys t.core.blocks)
    {view : BlockView σ} (hview : orderedView size t position = .ok view)
    {i j : List ℕ} (hi : InBox view.shape i) (hj : InBox view.shape j)
    (he : byteOffset view i = byteOffset view j) : i = j := by
  rw [orderedView_eq h size hperm (p := fun n => (f n, 0)) hb hf] at hview
  injection hview with hview
  subst hview
  obtain ⟨m, _, hv, hm, rfl⟩ := C79_inside_partial h hperm hf hb hi
  obtain ⟨m', _, hv', hm', rfl⟩ := C79_inside_partial h hperm hf hb hj
  have hd : ∀ q : ν → σ × ℕ, (∀ n ∈ t.names, (q n).1 = f n) →
      (t.names.map fun n => axisDim t n (f n)) = t.names.map fun n => axisDim t n (q n).1 :=
    fun q hq => List.map_congr_left fun n hn => by rw [hq n hn]
  have e1 := byteOffset_ordered h size hperm (posOf m) (t.names.map f)
    (position.map fun x => axisDim t x.1 x.2)
  have e2 := byteOffset_ordered h size hperm (posOf m') (t.names.map f)
    (position.map fun x => axisDim t x.1 x.2)
  rw [← hd _ hm] at e1
  rw [← hd _ hm'] at e2
  have hoff := e1.symm.trans (he.trans e2)
  have b1 := hv.inBox
  have b2 := hv'.inBox
  rw [dimsOf_names h, ← hd _ hm] at b1
  rw [dimsOf_names h, ← hd _ hm'] at b2
  have := rowMajor_inj b1 b2 (Nat.eq_of_mul_eq_mul_right hs hoff)
  have hmem : ∀ x ∈ position, x.1 ∈ t.names := fun x hx =>
    hperm.mem_iff.1 (List.mem_map.2 ⟨x, hx, rfl⟩)
  have hn : ∀ n ∈ t.names, (posOf m n).2 = (posOf m' n).2 := List.map_inj_left.1 this
  exact List.map_congr_left fun x hx => hn _ (hmem x hx)

/-- A view for a map from names to symmetries: its axes are the edges in the order of the tensor.
Without symmetry the map may be empty. -/
theorem C79_unordered {t : Tensor ν σ α} (h : WF t) {size : ℕ} (hs : 0 < size)
    {position : List (ν × σ)} {f : ν → σ}
    (hf : TatSym.isNoSym σ = true ∨ ∀ n ∈ t.names, OMap.find? position n = some (f n))
    (hb : t.names.map f ∈ OMap.keys t.core.blocks) :
    ∃ view, unorderedView size t position = .ok view ∧
      view.shape = t.names.map (fun n => axisDim t n (f n)) ∧
      ∀ m, Covers t m → ValidPos t (posOf m) → (∀ n ∈ t.names, (posOf m n).1 = f n) →
        viewRead size t view (t.names.map fun n => (posOf m n).2) = constAt t m ∧
        ∀ value, viewWrite size t view (t.names.map fun n => (posOf m n).2) value =
          atWrite t m value := by
  refine ⟨_, unorderedView_eq h size (p := fun n => (f n, 0)) hb hf, rfl, ?_⟩
  intro m hc hv hm
  have hd : (t.names.map fun n => axisDim t n (f n)) =
      t.names.map fun n => axisDim t n (posOf m n).1 :=
    List.map_congr_left fun n hn => by rw [hm n hn]
  apply view_at h hs hc hv
  · exact (List.map_congr_left hm).symm
  · show InBox (t.names.map fun n => axisDim t n (f n)) _
    rw [hd, ← dimsOf_names h]
    exact hv.inBox
  · simp only [hd]
    rw [dimsOf_names h, rowMajor_eq_dot (by simp [idxOf]), ← dot_map_mul, ← byteLeadings_eq]
    rfl

/-- A list of names is enough without symmetry. -/
theorem C79_names_partial {t : Tensor ν σ α} (h : WF t) (hns : TatSym.isNoSym σ = true) {size : ℕ}
    (hs : 0 < size) {names : List ν} (hperm : names.Perm t.names) (hb : t.core.blocks ≠ []) :
    ∃ view, namesView size t names = .ok view ∧
      view.shape = names.map (fun n => axisDim t n 0) ∧
      ∀ m, Covers t m → ValidPos t (posOf m) →
        viewRead size t view (names.map fun n => (posOf m n).2) = constAt t m ∧
        ∀ value, viewWrite size t view (names.map fun n => (posOf m n).2) value =
          atWrite t m value := by
  obtain ⟨b, bs, hbb⟩ := List.exists_cons_of_ne_nil hb
  have hbk : b.1 ∈ OMap.keys t.core.blocks := by rw [hbb]; simp
  have hl1 := (h.mem_keys.1 hbk).1.length_eq
  have hr := h.rank
  have hk : t.names.map (fun _ => (0 : σ)) ∈ OMap.keys t.core.blocks := by
    rw [forall2_noSym_keys hns (t.names.map fun _ => (0 : σ)) b.1 (by simp; omega)]
    exact hbk
  obtain ⟨view, h1, h2, h3⟩ := C79_ordered_partial h hs
    (position := names.map fun n => (n, (0 : σ))) (by simpa [Function.comp_def] using hperm)
    (f := fun _ => 0) (by intro x hx; obtain ⟨n, _, rfl⟩ := List.mem_map.1 hx; rfl) hk
  refine ⟨view, h1, by simpa [Function.comp_def] using h2, ?_⟩
  intro m hc hv
  simpa [Function.comp_def] using h3 m hc hv fun n _ => TatSym.noSym_eq hns _ _

/-- With symmetry a position which leaves out a name is refused, as a map and as a list. -/
theorem C79_missing {t : Tensor ν σ α} (hns : TatSym.isNoSym σ = false) (size : ℕ)
    {position : List (ν × σ)} {n : ν} (hn : n ∈ t.names) :
    (n ∉ OMap.keys position → unorderedView size t position =
      .error "Name not found in position map when finding block") ∧
    (n ∉ OMap.keys (OMap.ofList position) → orderedView size t position =
      .error "Name not found in position map when finding block") := by
  have key : ∀ q : List (ν × σ), n ∉ OMap.keys q → blockKey t q =
      .error "Name not found in position map when finding block" := by
    intro q hq
    unfold blockKey
    rw [if_neg (by rw [hns]; simp), getBlock_missing ⟨n, hn, hq⟩]
    rfl
  constructor
  · intro hq; unfold unorderedView; rw [key _ hq]; rfl
  · intro hq; unfold orderedView; simp only; rw [key _ hq]; rfl

/-- With symmetry a position whose block does not exist is refused. -/
theorem C79_no_block {t : Tensor ν σ α} (hns : TatSym.isNoSym σ = false) (size : ℕ)
    {position : List (ν × σ)} {f : ν → σ}
    (hf : ∀ n ∈ t.names, OMap.find? position n = some (f n))
    (hb : t.names.map f ∉ OMap.keys t.core.blocks) :
    unorderedView size t position = .error "map::at" := by
  unfold unorderedView blockKey
  rw [if_neg (by rw [hns]; simp), getBlock_ok position f _ hf]
  simp only [Outcome.bind]
  rw [OMap.find?_eq_none.2 hb]

/-- Without symmetry nothing checks that the list names all edges: a list with fewer names than the
tensor has edges is read beyond its end. -/
theorem C79_short {t : Tensor ν σ α} (h : WF t) (hns : TatSym.isNoSym σ = true) (size : ℕ)
    (hb : t.core.blocks ≠ []) {names : List ν} (hn : ∀ n ∈ names, n ∈ t.names)
    (hl : names.length < t.names.length) : namesView size t names = .ub := by
  obtain ⟨b, bs, hbb⟩ := List.exists_cons_of_ne_nil hb
  have hbk : b.1 ∈ OMap.keys t.core.blocks := by rw [hbb]; simp
  have hl1 := (h.mem_keys.1 hbk).1.length_eq
  have hr := h.rank
  have hk : keyOf t.names (fun _ => ((0 : σ), 0)) ∈ OMap.keys t.core.blocks := by
    rw [forall2_noSym_keys hns (keyOf t.names fun _ => ((0 : σ), 0)) b.1 (by simp [keyOf]; omega)]
    exact hbk
  unfold namesView orderedView
  simp only
  rw [blockKey_eq h.shaped hk (Or.inl hns)]
  simp only [Outcome.bind]
  rw [viewDims_eq _ (fun _ => ((0 : σ), 0)) _ _ (fun n _ => TatSym.noSym_eq hns _ _)
    (h.mem_keys.1 hk).1]
  simp only
  have := viewAxes_short h.nodup [] (names.map fun n => (n, (0 : σ)))
    (by intro x hx; obtain ⟨n, h1, rfl⟩ := List.mem_map.1 hx; exact hn n h1)
    (t.names.length - names.length - 1)
  rw [List.nil_append, List.length_nil, List.length_map,
    show names.length + (t.names.length - names.length - 1 + 1) = t.names.length by omega,
    ← List.range_eq_range'] at this
  rw [this]

end views

end TAT
