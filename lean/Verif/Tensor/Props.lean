import Verif.Tensor.Lemmas

/-!
# Properties C09, C11, C12, C48, C50
-/

namespace TAT

variable {ν σ α : Type}

/-! ## C09: name list validation -/

/-- C09: construction succeeds exactly for distinct names, one per edge; otherwise the outcome is an
error (never a tensor and never undefined behaviour). -/
theorem C09_names_checked [DecidableEq ν] [TatSym σ] (junk : List σ → ℕ → α) (names : List ν)
    (edges : List (Edge σ)) (r : Bool) (hs : ∀ e ∈ edges, OMap.Sorted e.map) :
    ((∃ t, mkTensor junk names edges r = .ok t) ↔
      names.length = edges.length ∧ names.Nodup) ∧
    ((mkTensor junk names edges r).isError = true ↔
      ¬ (names.length = edges.length ∧ names.Nodup)) ∧
    (∀ t, mkTensor junk names edges r = .ok t → t.names = names ∧ WF t) := by
  by_cases h : names.length = edges.length ∧ names.Nodup
  · have := mkTensor_eq junk names edges r hs h.1 h.2
    rw [this]
    refine ⟨⟨fun _ => h, fun _ => ⟨_, rfl⟩⟩, ⟨fun h' => by simp [Outcome.isError] at h',
      fun h' => absurd h h'⟩, ?_⟩
    intro t ht
    cases ht
    exact ⟨rfl, wf_fresh junk names edges r hs h.1 h.2⟩
  · have hlen : (prunedEdges (arrowed edges r)).length = edges.length := by
      have := congrArg List.length (arrowed_maps edges r)
      simpa [prunedEdges] using this
    have he := checkValidName_error names edges.length h
    unfold mkTensor
    rw [newCore_eq junk edges r hs]
    simp only [Outcome.bind]
    rw [hlen]
    cases hc : checkValidName names edges.length with
    | ok _ => rw [hc] at he; simp [Outcome.isError] at he
    | ub => rw [hc] at he; simp [Outcome.isError] at he
    | error m => simp [h, Outcome.isError]

/-- C09: the lookup table built from distinct names maps each name to its position and contains
nothing else. -/
theorem C09_name_to_index [LinearOrder ν] (names : List ν) (h : names.Nodup) (n : ν) (i : ℕ) :
    OMap.find? (nameToIndex names) n = some i ↔ names[i]? = some n := by
  have key : ∀ k ≤ names.length, ∀ (n : ν) (i : ℕ),
      OMap.find? ((List.range k).foldl (indexStep names) []) n = some i ↔ i < k ∧ names[i]? = some n := by
    intro k
    induction k with
    | zero => intro _ n i; simp [OMap.find?]
    | succ k ih =>
      intro hk n i
      rw [List.range_succ, List.foldl_append]
      simp only [List.foldl_cons, List.foldl_nil]
      rw [indexStep, List.getElem?_eq_getElem (by omega : k < names.length)]
      simp only
      rw [OMap.find?_set]
      split
      · rename_i heq
        constructor
        · intro h'
          cases h'
          rw [List.getElem?_eq_getElem (by omega), heq]
          exact ⟨by omega, rfl⟩
        · rintro ⟨h1, h2⟩
          have h3 : i < names.length := by omega
          rw [List.getElem?_eq_getElem h3, Option.some.injEq, heq] at h2
          have := (List.Nodup.getElem_inj_iff h).1 h2
          simp [this]
      · rename_i hne
        rw [ih (by omega)]
        constructor
        · rintro ⟨h1, h2⟩; exact ⟨by omega, h2⟩
        · rintro ⟨h1, h2⟩
          refine ⟨?_, h2⟩
          rcases Nat.lt_succ_iff_lt_or_eq.1 h1 with h3 | h3
          · exact h3
          · subst h3
            rw [List.getElem?_eq_getElem (by omega), Option.some.injEq] at h2
            exact absurd h2.symm hne
  unfold nameToIndex
  rw [key names.length le_rfl]
  constructor
  · exact fun h' => h'.2
  · intro h'
    refine ⟨?_, h'⟩
    by_contra hc
    rw [List.getElem?_eq_none (by omega)] at h'
    simp at h'

/-! ## C11: element addressing -/

/-- C11: the address computed by the code is the row-major one, in-range index tuples map to
distinct addresses inside the block, and every address is reached. -/
theorem C11_addressing (dims : List ℕ) :
    (∀ idx, InBox dims idx → horner dims idx < dims.prod) ∧
    (∀ idx idx', InBox dims idx → InBox dims idx' → horner dims idx = horner dims idx' →
      idx = idx') ∧
    (∀ o < dims.prod, ∃ idx, InBox dims idx ∧ horner dims idx = o) := by
  refine ⟨fun idx h => ?_, fun idx idx' h h' => ?_, fun o ho => ?_⟩
  · rw [horner_eq h.length]; exact rowMajor_lt h
  · rw [horner_eq h.length, horner_eq h'.length]
    exact rowMajor_inj h h'
  · refine ⟨unravel dims o, inBox_unravel ho, ?_⟩
    rw [horner_eq (by rw [unravel_length]), rowMajor_unravel ho]

/-- C11, row-major order: moving the last index by one moves the address by one, and the first index
has the largest stride. -/
theorem C11_row_major (d : ℕ) (dims : List ℕ) (i : ℕ) (idx : List ℕ)
    (h : dims.length = idx.length) :
    horner (d :: dims) (i :: idx) = i * dims.prod + horner dims idx ∧
    (∀ (e j : ℕ), horner (dims ++ [e]) (idx ++ [j]) = horner dims idx * e + j) := by
  refine ⟨?_, ?_⟩
  · rw [horner_eq (by simpa using h), horner_eq h, rowMajor]
  · intro e j
    unfold horner
    rw [List.length_append, List.length_singleton, List.range_succ, List.foldl_append]
    simp only [List.foldl_cons, List.foldl_nil]
    have e1 : (dims ++ [e]).getD dims.length 0 = e := by simp
    have e2 : (idx ++ [j]).getD dims.length 0 = j := by simp [h]
    rw [e1, e2]
    congr 2
    apply List.foldl_ext
    intro a b hb
    rw [List.mem_range] at hb
    rw [List.getD_append _ _ _ _ hb, List.getD_append _ _ _ _ (by omega)]

/-- A concrete case: a 2 by 3 block. -/
example : InBox [2, 3] [1, 2] ∧ horner [2, 3] [1, 2] = 5 := by
  refine ⟨?_, by decide⟩
  exact .cons (by decide) (.cons (by decide) .nil)

/-! ## C12: reading and writing one element -/

/-- C12: reading a valid position gives the element at that position. -/
theorem C12_read [TatSym σ] [LinearOrder ν] {t : Tensor ν σ α} (h : WF t)
    {position : List (ν × (σ × ℕ))} (hc : Covers t position) (hv : ValidPos t (posOf position)) :
    ∃ v, elem t (posOf position) = some v ∧ constAt t position = .ok v :=
  constAt_eq h hc hv

theorem position_inj [TatSym σ] {t : Tensor ν σ α} {p q : ν → σ × ℕ}
    (hp : ValidPos t p) (hq : ValidPos t q)
    (hk : keyOf t.names p = keyOf t.names q)
    (ho : rowMajor (dimsOf t.core.edges (keyOf t.names p)) (idxOf t.names p) =
      rowMajor (dimsOf t.core.edges (keyOf t.names q)) (idxOf t.names q)) :
    ∀ n ∈ t.names, p n = q n := by
  have h1 := hp.inBox
  have h2 := hq.inBox
  rw [hk] at h1 ho
  have h3 := rowMajor_inj h1 h2 ho
  intro n hn
  have e1 := List.map_inj_left.1 hk n hn
  have e2 := List.map_inj_left.1 h3 n hn
  exact Prod.ext e1 e2

/-- Two positions that agree on all names address the same element. -/
theorem elem_congr [TatSym σ] (t : Tensor ν σ α) {p q : ν → σ × ℕ}
    (h : ∀ n ∈ t.names, p n = q n) : elem t p = elem t q := by
  unfold elem
  have e1 : keyOf t.names p = keyOf t.names q := List.map_inj_left.2 fun n hn => by rw [h n hn]
  have e2 : idxOf t.names p = idxOf t.names q := List.map_inj_left.2 fun n hn => by rw [h n hn]
  rw [e1, e2]

theorem set_shapes [TatSym σ] {blocks : List (List σ × List α)} (hs : OMap.Sorted blocks)
    {k : List σ} {d d' : List α} (hk : OMap.find? blocks k = some d) (hl : d'.length = d.length) :
    (OMap.set blocks k d').map (fun b => (b.1, b.2.length)) =
      blocks.map (fun b => (b.1, b.2.length)) := by
  apply OMap.ext
  · have := hs.set k d'
    unfold OMap.Sorted at *; rw [List.map_map]; exact this
  · unfold OMap.Sorted at *; rw [List.map_map]; exact hs
  · intro x
    rw [OMap.find?_map_val _ (fun _ (d : List α) => d.length),
      OMap.find?_map_val _ (fun _ (d : List α) => d.length), OMap.find?_set]
    split
    · rename_i h
      rw [h, hk]
      simp [hl]
    · rfl

/-- C12: after a write at a valid position (through the address computed from the names), the
tensor is still well formed with the same names and edges, reading that position gives the value,
and reading any other valid position gives what it held before. -/
theorem C12_write [TatSym σ] [LinearOrder ν] {t : Tensor ν σ α} (h : WF t)
    {position : List (ν × (σ × ℕ))} (hc : Covers t position) (hv : ValidPos t (posOf position))
    (v : α) :
    ∃ t', atWrite t position v = .ok t' ∧ WF t' ∧ t'.names = t.names ∧
      t'.core.edges = t.core.edges ∧
      ∀ position', Covers t position' → ValidPos t (posOf position') →
        constAt t' position' =
          if (∀ n ∈ t.names, posOf position' n = posOf position n) then .ok v
          else constAt t position' := by
  obtain ⟨data, hd, hl⟩ := h.valid_block hv
  have hlt := rowMajor_lt hv.inBox
  rw [← hl] at hlt
  set o := rowMajor (dimsOf t.core.edges (keyOf t.names (posOf position)))
    (idxOf t.names (posOf position)) with ho
  set k := keyOf t.names (posOf position) with hk
  let t' : Tensor ν σ α :=
    { t with core := { t.core with blocks := OMap.set t.core.blocks k (data.set o v) } }
  have hw : atWrite t position v = .ok t' := by
    unfold atWrite
    rw [address_eq h hc hv]
    simp only [Outcome.bind, ← ho, ← hk, hd, if_pos hlt]
    rfl
  have hwf : WF t' :=
    ⟨h.rank, h.nodup, h.sorted,
      by rw [← h.blocks]; exact set_shapes h.blocksSorted hd (by simp), h.pruned⟩
  refine ⟨t', hw, hwf, rfl, rfl, ?_⟩
  intro position' hc' hv'
  obtain ⟨x, hx1, hx2⟩ := constAt_eq hwf (position := position') hc' hv'
  rw [hx2]
  split
  · rename_i hsame
    rw [elem_congr t' (q := posOf position) hsame] at hx1
    unfold elem elemAt at hx1
    change (OMap.find? (OMap.set t.core.blocks k (data.set o v)) k).bind _ = _ at hx1
    rw [OMap.find?_set, if_pos rfl] at hx1
    change (data.set o v)[o]? = some x at hx1
    rw [List.getElem?_set_self hlt] at hx1
    cases hx1; rfl
  · rename_i hdiff
    obtain ⟨y, hy1, hy2⟩ := constAt_eq h hc' hv'
    rw [hy2]
    congr 1
    have : elem t' (posOf position') = elem t (posOf position') := by
      unfold elem elemAt
      change (OMap.find? (OMap.set t.core.blocks k (data.set o v))
        (keyOf t.names (posOf position'))).bind _ = _
      rw [OMap.find?_set]
      split
      · rename_i hkeq
        have hne : o ≠ rowMajor (dimsOf t.core.edges (keyOf t.names (posOf position')))
            (idxOf t.names (posOf position')) := by
          intro heq
          exact hdiff fun n hn => (position_inj hv hv' hkeq.symm heq n hn).symm
        rw [hkeq, hd]
        change (data.set o v)[_]? = data[_]?
        rw [← hkeq]
        exact List.getElem?_set_ne hne
      · rfl
    rw [this, hy1] at hx1
    cases hx1; rfl

/-- C12: only the value attached to each name matters, not the order or presence of other names. -/
theorem C12_names_any_order [TatSym σ] [LinearOrder ν] (t : Tensor ν σ α)
    (position position' : List (ν × (σ × ℕ)))
    (h : ∀ n ∈ t.names, OMap.find? position n = OMap.find? position' n) :
    constAt t position = constAt t position' ∧
    (∀ v, atWrite t position v = atWrite t position' v) := by
  have hoff : ∀ (names : List ν) (edges : List (Edge σ)),
      (∀ n ∈ names, OMap.find? position n = OMap.find? position' n) →
      getOffsetLoop position names edges = getOffsetLoop position' names edges := by
    intro names
    induction names with
    | nil => intro edges _; rfl
    | cons n ns ih =>
      intro edges hh
      unfold getOffsetLoop
      rw [hh n (by simp)]
      have := fun es => ih es (fun m hm => hh m (by simp [hm]))
      simp only [this]
  have hblk : ∀ (names : List ν) (edges : List (Edge σ)),
      (∀ n ∈ names, OMap.find? position n = OMap.find? position' n) →
      getBlockAndOffsetLoop position names edges =
        getBlockAndOffsetLoop position' names edges := by
    intro names
    induction names with
    | nil => intro edges _; cases edges <;> rfl
    | cons n ns ih =>
      intro edges hh
      cases edges with
      | nil => rfl
      | cons e es =>
        unfold getBlockAndOffsetLoop
        rw [hh n (by simp), ih es (fun m hm => hh m (by simp [hm]))]
  have ha : address t position = address t position' := by
    unfold address
    rw [hoff _ _ h, hblk _ _ h]
  exact ⟨by unfold constAt; rw [ha], fun v => by unfold atWrite; rw [ha]⟩

/-- C12: leaving out any name of the tensor raises an error (for a tensor whose edges are not
empty). -/
theorem C12_missing_name [TatSym σ] [LinearOrder ν] {t : Tensor ν σ α}
    (hr : t.names.length = t.core.edges.length) (hne : ∀ e ∈ t.core.edges, e.map ≠ [])
    (position : List (ν × (σ × ℕ))) {n : ν} (hn : n ∈ t.names)
    (hm : n ∉ OMap.keys position) (v : α) :
    (constAt t position).isError = true ∧ (atWrite t position v).isError = true := by
  have hf : OMap.find? position n = none := OMap.find?_eq_none.2 hm
  have hoff : ∀ (names : List ν) (edges : List (Edge σ)), names.length = edges.length →
      (∀ e ∈ edges, e.map ≠ []) → n ∈ names →
      (getOffsetLoop position names edges).isError = true := by
    intro names
    induction names with
    | nil => intro _ _ _ h; simp at h
    | cons m ns ih =>
      intro edges hl he hmem
      cases edges with
      | nil => simp at hl
      | cons e es =>
        unfold getOffsetLoop
        cases hfm : OMap.find? position m with
        | none => rfl
        | some p =>
          have hmn : n ∈ ns := by
            rcases List.mem_cons.1 hmem with rfl | h
            · rw [hf] at hfm; cases hfm
            · exact h
          have := ih es (by simpa using hl) (fun e' h' => he e' (by simp [h'])) hmn
          simp only
          cases hem : e.map with
          | nil => exact absurd hem (he e (by simp))
          | cons x _ =>
            simp only
            cases hg : getOffsetLoop position ns es <;> rw [hg] at this <;>
              simp_all [Outcome.bind, Outcome.isError]
  have hblk : ∀ (names : List ν) (edges : List (Edge σ)), names.length = edges.length →
      n ∈ names → (getBlockAndOffsetLoop position names edges).isError = true := by
    intro names
    induction names with
    | nil => intro _ _ h; simp at h
    | cons m ns ih =>
      intro edges hl hmem
      cases edges with
      | nil => simp at hl
      | cons e es =>
        unfold getBlockAndOffsetLoop
        cases hfm : OMap.find? position m with
        | none => rfl
        | some p =>
          have hmn : n ∈ ns := by
            rcases List.mem_cons.1 hmem with rfl | h
            · rw [hf] at hfm; cases hfm
            · exact h
          have := ih es (by simpa using hl) hmn
          simp only
          cases hem : OMap.find? e.map p.1 with
          | none => rfl
          | some x =>
            simp only
            cases hg : getBlockAndOffsetLoop position ns es <;> rw [hg] at this <;>
              simp_all [Outcome.bind, Outcome.isError]
  have ha : (address t position).isError = true := by
    unfold address
    split
    · have := hoff t.names t.core.edges hr hne hn
      cases hg : getOffsetLoop position t.names t.core.edges <;> rw [hg] at this <;>
        simp_all [Outcome.bind, Outcome.isError]
    · have := hblk t.names t.core.edges hr hn
      cases hg : getBlockAndOffsetLoop position t.names t.core.edges <;> rw [hg] at this <;>
        simp_all [Outcome.bind, Outcome.isError]
  unfold constAt atWrite
  cases hg : address t position <;> rw [hg] at ha <;> simp_all [Outcome.bind, Outcome.isError]

/-! ## C48: norms -/

/-- All stored elements, in block order. -/
def allElems (t : Tensor ν σ α) : List α := t.core.blocks.flatMap fun b => b.2

theorem foldl_blocks {S : Type} (f : S → α → S) (blocks : List (List σ × List α)) (s : S) :
    blocks.foldl (fun r b => b.2.foldl f r) s = (blocks.flatMap fun b => b.2).foldl f s := by
  induction blocks generalizing s with
  | nil => rfl
  | cons b bs ih => simp [List.foldl_append, ih]

/-- C48: `norm<-1>` is the maximum modulus: an upper bound of all moduli which is one of them (or 0
if no modulus is positive). -/
theorem C48_max {ρ : Type} [LinearOrder ρ] [Zero ρ] (abs : α → ρ) (t : Tensor ν σ α) :
    (∀ x ∈ allElems t, abs x ≤ normMax abs t) ∧ 0 ≤ normMax abs t ∧
    (normMax abs t = 0 ∨ ∃ x ∈ allElems t, normMax abs t = abs x) := by
  have key : ∀ (l : List α) (a : ρ),
      let r := l.foldl (fun result number => if result < abs number then abs number else result) a
      (∀ x ∈ l, abs x ≤ r) ∧ a ≤ r ∧ (r = a ∨ ∃ x ∈ l, r = abs x) := by
    intro l
    induction l with
    | nil => intro a; simp
    | cons x l ih =>
      intro a
      obtain ⟨h1, h2, h3⟩ := ih (if a < abs x then abs x else a)
      simp only [List.foldl_cons] at *
      set r := l.foldl (fun result number => if result < abs number then abs number else result)
        (if a < abs x then abs x else a)
      refine ⟨?_, ?_, ?_⟩
      · intro y hy
        rcases List.mem_cons.1 hy with rfl | hy
        · refine le_trans ?_ h2
          split
          · exact le_rfl
          · rename_i h; exact not_lt.1 h
        · exact h1 y hy
      · refine le_trans ?_ h2
        split
        · rename_i h; exact h.le
        · exact le_rfl
      · rcases h3 with h3 | ⟨y, hy, h3⟩
        · split at h3
          · exact Or.inr ⟨x, by simp, h3⟩
          · exact Or.inl h3
        · exact Or.inr ⟨y, by simp [hy], h3⟩
  unfold normMax
  rw [foldl_blocks]
  exact key _ 0

/-- C48: `norm<0>` counts the elements. -/
theorem C48_count {ρ : Type} [AddMonoidWithOne ρ] (t : Tensor ν σ α) :
    normCount (fun n => (n : ρ)) t = ((allElems t).length : ρ) := by
  have key : ∀ (l : List (List σ × List α)) (a : ℕ),
      l.foldl (fun result b => result + ((b.2.length : ℕ) : ρ)) (a : ρ) =
        ((a + (l.flatMap fun b => b.2).length : ℕ) : ρ) := by
    intro l
    induction l with
    | nil => intro a; simp
    | cons b l ih =>
      intro a
      rw [List.foldl_cons, ← Nat.cast_add, ih]
      congr 1
      simp; omega
  have := key t.core.blocks 0
  simpa [normCount, allElems] using this

/-- C48: the other orders are the root of the sum of the powers of every element, once each. -/
theorem C48_sum {ρ : Type} [AddCommMonoid ρ] (term : α → ρ) (root : ρ → ρ) (t : Tensor ν σ α) :
    normSum term root t = root ((allElems t).map term).sum := by
  unfold normSum
  rw [foldl_blocks]
  congr 1
  change (allElems t).foldl _ _ = _
  generalize allElems t = l
  have : ∀ a, l.foldl (fun result number => result + term number) a = a + (l.map term).sum := by
    induction l with
    | nil => intro a; simp
    | cons x l ih => intro a; simp [ih, add_assoc]
  rw [this, zero_add]

/-- C48: tensors with the same moduli, in any order, have the same norms; in particular signs and
the order of edges do not matter. -/
theorem C48_invariant {ρ : Type} [LinearOrder ρ] [AddCommMonoidWithOne ρ]
    (abs : α → ρ) (power : ρ → ρ) (root : ρ → ρ) (t t' : Tensor ν σ α)
    (h : ((allElems t).map abs).Perm ((allElems t').map abs)) :
    normMax abs t = normMax abs t' ∧
    normCount (fun n => (n : ρ)) t = normCount (fun n => (n : ρ)) t' ∧
    normSum (fun x => power (abs x)) root t = normSum (fun x => power (abs x)) root t' := by
  refine ⟨?_, ?_, ?_⟩
  · have half : ∀ t t' : Tensor ν σ α, ((allElems t).map abs).Perm ((allElems t').map abs) →
        normMax abs t ≤ normMax abs t' := by
      intro t t' h
      obtain ⟨_, _, h3⟩ := C48_max abs t
      obtain ⟨h4, h5, _⟩ := C48_max abs t'
      rcases h3 with h3 | ⟨x, hx, h3⟩
      · rw [h3]; exact h5
      · have : abs x ∈ (allElems t').map abs := h.mem_iff.1 (List.mem_map_of_mem hx)
        obtain ⟨y, hy, hxy⟩ := List.mem_map.1 this
        rw [h3, ← hxy]; exact h4 y hy
    exact le_antisymm (half t t' h) (half t' t h.symm)
  · rw [C48_count, C48_count]
    have := h.length_eq
    simp only [List.length_map] at this
    rw [this]
  · rw [C48_sum, C48_sum]
    congr 1
    have h2 := (h.map power).sum_eq
    simpa [List.map_map, Function.comp_def] using h2

/-- A concrete case: two blocks, integers. -/
example : let t : Tensor ℕ U1 ℤ := ⟨[0], [⟨false, []⟩], [([0], [3, -7]), ([1], [5])]⟩
    normMax Int.natAbs t = 7 ∧ normCount (fun n => n) t = 3 ∧ normSum Int.natAbs id t = 15 := by
  decide

/-! ## C50: whole-tensor element maps -/

/-- The first `n` outputs of a generator with state. -/
def outputs {S : Type} (gen : S → α × S) (s : S) : ℕ → List α
  | 0 => []
  | n + 1 => (gen s).1 :: outputs gen (gen s).2 n

/-- The state after `n` calls. -/
def stateAfter {S : Type} (gen : S → α × S) (s : S) : ℕ → S
  | 0 => s
  | n + 1 => stateAfter gen (gen s).2 n

/-- Names, edges and the list of blocks with their sizes. -/
def shape (t : Tensor ν σ α) : List ν × List (Edge σ) × List (List σ × ℕ) :=
  (t.names, t.core.edges, t.core.blocks.map fun b => (b.1, b.2.length))

theorem outputs_append {S : Type} (gen : S → α × S) (s : S) (m n : ℕ) :
    outputs gen s (m + n) = outputs gen s m ++ outputs gen (stateAfter gen s m) n := by
  induction m generalizing s with
  | zero => simp [outputs, stateAfter]
  | succ m ih =>
    rw [Nat.succ_add]
    simp [outputs, stateAfter, ih]

theorem genList_eq {S : Type} (gen : S → α × S) (l : List α) (s : S) :
    genList gen l s = (outputs gen s l.length, stateAfter gen s l.length) := by
  induction l generalizing s with
  | nil => rfl
  | cons x l ih => simp [genList, ih, outputs, stateAfter]

theorem outputs_length {S : Type} (gen : S → α × S) (s : S) (n : ℕ) :
    (outputs gen s n).length = n := by
  induction n generalizing s with
  | zero => rfl
  | succ n ih => simp [outputs, ih]

/-- C50: `map` applies the function to every element in place and keeps the shape. -/
theorem C50_map [DecidableEq ν] [TatSym σ] {β : Type} (junk : List σ → ℕ → β) (f : α → β)
    {t : Tensor ν σ α} (h : WF t) :
    ∃ t', tensorMap junk f t = .ok t' ∧ WF t' ∧ shape t' = shape t ∧
      allElems t' = (allElems t).map f ∧ ∀ p, elem t' p = (elem t p).map f := by
  refine ⟨mapTensor f t, tensorMap_eq junk f h, mapTensor_wf f h, ?_, ?_, elem_mapTensor f t⟩
  · simp [shape, mapTensor, Function.comp_def]
  · simp only [allElems, mapTensor, List.map_flatMap, List.flatMap_map]

/-- C50: `transform` likewise, in place, for any tensor; and transforming with `f` then `g` equals
transforming with `g ∘ f`. -/
theorem C50_transform (f g : α → α) (t : Tensor ν σ α) :
    shape (transform f t) = shape t ∧ allElems (transform f t) = (allElems t).map f ∧
    transform g (transform f t) = transform (g ∘ f) t := by
  refine ⟨?_, ?_, ?_⟩
  · simp [shape, transform, Function.comp_def]
  · simp only [allElems, transform, List.map_flatMap, List.flatMap_map]
  · simp [transform, Function.comp_def]

/-- C50: `set` calls the generator once per element, in block order, and keeps the shape. -/
theorem C50_set {S : Type} (gen : S → α × S) (s : S) (t : Tensor ν σ α) :
    shape (setWith gen s t) = shape t ∧
    allElems (setWith gen s t) = outputs gen s (allElems t).length := by
  have key : ∀ (bs : List (List σ × List α)) (s : S),
      ((genBlocks gen bs s).1.map fun b => (b.1, b.2.length)) =
        (bs.map fun b => (b.1, b.2.length)) ∧
      ((genBlocks gen bs s).1.flatMap fun b => b.2) =
        outputs gen s (bs.flatMap fun b => b.2).length := by
    intro bs
    induction bs with
    | nil => intro s; simp [genBlocks, outputs]
    | cons b bs ih =>
      intro s
      obtain ⟨h1, h2⟩ := ih (stateAfter gen s b.2.length)
      simp only [genBlocks, genList_eq]
      refine ⟨?_, ?_⟩
      · simp [h1, outputs_length]
      · rw [List.flatMap_cons, h2, List.flatMap_cons, List.length_append, outputs_append]
  obtain ⟨h1, h2⟩ := key t.core.blocks s
  exact ⟨by simp [shape, setWith, h1], h2⟩

/-- C50: `zero` makes every element zero, and `test` numbers the elements. -/
theorem C50_zero_test [Semiring α] (first step : α) (t : Tensor ν σ α) :
    shape (zero t) = shape t ∧ allElems (zero t) = List.replicate (allElems t).length 0 ∧
    shape (testFill first step t) = shape t ∧
    allElems (testFill first step t) =
      (List.range (allElems t).length).map fun i : ℕ => first + (i : α) * step := by
  have hz := C50_set (fun (_ : Unit) => ((0 : α), ())) () t
  have ht := C50_set (fun x => (x, x + step)) first t
  refine ⟨hz.1, ?_, ht.1, ?_⟩
  · rw [zero, hz.2]
    generalize (allElems t).length = n
    induction n with
    | zero => rfl
    | succ n ih => simp [outputs, ih, List.replicate_succ]
  · rw [testFill, ht.2]
    generalize (allElems t).length = n
    induction n generalizing first with
    | zero => rfl
    | succ n ih =>
      rw [outputs]
      rw [ih (first + step) (C50_set _ _ t), List.range_succ_eq_map]
      rw [List.map_cons, List.map_map]
      congr 1
      · simp
      · apply List.map_congr_left
        intro i _
        simp only [Function.comp_apply]
        push_cast
        rw [add_mul, one_mul, add_assoc, add_comm step]

/-- C50: conversion to another scalar type converts every element and keeps everything else. -/
theorem C50_to [TatSym σ] {β : Type} (convert : α → β) {t : Tensor ν σ α} (h : WF t) :
    convertTo convert t = mapTensor convert t ∧ WF (convertTo convert t) ∧
    shape (convertTo convert t) = shape t ∧
    ∀ p, elem (convertTo convert t) p = (elem t p).map convert := by
  have e : convertTo convert t = mapTensor convert t := by
    unfold convertTo mapTensor
    congr 2
    have hs := h.blocksSorted
    have key : ∀ (l pre : List (List σ × List α)), OMap.Sorted (pre ++ l) →
        l.foldl (fun m b => OMap.emplace m b.1 (b.2.map convert))
          (pre.map fun b => (b.1, b.2.map convert)) =
        (pre ++ l).map fun b => (b.1, b.2.map convert) := by
      intro l
      induction l with
      | nil => intro pre _; simp
      | cons b l ih =>
        intro pre hs
        have hb : ∀ x ∈ pre, x.1 < b.1 := by
          unfold OMap.Sorted at hs
          rw [List.map_append, List.pairwise_append] at hs
          intro x hx
          exact hs.2.2 x.1 (List.mem_map_of_mem hx) b.1 (by simp)
        rw [List.foldl_cons]
        have h1 : OMap.emplace (pre.map fun b => (b.1, b.2.map convert)) b.1 (b.2.map convert) =
            (pre ++ [b]).map fun b => (b.1, b.2.map convert) := by
          have hnm : b.1 ∉ OMap.keys (pre.map fun b => (b.1, b.2.map convert)) := by
            intro hmem
            simp only [OMap.keys, List.map_map, List.mem_map, Function.comp_apply] at hmem
            obtain ⟨x, hx, hxb⟩ := hmem
            exact absurd hxb (ne_of_lt (hb x hx))
          have hsp : OMap.Sorted (pre.map fun b => (b.1, b.2.map convert)) := by
            unfold OMap.Sorted at *
            rw [List.map_append, List.pairwise_append] at hs
            rw [List.map_map]; exact hs.1
          rw [OMap.emplace_eq _ hsp, if_neg hnm, OMap.set_append, List.map_append]
          · rfl
          · intro x hx
            simp only [OMap.keys, List.map_map, List.mem_map, Function.comp_apply] at hx
            obtain ⟨y, hy, rfl⟩ := hx
            exact hb y hy
        rw [h1, ih (pre ++ [b]) (by simpa using hs)]
        simp
    exact key t.core.blocks [] (by simpa using hs)
  rw [e]
  exact ⟨rfl, mapTensor_wf convert h,
    by simp [shape, mapTensor, Function.comp_def], elem_mapTensor convert t⟩

/-! ## Concrete cases -/

/-- A U1 tensor with two edges and three blocks of different sizes. -/
def sampleU1 : Tensor ℕ U1Symmetry ℤ :=
  ⟨[7, 3], [⟨false, [(⟨-1⟩, 1), (⟨0⟩, 2), (⟨1⟩, 3)]⟩, ⟨false, [(⟨-1⟩, 2), (⟨0⟩, 1), (⟨1⟩, 2)]⟩],
    [([⟨-1⟩, ⟨1⟩], [1, 2]), ([⟨0⟩, ⟨0⟩], [3, 4]), ([⟨1⟩, ⟨-1⟩], [5, 6, 7, 8, 9, 10])]⟩

theorem sampleU1_wf : WF sampleU1 := by
  refine ⟨by decide, by decide, by decide, by decide, by decide⟩

example : Covers sampleU1 [(3, (⟨-1⟩, 1)), (5, (⟨0⟩, 0)), (7, (⟨1⟩, 2))] ∧
    ValidPos sampleU1 (posOf [(3, (⟨-1⟩, 1)), (5, (⟨0⟩, 0)), (7, (⟨1⟩, 2))]) := by
  refine ⟨by unfold Covers; decide, ?_, by decide⟩
  exact .cons (by decide) (.cons (by decide) .nil)

example : constAt sampleU1 [(3, (⟨-1⟩, 1)), (7, (⟨1⟩, 2))] = .ok 10 := by decide

example : (constAt sampleU1 [(7, (⟨1⟩, 2))]).isError = true := by decide

/-- Duplicated names are refused. -/
example : (mkTensor (fun _ _ => (0 : ℤ)) [1, 1] sampleU1.core.edges).isError = true := by decide

end TAT
