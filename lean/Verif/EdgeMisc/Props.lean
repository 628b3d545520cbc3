import Verif.EdgeMisc.Reject
import Verif.Tensor.Props

/-!
# Properties of transpose, reversal and renaming (C16, C17, C18, C21, C23)
-/

set_option linter.unusedSectionVars false

namespace TAT

variable {ν σ α : Type} [LinearOrder ν] [TatSym σ]

/-- The sign of a transposition at a position: bosonic symmetries have none. -/
def transposeSign (A B : List ν) (p : ν → σ × ℕ) : ℤ :=
  if TatSym.isFermi σ then exchangeOf (oddAt p) A B else 1

/-- The sign of reversing the edges `R`: `-1` for every reversed odd edge for which the sign is
asked for. -/
def reverseSign (R : List ν) (applyParity : Bool) (exclude names : List ν) (p : ν → σ × ℕ) : ℤ :=
  if TatSym.isFermi σ then
    reverseOf (oddAt p) (fun n => decide (n ∈ R) && marked applyParity exclude n) names
  else 1

theorem isSign_transposeSign (A B : List ν) (p : ν → σ × ℕ) : IsSign (transposeSign A B p) := by
  unfold transposeSign
  split
  · exact isSign_exchangeOf _ _ _
  · exact .inl rfl

/-- A reversed edge: the arrow of a fermionic edge is flipped. -/
def flipArrow (e : Edge σ) : Edge σ := if TatSym.isFermi σ then ⟨!e.arrow, e.map⟩ else e

/-- **C16**: transposing to any order of the names succeeds; every edge keeps its content, the valid
positions stay the same, and every element is kept up to the sign of exchanging odd edges. -/
theorem C16_transpose [Neg α] [Zero α] (env : Env σ α) {t : Tensor ν σ α} (ht : WF t)
    {target : List ν} (hp : t.names.Perm target) :
    ∃ r, transpose env t target = .ok r ∧ r.names = target ∧ WF r ∧
      (∀ n ∈ target, edgeOf r n = edgeOf t n) ∧
      (∀ p, ValidPos r p ↔ ValidPos t p) ∧
      ∀ p, ValidPos t p →
        elem r p = (elem t p).map (applySign (transposeSign t.names target p)) := by
  have hpl : Plain ({ newNames := target } : EdgeArgs ν σ) := ⟨rfl, rfl, rfl, rfl⟩
  obtain ⟨r, h1, h2, h3, h4, h5⟩ := plain_spec env hpl ht hp
  have he : r.core.edges = r.names.map (edgeOf t) := by
    rw [h4, h2]
    apply List.map_congr_left
    intro n _
    unfold reversedEdge reverseOne
    simp
  refine ⟨r, h1, h2, h3, fun n hn => edgeOf_unique h3 he n (h2 ▸ hn), fun p => ?_, fun p hv => ?_⟩
  · exact validPos_of_edges ht h3 (h2 ▸ hp) he fun n _ => rfl
  · rw [h5 p hv]
    unfold transposeSign reverseOf
    simp

theorem edges_eq_of_edgeOf {t r : Tensor ν σ α} (ht : WF t) (hr : WF r) (hn : t.names = r.names)
    (h : ∀ n ∈ r.names, edgeOf r n = edgeOf t n) : t.core.edges = r.core.edges := by
  rw [edges_named ht, edges_named hr, hn]
  exact List.map_congr_left fun n hn => (h n hn).symm

theorem transposeSign_mul {A B C : List ν} (h : A.Perm B) (h' : B.Perm C) (p : ν → σ × ℕ) :
    transposeSign A B p * transposeSign B C p = transposeSign A C p := by
  unfold transposeSign
  split
  · exact exchangeOf_mul _ h h'
  · rfl

theorem transposeSign_refl (A : List ν) (p : ν → σ × ℕ) : transposeSign A A p = 1 := by
  unfold transposeSign
  split
  · exact exchangeOf_refl _ _
  · rfl

/-- **C17**: two transpositions one after the other are one transposition.  The environments (the
content of fresh memory and the platform) may differ from call to call. -/
theorem C17_transpose_transpose [InvolutiveNeg α] [Zero α] (env₁ env₂ env₃ : Env σ α)
    {t : Tensor ν σ α} (ht : WF t) {P Q : List ν} (hP : t.names.Perm P) (hQ : t.names.Perm Q) :
    ∃ r u, transpose env₁ t P = .ok r ∧ transpose env₂ r Q = .ok u ∧ transpose env₃ t Q = .ok u := by
  obtain ⟨r, r1, r2, r3, r4, r5, r6⟩ := C16_transpose env₁ ht hP
  have hPQ : r.names.Perm Q := by rw [r2]; exact hP.symm.trans hQ
  obtain ⟨u, u1, u2, u3, u4, u5, u6⟩ := C16_transpose env₂ r3 hPQ
  obtain ⟨v, v1, v2, v3, v4, v5, v6⟩ := C16_transpose env₃ ht hQ
  refine ⟨r, u, r1, u1, ?_⟩
  rw [v1]
  congr 1
  refine tensor_ext v3 u3 (v2.trans u2.symm) ?_ fun p hp => ?_
  · refine edges_eq_of_edgeOf v3 u3 (v2.trans u2.symm) fun n hn => ?_
    rw [u2] at hn
    rw [u4 n hn, v4 n hn, r4 n (hP.mem_iff.1 (hQ.mem_iff.2 hn))]
  · have hpt := (v5 p).1 hp
    have hpr := (r5 p).2 hpt
    rw [v6 p hpt, u6 p hpr, r6 p hpt, Option.map_map]
    congr 1
    funext x
    rw [Function.comp, applySign_mul (isSign_transposeSign _ _ _) (isSign_transposeSign _ _ _), r2,
      mul_comm, transposeSign_mul hP (hP.symm.trans hQ)]

/-- **C17**: transposing back restores the tensor. -/
theorem C17_transpose_back [InvolutiveNeg α] [Zero α] (env₁ env₂ : Env σ α)
    {t : Tensor ν σ α} (ht : WF t) {P : List ν} (hP : t.names.Perm P) :
    ∃ r, transpose env₁ t P = .ok r ∧ transpose env₂ r t.names = .ok t := by
  obtain ⟨r, u, h1, h2, h3⟩ := C17_transpose_transpose env₁ env₂ env₁ ht hP (List.Perm.refl t.names)
  refine ⟨r, h1, ?_⟩
  rw [h2]
  obtain ⟨v, v1, v2, v3, v4, v5, v6⟩ := C16_transpose env₁ ht (List.Perm.refl t.names)
  rw [h3] at v1
  obtain rfl := Outcome.ok.inj v1
  congr 1
  refine tensor_ext v3 ht v2 (edges_eq_of_edgeOf ht v3 v2.symm fun n hn => v4 n (v2 ▸ hn)).symm
    fun p hp => ?_
  rw [v6 p ((v5 p).1 hp), transposeSign_refl, applySign_one, Option.map_id]
  rfl

theorem reverseOf_sq (odd chosen : ν → Bool) (A : List ν) :
    reverseOf odd chosen A * reverseOf odd chosen A = 1 := by
  unfold reverseOf
  induction A with
  | nil => rfl
  | cons x A ih =>
    rw [List.map_cons, List.prod_cons, mul_mul_mul_comm, ih, mul_one]
    split <;> rfl

/-- **C18**: reversing a set of edges flips the arrows of exactly these edges (fermionic types only)
and multiplies every element by `-1` for each reversed odd edge whose sign is asked for. -/
theorem C18_reverse [Neg α] [Zero α] (env : Env σ α) {t : Tensor ν σ α} (ht : WF t)
    (R : List ν) (applyParity : Bool) (exclude : List ν) :
    ∃ r, reverseEdge env t R applyParity exclude = .ok r ∧ r.names = t.names ∧ WF r ∧
      (∀ n ∈ t.names, edgeOf r n = if n ∈ R then flipArrow (edgeOf t n) else edgeOf t n) ∧
      (∀ p, ValidPos r p ↔ ValidPos t p) ∧
      ∀ p, ValidPos t p → elem r p =
        (elem t p).map (applySign (reverseSign R applyParity exclude t.names p)) := by
  let a : EdgeArgs ν σ := { reversed := R, newNames := t.names, applyParity := applyParity, excludeReverse := exclude }
  have hpl : Plain a := ⟨rfl, rfl, rfl, rfl⟩
  obtain ⟨r, h1, h2, h3, h4, h5⟩ := plain_spec env hpl ht (List.Perm.refl t.names)
  have h2' : r.names = t.names := h2
  have he : r.core.edges = r.names.map (reversedEdge R (edgeOf t)) := by
    rw [h4, h2]
  refine ⟨r, h1, h2, h3, fun n hn => ?_, fun p => ?_, fun p hv => ?_⟩
  · rw [edgeOf_unique h3 he n (h2' ▸ hn)]
    unfold reversedEdge reverseOne flipArrow
    by_cases hf : TatSym.isFermi σ = true <;> by_cases hm : n ∈ R <;> simp [hf, hm]
  · exact validPos_of_edges ht h3 (by rw [h2']) he fun n _ => reversedEdge_map _ _ n
  · rw [h5 p hv]
    unfold reverseSign
    have : a.newNames = t.names := rfl
    rw [this, exchangeOf_refl, one_mul]

/-- **C18**: reversing twice restores the tensor. -/
theorem C18_reverse_twice [InvolutiveNeg α] [Zero α] (env₁ env₂ : Env σ α) {t : Tensor ν σ α}
    (ht : WF t) (R : List ν) (applyParity : Bool) (exclude : List ν) :
    ∃ r, reverseEdge env₁ t R applyParity exclude = .ok r ∧
      reverseEdge env₂ r R applyParity exclude = .ok t := by
  obtain ⟨r, r1, r2, r3, r4, r5, r6⟩ := C18_reverse env₁ ht R applyParity exclude
  obtain ⟨u, u1, u2, u3, u4, u5, u6⟩ := C18_reverse env₂ r3 R applyParity exclude
  refine ⟨r, r1, ?_⟩
  rw [u1]
  congr 1
  refine tensor_ext u3 ht (u2.trans r2) (edges_eq_of_edgeOf ht u3 (u2.trans r2).symm
    fun n hn => ?_).symm fun p hp => ?_
  · rw [u2] at hn
    rw [u4 n hn]
    rw [r2] at hn
    rw [r4 n hn]
    unfold flipArrow
    by_cases hm : n ∈ R <;> by_cases hf : TatSym.isFermi σ = true <;> simp [hm, hf]
  · have hpr := (u5 p).1 hp
    have hpt := (r5 p).1 hpr
    rw [u6 p hpr, r6 p hpt, Option.map_map, r2]
    have hs : reverseSign R applyParity exclude t.names p *
        reverseSign R applyParity exclude t.names p = 1 := by
      unfold reverseSign
      split
      · exact reverseOf_sq _ _ _
      · rfl
    have : (applySign (reverseSign R applyParity exclude t.names p) ∘
        applySign (reverseSign R applyParity exclude t.names p) : α → α) = id := by
      funext x
      rw [Function.comp, applySign_mul (isSign_of_sq hs) (isSign_of_sq hs), hs, applySign_one]
    rw [this, Option.map_id]
    rfl

/-- **C18**: bosonic tensors are not changed by reversing. -/
theorem C18_reverse_bosonic [Neg α] [Zero α] (env : Env σ α) {t : Tensor ν σ α} (ht : WF t)
    (hb : TatSym.isFermi σ = false) (R : List ν) (applyParity : Bool) (exclude : List ν) :
    reverseEdge env t R applyParity exclude = .ok t := by
  obtain ⟨r, r1, r2, r3, r4, r5, r6⟩ := C18_reverse env ht R applyParity exclude
  rw [r1]
  congr 1
  refine tensor_ext r3 ht r2 (edges_eq_of_edgeOf ht r3 r2.symm fun n hn => ?_).symm fun p hp => ?_
  · rw [r2] at hn
    rw [r4 n hn]
    unfold flipArrow
    simp [hb]
  · rw [r6 p ((r5 p).1 hp)]
    unfold reverseSign
    rw [hb]
    simp only [Bool.false_eq_true, if_false]
    rw [applySign_one, Option.map_id]
    rfl

/-! ## C21: wrong name lists -/

/-- **C21** (partial): transposing to a list that is not an arrangement of the names throws, unless
only the first entry is wrong (see `C21_first_name_unchecked`). -/
theorem C21_transpose_partial [Neg α] [Zero α] (env : Env σ α) {t : Tensor ν σ α} (ht : WF t)
    {target : List ν} (hp : ¬ t.names.Perm target)
    (hfirst : ¬ (t.names.length = target.length ∧ t.names.tail = target.tail)) :
    (transpose env t target).isError = true := by
  have hpl : Plain ({ newNames := target } : EdgeArgs ν σ) := ⟨rfl, rfl, rfl, rfl⟩
  unfold transpose
  apply edgeOperator_reject env ht
  · rw [hpl.opS, flatten_singletons]; exact ht.nodup
  · intro x hx; simp at hx
  · by_contra hsc
    rw [Bool.not_eq_false] at hsc
    have := (opShortcut_args hsc).1
    rw [hpl.names] at this
    exact hfirst (isSameVector_tail this)
  · rw [hpl.opS, hpl.opM, flatten_singletons, flatten_singletons]
    by_contra hno
    push Not at hno
    obtain ⟨h1, h2, h3⟩ := hno
    exact hp ((h3.subperm h2).perm_of_length_le (le_of_eq h1.symm)).symm

/-- **C21** (partial): any edge operation throws if the number of requested edges is wrong, a
requested name does not exist, or a result name occurs twice, unless the shortcut is taken. -/
theorem C21_edge_operator_partial [Neg α] [Zero α] (env : Env σ α) {t : Tensor ν σ α}
    {a : EdgeArgs ν σ} (ht : WF t) (hn : (splitGroups a.split (opNames t a)).flatten.Nodup)
    (hparts : ∀ x ∈ a.split, ∀ y ∈ x.2, OMap.Sorted y.2)
    (hsc : ¬ (a.split = [] ∧ a.reversed = [] ∧ a.merge = [] ∧ a.cut = [] ∧
      (opNames t a).length = a.newNames.length ∧ (opNames t a).tail = a.newNames.tail))
    (hbad : (mergeGroups a.merge a.newNames).flatten.length ≠
        (splitGroups a.split (opNames t a)).flatten.length ∨
      (∃ n ∈ (mergeGroups a.merge a.newNames).flatten,
        n ∉ (splitGroups a.split (opNames t a)).flatten) ∨ ¬ a.newNames.Nodup) :
    (edgeOperator env t a).isError = true := by
  refine edgeOperator_reject env ht hn hparts ?_ hbad
  by_contra h
  rw [Bool.not_eq_false] at h
  obtain ⟨h1, h2, h3, h4, h5⟩ := opShortcut_args h
  exact hsc ⟨h2, h3, h4, h5, isSameVector_tail h1⟩

/-- A fixed environment for the examples. -/
def env0 {σ : Type} : Env σ ℤ := ⟨⟨8, 32768, 1, 1⟩, fun _ _ => 0, fun _ => false⟩

/-- **C21** is false as stated: a wrong first name is accepted, whether it is unknown or equal to
another name; `is_same_vector` compares from index 1 on (edge_operator.hpp 37). -/
theorem C21_first_name_unchecked :
    WF sampleU1 ∧ sampleU1.names = [7, 3] ∧
    transpose env0 sampleU1 [9, 3] = .ok ⟨[9, 3], sampleU1.core⟩ ∧
    transpose env0 sampleU1 [3, 3] = .ok ⟨[3, 3], sampleU1.core⟩ :=
  ⟨sampleU1_wf, by decide, by decide, by decide⟩

/-- A 2×1 matrix without symmetry. -/
def sampleNo : Tensor ℕ NoSymmetry ℤ :=
  ⟨[7, 3], [⟨false, [(⟨⟩, 2)]⟩, ⟨false, [(⟨⟩, 1)]⟩], [([⟨⟩, ⟨⟩], [1, 2])]⟩

theorem sampleNo_wf : WF sampleNo := by
  refine ⟨by decide, by decide, by decide, by decide, by decide⟩

/-- **C21** is false for merging: a merge list naming edge 7 twice and edge 3 never is accepted;
the result is larger than the tensor and partly uninitialised. -/
theorem C21_merge_duplicate_unchecked :
    edgeOperator env0 sampleNo { merge := [(9, [7, 7])], newNames := [9] } =
      .ok ⟨[9], [⟨false, [(⟨⟩, 4)]⟩], [([⟨⟩], [1, 2, 0, 0])]⟩ := by
  decide

/-! ## C23: renaming -/

/-- The new name of an edge according to a table. -/
def newName (d : List (ν × ν)) (n : ν) : ν := (OMap.find? d n).getD n

theorem edgeRename_names (t : Tensor ν σ α) (d : List (ν × ν)) :
    (edgeRename t d).names = t.names.map (newName d) := by
  unfold edgeRename newName
  apply List.map_congr_left
  intro n _
  cases OMap.find? d n <;> rfl

/-- **C23**: renaming keeps the order and the content of the edges; a position under the new names
is valid iff it is valid under the old ones and holds the same element; an edge listed in the table
gets its new name, others keep theirs; if the new names are distinct the tensor is well formed. -/
theorem C23_rename {t : Tensor ν σ α} (ht : WF t) (d : List (ν × ν)) :
    (edgeRename t d).core = t.core ∧
    (edgeRename t d).names.length = t.names.length ∧
    (∀ (i : ℕ) (h : i < t.names.length), (∀ n', OMap.find? d t.names[i] = some n' →
      (edgeRename t d).names[i]? = some n') ∧
      (t.names[i] ∉ OMap.keys d → (edgeRename t d).names[i]? = some t.names[i])) ∧
    (∀ p, ValidPos (edgeRename t d) p ↔ ValidPos t fun n => p (newName d n)) ∧
    (∀ p, elem (edgeRename t d) p = elem t fun n => p (newName d n)) ∧
    ((edgeRename t d).names.Nodup → WF (edgeRename t d)) := by
  have hn := edgeRename_names t d
  refine ⟨rfl, by rw [hn, List.length_map], fun i h => ⟨fun n' hf => ?_, fun hk => ?_⟩, fun p => ?_,
    fun p => ?_, fun hnd => ?_⟩
  · rw [hn, List.getElem?_map, List.getElem?_eq_getElem h]
    simp [newName, hf]
  · rw [hn, List.getElem?_map, List.getElem?_eq_getElem h]
    simp [newName, OMap.find?_eq_none.2 hk]
  · unfold ValidPos keyOf
    rw [hn, List.map_map, List.map_map]
    rfl
  · unfold elem keyOf idxOf
    rw [hn, List.map_map, List.map_map]
    rfl
  · exact ⟨by rw [hn, List.length_map]; exact ht.rank, hnd, ht.sorted, ht.blocks, ht.pruned⟩

/-- **C23**: entries of the table for names which do not occur are ignored. -/
theorem C23_unused_entries (t : Tensor ν σ α) (d d' : List (ν × ν))
    (h : ∀ n ∈ t.names, OMap.find? d n = OMap.find? d' n) : edgeRename t d = edgeRename t d' := by
  have : (edgeRename t d).names = (edgeRename t d').names := by
    rw [edgeRename_names, edgeRename_names]
    apply List.map_congr_left
    intro n hn
    unfold newName
    rw [h n hn]
  have e : ∀ d, edgeRename t d = ⟨(edgeRename t d).names, t.core⟩ := fun _ => rfl
  rw [e d, e d', this]

/-- **C23**, changing the type of names: every name has to be in the table, otherwise an exception
is thrown. -/
theorem C23_rename_type {ν' : Type} (t : Tensor ν σ α) (d : List (ν × ν')) :
    ((∀ n ∈ t.names, n ∈ OMap.keys d) → ∃ r, edgeRenameType t d = .ok r ∧ r.core = t.core ∧
      List.Forall₂ (fun n n' => OMap.find? d n = some n') t.names r.names) ∧
    ((∃ n ∈ t.names, n ∉ OMap.keys d) → (edgeRenameType t d).isError = true) := by
  have key : ∀ names : List ν, ((∀ n ∈ names, n ∈ OMap.keys d) → ∃ r, renameNames d names = .ok r ∧
      List.Forall₂ (fun n n' => OMap.find? d n = some n') names r) ∧
      ((∃ n ∈ names, n ∉ OMap.keys d) → (renameNames d names).isError = true) := by
    intro names
    induction names with
    | nil => exact ⟨fun _ => ⟨[], rfl, .nil⟩, fun ⟨n, hn, _⟩ => by simp at hn⟩
    | cons n ns ih =>
      rw [renameNames]
      constructor
      · intro h
        obtain ⟨n', hn'⟩ := Option.isSome_iff_exists.1 (OMap.find?_isSome.2 (h n (by simp)))
        obtain ⟨r, hr, hf⟩ := ih.1 fun x hx => h x (by simp [hx])
        rw [hn', hr]
        exact ⟨n' :: r, rfl, .cons hn' hf⟩
      · rintro ⟨x, hx, hxk⟩
        cases hf : OMap.find? d n with
        | none => rfl
        | some n' =>
          have hne : x ≠ n := by
            rintro rfl
            rw [OMap.find?_eq_none.2 hxk] at hf
            simp at hf
          have := ih.2 ⟨x, by simpa [hne] using hx, hxk⟩
          exact isError_bind _ this
  unfold edgeRenameType
  refine ⟨fun h => ?_, fun h => isError_bind _ ((key t.names).2 h)⟩
  obtain ⟨r, hr, hf⟩ := (key t.names).1 h
  rw [hr]
  exact ⟨_, rfl, rfl, hf⟩

/-! ## examples -/

/-- A fermionic tensor with three edges and four blocks. -/
def sampleFermi : Tensor ℕ FermiSymmetry ℤ :=
  ⟨[0, 1, 2],
    [⟨false, [(⟨0⟩, 1), (⟨1⟩, 1)]⟩, ⟨true, [(⟨-1⟩, 1), (⟨0⟩, 1)]⟩,
      ⟨false, [(⟨-1⟩, 1), (⟨0⟩, 1), (⟨1⟩, 2)]⟩],
    [([⟨0⟩, ⟨-1⟩, ⟨1⟩], [1, 2]), ([⟨0⟩, ⟨0⟩, ⟨0⟩], [3]), ([⟨1⟩, ⟨-1⟩, ⟨0⟩], [4]),
      ([⟨1⟩, ⟨0⟩, ⟨-1⟩], [5])]⟩

theorem sampleFermi_wf : WF sampleFermi := by
  refine ⟨by decide, by decide, by decide, by decide, by decide⟩

/-- Transposing exchanges odd edges with a sign. -/
example : transpose env0 sampleFermi [1, 0, 2] = .ok
    ⟨[1, 0, 2],
      [⟨true, [(⟨-1⟩, 1), (⟨0⟩, 1)]⟩, ⟨false, [(⟨0⟩, 1), (⟨1⟩, 1)]⟩,
        ⟨false, [(⟨-1⟩, 1), (⟨0⟩, 1), (⟨1⟩, 2)]⟩],
      [([⟨-1⟩, ⟨0⟩, ⟨1⟩], [1, 2]), ([⟨-1⟩, ⟨1⟩, ⟨0⟩], [-4]), ([⟨0⟩, ⟨0⟩, ⟨0⟩], [3]),
        ([⟨0⟩, ⟨1⟩, ⟨-1⟩], [5])]⟩ := by decide +kernel

/-- Reversing edge 0 with signs. -/
example : reverseEdge env0 sampleFermi [0] true = .ok
    ⟨[0, 1, 2],
      [⟨true, [(⟨0⟩, 1), (⟨1⟩, 1)]⟩, ⟨true, [(⟨-1⟩, 1), (⟨0⟩, 1)]⟩,
        ⟨false, [(⟨-1⟩, 1), (⟨0⟩, 1), (⟨1⟩, 2)]⟩],
      [([⟨0⟩, ⟨-1⟩, ⟨1⟩], [1, 2]), ([⟨0⟩, ⟨0⟩, ⟨0⟩], [3]), ([⟨1⟩, ⟨-1⟩, ⟨0⟩], [-4]),
        ([⟨1⟩, ⟨0⟩, ⟨-1⟩], [-5])]⟩ := by decide +kernel

example : sampleFermi.names.Perm [1, 0, 2] := by decide

/-- A wrong list that is refused. -/
example : ¬ sampleFermi.names.Perm [0, 1, 1] ∧ ¬ (sampleFermi.names.length = [0, 1, 1].length ∧
    sampleFermi.names.tail = [0, 1, 1].tail) := by decide

example : (transpose env0 sampleFermi [0, 1, 1]).isError = true := by
  decide +kernel

example : (edgeRename sampleFermi [(1, 5), (8, 9)]).names = [0, 5, 2] := by decide

end TAT
