import Verif.EdgeOp.View
import Verif.Symmetry.Props
import Mathlib.Algebra.BigOperators.Group.Finset.Basic
import Mathlib.Data.Finset.Prod

/-!
# Fermionic signs by name

The signs of edge operations as products over names, and the proof that the parities computed by
`edge_operator` are these signs.
-/

set_option linter.unusedSectionVars false

namespace TAT

variable {ν σ α : Type}

section spec
variable [LinearOrder ν] [TatSym σ]

/-- Whether the position carries an odd number of fermions on the edge `n`. -/
def oddAt (p : ν → σ × ℕ) (n : ν) : Bool := oddInt (TatSym.fermi (p n).1)

/-- Sign of bringing the edges from order `A` into order `B`: `-1` for every pair of odd edges whose
order changes. -/
def exchangeOf (odd : ν → Bool) (A B : List ν) : ℤ :=
  ∏ x ∈ A.toFinset, ∏ y ∈ A.toFinset,
    if A.idxOf x < A.idxOf y ∧ B.idxOf y < B.idxOf x ∧ odd x = true ∧ odd y = true then -1 else 1

/-- `-1` for every odd edge among the chosen ones. -/
def reverseOf (odd chosen : ν → Bool) (A : List ν) : ℤ :=
  (A.map fun n => if chosen n = true ∧ odd n = true then -1 else 1).prod

/-- The sign of reversing the order of the edges inside each marked group. -/
def groupsOf (odd : ν → Bool) (groups : List (List ν)) (mark : List Bool) : ℤ :=
  (List.zipWith (fun g m => if m = true then reversalSign (g.map odd) else 1) groups mark).prod

/-- The sign of a call with the exclusion sets: an operation on `n` gives a sign if `apply_parity`
is set and `n` is not excluded, or it is not set and `n` is excluded. -/
def marked [DecidableEq ν] (apply : Bool) (exclude : List ν) (n : ν) : Bool :=
  if apply then !decide (n ∈ exclude) else decide (n ∈ exclude)

/-- The edge `n` of a merge group `g` has to be reversed to fit the arrow of the group. -/
def flipped (e : ν → Edge σ) (g : List ν) (n : ν) : Bool :=
  arrowValid (e n) && decide (firstArrow (g.map e) ≠ some (e n).arrow)

end spec

section lemmas
variable [LinearOrder ν] [TatSym σ]

theorem prod_toFinset_range {A : List ν} (hA : A.Nodup) (f : ν → ℤ) (d : ν) :
    ∏ x ∈ A.toFinset, f x = ∏ i ∈ Finset.range A.length, f (A.getD i d) := by
  rw [List.prod_toFinset f hA, ← prod_map_range]
  congr 1
  apply List.ext_getElem
  · simp
  · intro i h1 h2
    have hi : i < A.length := by simpa using h1
    rw [List.getElem_map, List.getElem_map, List.getElem_range, List.getD_eq_getElem _ _ hi]

theorem sgn_transpose {A : List ν} (hA : A.Nodup) (B : List ν) (p : ν → σ × ℕ) :
    sgn (getTransposeParity ((keyOf A p).map TatSym.fermi) (A.map fun n => B.idxOf n)) =
      exchangeOf (oddAt p) A B := by
  cases A with
  | nil => simp [exchangeOf, getTransposeParity, keyOf]
  | cons a0 A' =>
  generalize hAA : a0 :: A' = A at *
  rw [sgn_getTransposeParity]
  unfold exchangeOf
  rw [prod_toFinset_range hA _ a0]
  have hl : ((keyOf A p).map TatSym.fermi).length = A.length := by simp [keyOf]
  rw [hl]
  apply Finset.prod_congr rfl
  intro i hi
  rw [Finset.mem_range] at hi
  rw [prod_toFinset_range hA _ a0]
  rw [Finset.range_eq_Ico, ← Finset.prod_Ico_consecutive _ (Nat.zero_le (i + 1)) (by omega :
    i + 1 ≤ A.length)]
  have h1 : ∏ j ∈ Finset.Ico 0 (i + 1), (if A.idxOf (A.getD i a0) < A.idxOf (A.getD j a0) ∧
      B.idxOf (A.getD j a0) < B.idxOf (A.getD i a0) ∧ oddAt p (A.getD i a0) = true ∧
      oddAt p (A.getD j a0) = true then (-1 : ℤ) else 1) = 1 := by
    apply Finset.prod_eq_one
    intro j hj
    rw [Finset.mem_Ico] at hj
    have hj' : j < A.length := by omega
    rw [if_neg]
    rintro ⟨hlt, _⟩
    rw [List.getD_eq_getElem _ _ hi, List.getD_eq_getElem _ _ hj', hA.idxOf_getElem,
      hA.idxOf_getElem] at hlt
    omega
  rw [h1, one_mul]
  apply Finset.prod_congr rfl
  intro j hj
  rw [Finset.mem_Ico] at hj
  have hj' : j < A.length := by omega
  simp only [List.getD_eq_getElem _ _ hi, List.getD_eq_getElem _ _ hj']
  rw [hA.idxOf_getElem, hA.idxOf_getElem]
  rw [List.getD_eq_getElem _ _ (by simpa using hi), List.getD_eq_getElem _ _ (by simpa using hj'),
    List.getD_eq_getElem _ _ (by rw [hl]; exact hi), List.getD_eq_getElem _ _ (by rw [hl]; exact hj')]
  simp only [List.getElem_map, keyOf]
  change sgn (_ && (oddAt p A[i] && oddAt p A[j])) = _
  have hij : i < j := by omega
  by_cases hb : B.idxOf A[j] < B.idxOf A[i]
  · cases h2 : oddAt p A[i] <;> cases h3 : oddAt p A[j] <;> simp [hb, hij]
  · simp [hb]

theorem getD_map_lt {β : Type} (f : ν → β) (d : β) {A : List ν} {i : ℕ} (hi : i < A.length) :
    (A.map f).getD i d = f A[i] := by
  rw [List.getD_eq_getElem _ _ (by simpa using hi), List.getElem_map]

theorem sgn_reverse (A : List ν) (p : ν → σ × ℕ) (f m : ν → Bool) :
    sgn (getReverseParity ((keyOf A p).map TatSym.fermi) (A.map f) (A.map m)) =
      reverseOf (oddAt p) (fun n => f n && m n) A := by
  rw [sgn_getReverseParity, ← prod_map_range]
  unfold reverseOf
  congr 1
  apply List.ext_getElem
  · simp [keyOf]
  · intro i h1 h2
    have hi : i < A.length := by simpa using h2
    rw [List.getElem_map, List.getElem_range, List.getElem_map, getD_map_lt _ _ hi,
      getD_map_lt _ _ hi]
    have : ((keyOf A p).map TatSym.fermi).getD i 0 = TatSym.fermi (p A[i]).1 := by
      rw [List.getD_eq_getElem _ _ (by simpa [keyOf] using hi)]
      simp [keyOf]
    rw [this]
    change sgn (_ && oddAt p A[i]) = _
    have hb : ∀ x y z : Bool, sgn (x && y && z) =
        if (x && y) = true ∧ z = true then (-1 : ℤ) else 1 := by decide
    exact hb _ _ _

theorem markedSign_names (groups : List (List ν)) (mark : List Bool) (p : ν → σ × ℕ) :
    markedSign (groups.map fun g => (keyOf g p).map TatSym.fermi) mark =
      groupsOf (oddAt p) groups mark := by
  induction groups generalizing mark with
  | nil => simp [markedSign, groupsOf]
  | cons g gs ih =>
    cases mark with
    | nil => simp [markedSign, groupsOf]
    | cons m ms =>
      rw [List.map_cons, markedSign, ih]
      unfold groupsOf
      rw [List.zipWith_cons_cons, List.prod_cons]
      congr 2
      unfold keyOf
      rw [List.map_map, List.map_map]
      rfl

theorem sgn_groups (groups : List (List ν)) (mark : List Bool) (p : ν → σ × ℕ)
    (h : mark.length = groups.length) :
    sgn (getSplitMergeParity ((keyOf groups.flatten p).map TatSym.fermi) (flagsOf groups) mark) =
      groupsOf (oddAt p) groups mark := by
  rw [← markedSign_names]
  have e1 : (keyOf groups.flatten p).map TatSym.fermi =
      (groups.map fun g => (keyOf g p).map TatSym.fermi).flatten := by
    unfold keyOf
    rw [List.map_flatten, List.map_flatten, List.map_map]
    rfl
  have e2 : flagsOf groups = flagsOf (groups.map fun g => (keyOf g p).map TatSym.fermi) := by
    have : (fun g : List ν => (keyOf g p).map TatSym.fermi) =
        List.map (fun n => TatSym.fermi (p n).1) := by
      funext g; simp [keyOf]
    rw [this, flagsOf_map]
  rw [e1, e2]
  exact sgn_getSplitMergeParity _ _ (by simpa using h)

theorem exchangeOf_sq (odd : ν → Bool) (A B : List ν) :
    exchangeOf odd A B * exchangeOf odd A B = 1 := by
  unfold exchangeOf
  rw [← Finset.prod_mul_distrib]
  apply Finset.prod_eq_one
  intro x _
  rw [← Finset.prod_mul_distrib]
  apply Finset.prod_eq_one
  intro y _
  split <;> simp

/-- Reordering in two steps gives the sign of reordering in one step. -/
theorem exchangeOf_mul (odd : ν → Bool) {A B C : List ν} (hAB : A.Perm B) (hBC : B.Perm C) :
    exchangeOf odd A B * exchangeOf odd B C = exchangeOf odd A C := by
  have hs : B.toFinset = A.toFinset := by
    ext x; simp [hAB.mem_iff]
  have key : exchangeOf odd A B * exchangeOf odd B C * exchangeOf odd A C = 1 := by
    unfold exchangeOf
    rw [hs, ← Finset.prod_product', ← Finset.prod_product', ← Finset.prod_product',
      ← Finset.prod_mul_distrib, ← Finset.prod_mul_distrib]
    refine Finset.prod_involution (fun z _ => (z.2, z.1)) ?_ ?_ ?_ ?_
    · rintro ⟨x, y⟩ hz
      rw [Finset.mem_product] at hz
      simp only [List.mem_toFinset] at hz
      have inj : ∀ {l : List ν}, x ∈ l → l.idxOf x = l.idxOf y → x = y := by
        intro l hx h
        by_cases hy : y ∈ l
        · exact (List.idxOf_inj hx).1 h
        · have := List.idxOf_lt_length_iff.2 hx
          rw [h, List.idxOf_eq_length_iff.2 hy] at this
          omega
      by_cases hxy : x = y
      · subst hxy; simp
      · have a1 : A.idxOf x ≠ A.idxOf y := fun h => hxy (inj hz.1 h)
        have a2 : B.idxOf x ≠ B.idxOf y := fun h => hxy (inj (hAB.mem_iff.1 hz.1) h)
        have a3 : C.idxOf x ≠ C.idxOf y := fun h => hxy (inj (hBC.mem_iff.1 (hAB.mem_iff.1 hz.1)) h)
        dsimp only
        cases odd x <;> cases odd y <;> simp only [Bool.false_eq_true, and_false,
          if_false, mul_one, and_self, and_true]
        rcases lt_or_gt_of_ne a1 with b1 | b1 <;> rcases lt_or_gt_of_ne a2 with b2 | b2 <;>
          rcases lt_or_gt_of_ne a3 with b3 | b3 <;>
          simp [b1, b2, b3, not_lt_of_gt b1, not_lt_of_gt b2, not_lt_of_gt b3]
    · rintro ⟨x, y⟩ _ hne heq
      apply hne
      simp only [Prod.mk.injEq] at heq
      rw [heq.1]
      simp
    · rintro ⟨x, y⟩ hz
      rw [Finset.mem_product] at *
      exact ⟨hz.2, hz.1⟩
    · rintro ⟨x, y⟩ _; rfl
  have h2 := exchangeOf_sq odd A C
  calc exchangeOf odd A B * exchangeOf odd B C
      = exchangeOf odd A B * exchangeOf odd B C * (exchangeOf odd A C * exchangeOf odd A C) := by
        rw [h2, mul_one]
    _ = exchangeOf odd A B * exchangeOf odd B C * exchangeOf odd A C * exchangeOf odd A C := by ring
    _ = exchangeOf odd A C := by rw [key, one_mul]

theorem exchangeOf_refl (odd : ν → Bool) (A : List ν) : exchangeOf odd A A = 1 := by
  unfold exchangeOf
  apply Finset.prod_eq_one
  intro x _
  apply Finset.prod_eq_one
  intro y _
  rw [if_neg]
  rintro ⟨h1, h2, _⟩
  omega

theorem reverseOf_false (odd : ν → Bool) (A : List ν) : reverseOf odd (fun _ => false) A = 1 := by
  unfold reverseOf
  apply List.prod_eq_one
  simp

theorem groupsOf_short (odd : ν → Bool) (groups : List (List ν)) (mark : List Bool)
    (h : ∀ g ∈ groups, g.length ≤ 1) : groupsOf odd groups mark = 1 := by
  unfold groupsOf
  apply List.prod_eq_one
  intro x hx
  obtain ⟨i, hi, rfl⟩ := List.mem_iff_getElem.1 hx
  rw [List.getElem_zipWith]
  have hlt : i < groups.length := by simp at hi; omega
  have := h _ (List.getElem_mem hlt)
  split
  · match groups[i]'hlt, this with
    | [], _ => rfl
    | [n], _ => simp [reversalSign]
    | _ :: _ :: _, h => simp at h
  · rfl

/-- All signs of one operation. -/
def opSign (t : Tensor ν σ α) (a : EdgeArgs ν σ) (p : ν → σ × ℕ) : ℤ :=
  if TatSym.isFermi σ then
    exchangeOf (oddAt p) (opS t a).flatten (opM a).flatten *
    reverseOf (oddAt p) (fun n => decide (n ∈ a.reversed) &&
      marked a.applyParity a.excludeReverse n) (opS t a).flatten *
    groupsOf (oddAt p) (opS t a) ((opNames t a).map (marked a.applyParity a.excludeSplit)) *
    ((opM a).map fun g => reverseOf (oddAt p) (fun n => flipped (opReversed t a) g n &&
      marked a.applyParity a.excludeReverseMerge n) g).prod *
    groupsOf (oddAt p) (opM a) (a.newNames.map (marked a.applyParity a.excludeMerge))
  else 1

theorem sgn_flips (groups : List (List ν)) (p : ν → σ × ℕ) (f : List ν → ν → Bool) (m : ν → Bool) :
    sgn (getReverseParity ((keyOf groups.flatten p).map TatSym.fermi)
      (groups.flatMap fun g => g.map (f g)) (groups.flatten.map m)) =
    (groups.map fun g => reverseOf (oddAt p) (fun n => f g n && m n) g).prod := by
  have key : ∀ (A B : List ν) (F G : List Bool), F.length = A.length →
      sgn (getReverseParity ((keyOf (A ++ B) p).map TatSym.fermi) (F ++ G) ((A ++ B).map m)) =
      sgn (getReverseParity ((keyOf A p).map TatSym.fermi) F (A.map m)) *
      sgn (getReverseParity ((keyOf B p).map TatSym.fermi) G (B.map m)) := by
    intro A B F G hF
    rw [sgn_getReverseParity, sgn_getReverseParity, sgn_getReverseParity]
    have hl : ((keyOf (A ++ B) p).map TatSym.fermi).length = A.length + B.length := by simp [keyOf]
    have hlA : ((keyOf A p).map TatSym.fermi).length = A.length := by simp [keyOf]
    have hlB : ((keyOf B p).map TatSym.fermi).length = B.length := by simp [keyOf]
    rw [hl, hlA, hlB, Finset.prod_range_add]
    have hk : (keyOf (A ++ B) p).map TatSym.fermi =
        (keyOf A p).map TatSym.fermi ++ (keyOf B p).map TatSym.fermi := by simp [keyOf]
    rw [hk, List.map_append]
    congr 1
    · apply Finset.prod_congr rfl
      intro i hi
      rw [Finset.mem_range] at hi
      rw [List.getD_append _ _ _ _ (by omega), List.getD_append _ _ _ _ (by simpa using hi),
        List.getD_append _ _ _ _ (by omega)]
    · apply Finset.prod_congr rfl
      intro i hi
      rw [List.getD_append_right _ _ _ _ (by omega), List.getD_append_right _ _ _ _ (by simp),
        List.getD_append_right _ _ _ _ (by omega), hF, hlA, List.length_map, Nat.add_sub_cancel_left]
  induction groups with
  | nil => simp [getReverseParity, keyOf]
  | cons g gs ih =>
    rw [List.flatten_cons, List.flatMap_cons, key _ _ _ _ (by simp), ih, List.map_cons,
      List.prod_cons, sgn_reverse]

theorem marks_eq (apply : Bool) (exclude names : List ν) :
    marks apply exclude names = names.map (marked apply exclude) := rfl

theorem opParity_sign {t : Tensor ν σ α} {a : EdgeArgs ν σ} (h : OpOk t a) (p : ν → σ × ℕ) :
    sgn (opParity t a p) = opSign t a p := by
  unfold opParity opSign
  by_cases hf : TatSym.isFermi σ = true
  · rw [if_pos hf, if_pos hf]
    dsimp only
    rw [sgn_xor, sgn_xor, sgn_xor, sgn_xor, marks_eq, marks_eq, marks_eq, marks_eq,
      sgn_transpose h.nodup, sgn_groups _ _ _ (by simp [opS, splitGroups]),
      sgn_groups _ _ _ (by simp [opM, mergeGroups]), reverseFlags, sgn_reverse]
    have : (fun g : List ν => groupFlags (g.map (opReversed t a))) =
        fun g => g.map (flipped (opReversed t a) g) := by
      funext g
      unfold groupFlags flipFlags
      rw [if_pos hf, List.map_map]
      rfl
    rw [this, sgn_flips]
  · rw [if_neg hf, if_neg hf]; rfl

/-- Multiply by a sign. -/
def applySign [Neg α] (s : ℤ) (x : α) : α := if s = -1 then -x else x

theorem signed_eq [Neg α] (b : Bool) : (signed b : α → α) = applySign (sgn b) := by
  funext x
  cases b <;> simp [signed, applySign]

theorem applySign_one [Neg α] : (applySign 1 : α → α) = id := by
  funext x
  simp [applySign]

/-- A sign: `1` or `-1`. -/
def IsSign (s : ℤ) : Prop := s = 1 ∨ s = -1

theorem applySign_mul [InvolutiveNeg α] {s s' : ℤ} (h : IsSign s) (h' : IsSign s') (x : α) :
    applySign s (applySign s' x) = applySign (s * s') x := by
  rcases h with rfl | rfl <;> rcases h' with rfl | rfl <;> simp [applySign]

theorem isSign_sgn (b : Bool) : IsSign (sgn b) := by cases b <;> simp [IsSign]

theorem isSign_opSign {t : Tensor ν σ α} {a : EdgeArgs ν σ} (h : OpOk t a) (p : ν → σ × ℕ) :
    IsSign (opSign t a p) := by
  rw [← opParity_sign h]; exact isSign_sgn _

theorem IsSign.mul {s s' : ℤ} (h : IsSign s) (h' : IsSign s') : IsSign (s * s') := by
  rcases h with rfl | rfl <;> rcases h' with rfl | rfl <;> simp [IsSign]

theorem isSign_of_sq {s : ℤ} (h : s * s = 1) : IsSign s := by
  have : (s - 1) * (s + 1) = 0 := by linear_combination h
  rcases mul_eq_zero.1 this with h | h
  · left; omega
  · right; omega

theorem isSign_exchangeOf (odd : ν → Bool) (A B : List ν) : IsSign (exchangeOf odd A B) :=
  isSign_of_sq (exchangeOf_sq odd A B)

end lemmas

/-! ## the main theorem in its final form -/

section final
variable [LinearOrder ν] [TatSym σ] {t : Tensor ν σ α} {a : EdgeArgs ν σ}

theorem flipped_single (e : ν → Edge σ) (n : ν) : flipped e [n] n = false := by
  unfold flipped firstArrow
  by_cases hv : arrowValid (e n) <;> simp [hv]

/-- What `edge_operator` computes. -/
theorem edgeOperator_spec [Neg α] [Zero α] (env : Env σ α) (h : OpOk t a) :
    ∃ r, edgeOperator env t a = .ok r ∧ r.names = a.newNames ∧ WF r ∧
      r.core.edges = prunedEdges (opEdges env.garbage t a) ∧
      (∀ q, FineOk (opMap t a) (opS t a).flatten q → opIn t a q →
        elemAt r.core (coarseKey (opM a) q) (coarseIdx (opMap t a) (opM a) q) =
          (elemAt t.core (coarseKey (opS t a) q) (coarseIdx (opMap t a) (opS t a) q)).map
            (applySign (opSign t a q))) ∧
      (∀ q, FineOk (opMap t a) (opS t a).flatten q → ¬ opIn t a q → TatSym.isNoSym σ = false →
        elemAt r.core (coarseKey (opM a) q) (coarseIdx (opMap t a) (opM a) q) = some 0) := by
  by_cases hsc : opShortcut t a = true
  · have hn := h.shortcut hsc
    obtain ⟨_, h2, h3, h4, h5⟩ := opShortcut_args hsc
    have hS := opS_noSplit (t := t) h2
    have hM := opM_noMerge h4
    have hcut : opCut t a = t.core.edges := by unfold opCut edgeBeforeSplit; rw [h5]; rfl
    have hfine := h.fine_noSplit h2
    rw [hcut] at hfine
    have hSM : opS t a = opM a := by rw [hS, hM, hn]
    refine ⟨⟨a.newNames, t.core⟩, ?_, rfl, ?_, ?_, ?_, ?_⟩
    · unfold edgeOperator
      have hn1 : nameBeforeSplit a.rename t.names = opNames t a := nameBeforeSplit_eq _ _
      dsimp only
      rw [hn1, if_pos]
      exact hsc
    · refine ⟨?_, h.newNodup, h.wf.sorted, h.wf.blocks, h.pruned h4⟩
      change a.newNames.length = _
      rw [← hn, opNames_length, h.wf.rank]
    · have hE : opEdges env.garbage t a = t.core.edges := by
        rw [← hfine, hn]
        unfold opEdges
        rw [hM]
        apply List.ext_getElem
        · simp
        · intro i h1 h2
          simp only [List.getElem_map, List.getElem_zipIdx, List.map_singleton, groupEdge]
          unfold opReversed reversedEdge reverseOne
          simp [h3]
      change t.core.edges = _
      rw [hE, h.pruned h4]
    · intro q hq _
      have hone : opSign t a q = 1 := by
        unfold opSign
        split
        · rw [hSM, exchangeOf_refl, groupsOf_short _ _ _ (by rw [hM]; simp),
            groupsOf_short _ _ _ (by rw [hM]; simp), h3]
          simp only [List.not_mem_nil, decide_false, Bool.false_and, reverseOf_false, one_mul,
            mul_one]
          apply List.prod_eq_one
          intro x hx
          rw [hM, List.map_map] at hx
          obtain ⟨n, _, rfl⟩ := List.mem_map.1 hx
          simp [reverseOf, flipped_single]
        · rfl
      rw [hone, applySign_one, Option.map_id, hSM]
      try rfl
    · intro q hq hno
      exact absurd (h.in_noSplit h2 hq.keyOk) hno
  · obtain ⟨r, h1, h2, h3, h4, h5, h6⟩ := edgeOperator_main env h (by simpa using hsc)
    refine ⟨r, h1, h2, h3, h4, fun q hq hin => ?_, h6⟩
    rw [← opParity_sign h, ← signed_eq]
    exact h5 q hq hin

end final

end TAT
