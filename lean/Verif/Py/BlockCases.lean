import Verif.Py.BlockProps

/-!
# Closed cases of C79
-/

namespace TAT

/-- A block with two rows (edge 1) and three columns (edge 2). -/
def viewTable : Tensor ℕ NoSymmetry ℤ :=
  ⟨[1, 2], ⟨[⟨false, [(0, 2)]⟩, ⟨false, [(0, 3)]⟩], [([0, 0], [10, 11, 12, 20, 21, 22])]⟩⟩

theorem viewTable_wf : WF viewTable where
  rank := rfl
  nodup := by decide
  sorted := by decide
  blocks := by decide +kernel
  pruned := by decide +kernel

/-- Two blocks: even-even is 1 × 2, odd-odd is 2 × 1. -/
def viewParity : Tensor ℕ Z2Symmetry ℤ :=
  ⟨[1, 2], ⟨[⟨false, [(⟨false⟩, 1), (⟨true⟩, 2)]⟩, ⟨false, [(⟨false⟩, 2), (⟨true⟩, 1)]⟩],
    [([⟨false⟩, ⟨false⟩], [7, 8]), ([⟨true⟩, ⟨true⟩], [5, 6])]⟩⟩

theorem viewParity_wf : WF viewParity where
  rank := rfl
  nodup := by decide
  sorted := by decide
  blocks := by decide +kernel
  pruned := by decide +kernel

/-- The table with its columns first, elements of eight bytes: row 1 and column 2 hold 22. -/
example : orderedView 8 viewTable [(2, 0), (1, 0)] = .ok ⟨[0, 0], [3, 2], [8, 24]⟩ ∧
    viewRead 8 viewTable ⟨[0, 0], [3, 2], [8, 24]⟩ [2, 1] = .ok 22 ∧
    viewRead 8 viewTable ⟨[0, 0], [3, 2], [8, 24]⟩ [1, 0] = .ok 11 ∧
    viewRead 8 viewTable ⟨[0, 0], [3, 2], [8, 24]⟩ [1, 2] = .error "IndexError" := by decide +kernel

/-- The hypotheses of `C79_ordered_partial`, `C79_inside_partial` and `C79_distinct_partial`. -/
example : ([(2, (0 : NoSymmetry)), (1, 0)].map Prod.fst).Perm viewTable.names ∧
    viewTable.names.map (fun _ => (0 : NoSymmetry)) ∈ OMap.keys viewTable.core.blocks ∧
    InBox ([(2, (0 : NoSymmetry)), (1, 0)].map fun x => axisDim viewTable x.1 x.2) [2, 1] := by
  refine ⟨by decide, by decide +kernel, ?_⟩
  rw [show ([(2, (0 : NoSymmetry)), (1, 0)].map fun x => axisDim viewTable x.1 x.2) = [3, 2] by
    decide +kernel]
  simp [InBox]

/-- The theorem on the odd block of the other tensor, edges exchanged: both elements are those of
`const_at`, and writing the second changes only it. -/
example : ∃ view, orderedView 16 viewParity [(2, ⟨true⟩), (1, ⟨true⟩)] = .ok view ∧
    viewRead 16 viewParity view [0, 1] = .ok 6 ∧
    viewWrite 16 viewParity view [0, 1] 9 =
      .ok ⟨[1, 2], ⟨viewParity.core.edges,
        [([⟨false⟩, ⟨false⟩], [7, 8]), ([⟨true⟩, ⟨true⟩], [5, 9])]⟩⟩ := by
  obtain ⟨view, h1, _, h3⟩ := C79_ordered_partial viewParity_wf (size := 16) (by decide)
    (position := [(2, ⟨true⟩), (1, ⟨true⟩)]) (by decide) (f := fun _ => ⟨true⟩) (by decide)
    (by decide +kernel)
  have hv : ValidPos viewParity (posOf [(1, (⟨true⟩, 1)), (2, (⟨true⟩, 0))]) := by
    rw [validPos_axisDim viewParity_wf]
    decide +kernel
  obtain ⟨h4, h5⟩ := h3 [(1, (⟨true⟩, 1)), (2, (⟨true⟩, 0))] (by unfold Covers; decide +kernel) hv
    (by decide +kernel)
  have hi : ([(2, (⟨true⟩ : Z2Symmetry)), (1, ⟨true⟩)].map fun x =>
      (posOf [(1, ((⟨true⟩ : Z2Symmetry), 1)), (2, (⟨true⟩, 0))] x.1).2) = [0, 1] := by decide +kernel
  rw [hi] at h4 h5
  refine ⟨view, h1, h4.trans (by decide +kernel), (h5 9).trans (by decide +kernel)⟩

/-- `C79_unordered` without any name, and `C79_names_partial`. -/
example : unorderedView 8 viewTable [] = .ok ⟨[0, 0], [2, 3], [24, 8]⟩ ∧
    namesView 8 viewTable [2, 1] = .ok ⟨[0, 0], [3, 2], [8, 24]⟩ ∧
    unorderedView 8 viewParity [(1, ⟨true⟩), (2, ⟨true⟩)] = .ok ⟨[⟨true⟩, ⟨true⟩], [2, 1], [8, 8]⟩ := by
  decide +kernel

/-- `C79_missing`, `C79_no_block` and a name the tensor does not have. -/
example : unorderedView 8 viewParity [(1, ⟨true⟩)] =
      .error "Name not found in position map when finding block" ∧
    orderedView 8 viewParity [(1, ⟨true⟩), (1, ⟨true⟩)] =
      .error "Name not found in position map when finding block" ∧
    unorderedView 8 viewParity [(1, ⟨true⟩), (2, ⟨false⟩)] = .error "map::at" ∧
    namesView 8 viewTable [1, 5] = .error "map::at" := by decide +kernel

/-- `C79_short`: only one of the two edges is named. -/
example : namesView 8 viewTable [2] = .ub :=
  C79_short viewTable_wf rfl 8 (by decide) (by decide) (by decide)

/-- A name given twice: the view is made, and some of its elements lie outside the block. -/
theorem C79_repeated : ∃ (t : Tensor ℕ NoSymmetry ℤ) (view : BlockView NoSymmetry),
    WF t ∧ namesView 8 t [1, 1] = .ok view ∧ InBox view.shape [1, 1] ∧
    viewRead 8 t view [1, 1] = .ub := by
  refine ⟨viewTable, ⟨[0, 0], [2, 2], [24, 24]⟩, viewTable_wf, by decide +kernel, ?_, by decide +kernel⟩
  simp [InBox]

/-- The same with symmetry, where every edge must be named: the list is longer than the rank. -/
theorem C79_repeated_symmetry : ∃ (t : Tensor ℕ Z2Symmetry ℤ) (view : BlockView Z2Symmetry),
    WF t ∧ orderedView 8 t [(1, ⟨true⟩), (1, ⟨true⟩), (2, ⟨true⟩)] = .ok view ∧
    InBox view.shape [1, 1] ∧ viewRead 8 t view [1, 1] = .ub := by
  refine ⟨viewParity, ⟨[⟨true⟩, ⟨true⟩], [2, 2], [8, 8]⟩, viewParity_wf, by decide +kernel, ?_,
    by decide +kernel⟩
  simp [InBox]

end TAT
