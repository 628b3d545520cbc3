import Verif.Contract.Model
import Verif.TensorMisc.Model

/-!
# Model of `include/TAT/shrink_and_expand.hpp`

`InternalName::No_Old_Name` and `No_New_Name` are `none`.  `std::map` arguments are lists in order of
iteration with distinct names.  For tensors without symmetry the position of the code is only the
index, here it carries the only symmetry along; the arrow is only read for fermionic types.
-/

namespace TAT

variable {ν σ α : Type}

/-- shrink_and_expand.hpp 90-93, 149-152: the helper tensor, zero except for a one in its first
block. -/
def unitTensor [Zero α] [One α] [LinearOrder ν] [TatSym σ] (junk : List σ → ℕ → α) (names : List ν)
    (edges : List (Edge σ)) (offset : ℕ) : Outcome (Tensor ν σ α) :=
  (mkTensor junk names edges).bind fun h =>
  match (zero h).core.blocks with
  | [] => .ub
  | b :: rest =>
    if offset < b.2.length then .ok ⟨h.names, ⟨h.core.edges, (b.1, b.2.set offset 1) :: rest⟩⟩
    else .ub

/-- One edge of the helper tensor: name, arrow, symmetry, index and dimension. -/
structure Slot (ν σ : Type) where
  name : ν
  arrow : Bool
  sym : σ
  index : ℕ
  dim : ℕ
deriving DecidableEq, Repr

/-- The edge of a slot. -/
def Slot.edge [TatSym σ] (s : Slot ν σ) : Edge σ := ⟨TatSym.isFermi σ && s.arrow, [(s.sym, s.dim)]⟩

/-- shrink_and_expand.hpp 45-65, 125-127: `total_offset`. -/
def slotOffset (l : List (Slot ν σ)) : ℕ := l.foldl (fun o s => o * s.dim + s.index) 0

/-- shrink_and_expand.hpp 112-135: one edge of the tensor.  The slot has the opposite symmetry and
arrow. -/
def shrinkSlot [LinearOrder ν] [TatSym σ] (configure : List (ν × (σ × ℕ))) (n : ν) (e : Edge σ) :
    Outcome (Option (Slot ν σ)) :=
  match configure.find? fun c => decide (c.1 = n) with
  | none => .ok none
  | some c =>
    match OMap.find? e.map c.2.1 with
    | none => .error "map::at"
    | some d => .ok (some ⟨n, !e.arrow, -c.2.1, c.2.2, d⟩)

/-- shrink_and_expand.hpp 111-136: the loop over the edges of the tensor. -/
def shrinkSlots [LinearOrder ν] [TatSym σ] (configure : List (ν × (σ × ℕ))) :
    List (ν × Edge σ) → Outcome (List (Slot ν σ))
  | [] => .ok []
  | x :: rest =>
    (shrinkSlot configure x.1 x.2).bind fun s =>
    (shrinkSlots configure rest).bind fun l =>
    .ok (match s with
      | some s => s :: l
      | none => l)

/-- shrink_and_expand.hpp 110, 122: `total_symmetry`. -/
def totalSymmetry [TatSym σ] (l : List (Slot ν σ)) : σ := l.foldl (fun a s => a + -s.sym) 0

/-- shrink_and_expand.hpp 97-153 `shrink`; `junk` belongs to the helper tensor, `ce` to the
contraction. -/
def shrink [Zero α] [One α] [Neg α] [LinearOrder ν] [TatSym σ] (ce : ContractEnv σ α)
    (junk : List σ → ℕ → α) (cn : ContractNames ν) (t : Tensor ν σ α)
    (configure : List (ν × (σ × ℕ))) (newName : Option ν) (arrow : Bool) :
    Outcome (Tensor ν σ α) :=
  (shrinkSlots configure (t.names.zip t.core.edges)).bind fun l =>
  match newName with
  | some n =>
    let l' := l ++ [⟨n, arrow, totalSymmetry l, 0, 1⟩]
    (unitTensor junk (l'.map Slot.name) (l'.map Slot.edge) (slotOffset l)).bind fun h =>
    contractAllEdge ce cn h t
  | none =>
    if !TatSym.isNoSym σ && decide (totalSymmetry l ≠ 0) then
      .error "Need to Create a New Edge but Name not set in Slice"
    else
      (unitTensor junk (l.map Slot.name) (l.map Slot.edge) (slotOffset l)).bind fun h =>
      contractAllEdge ce cn h t

/-- shrink_and_expand.hpp 27-94 `expand`.  `total_symmetry` is never changed from `Symmetry()`, so
the test in line 85 never fails. -/
def expand [Zero α] [One α] [Neg α] [LinearOrder ν] [TatSym σ] (ce : ContractEnv σ α)
    (junk : List σ → ℕ → α) (cn : ContractNames ν) (t : Tensor ν σ α)
    (configure : List (Slot ν σ)) (oldName : Option ν) : Outcome (Tensor ν σ α) :=
  match oldName with
  | some n =>
    (edgeAt t n).bind fun e =>
    match e.map with
    | [(s, 1)] =>
      if !TatSym.isNoSym σ && decide (s ≠ 0) then
        .error "Cannot Expand to such Edges whose total Symmetry is not Compatible with origin Edge"
      else
        let l' := configure ++ [⟨n, !e.arrow, -0, 0, 1⟩]
        (unitTensor junk (l'.map Slot.name) (l'.map Slot.edge) (slotOffset configure)).bind fun h =>
        contractAllEdge ce cn h t
    | _ => .error "Cannot Expand a Edge which dimension is not one"
  | none =>
    (unitTensor junk (configure.map Slot.name) (configure.map Slot.edge)
      (slotOffset configure)).bind fun h =>
    contractAllEdge ce cn h t

end TAT
