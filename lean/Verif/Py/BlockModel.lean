import Verif.Tensor.Model

/-!
# Model of the block views of the Python binding

`PyTAT/PyTAT.cpp` 98-143 and 158-259: `tensor.block[position]` is a view on the data of one block.  The
view has no data of its own: it has the address of the block, its dimensions and, for every axis, the
distance in bytes of two neighbours (`py::buffer_info`).  numpy reads and writes through it.

`sizeof(ScalarType)` is the parameter `size`.  A view is taken and used on the same tensor value here; a
view that is kept while the program goes on is the subject of `Verif/Py/ViewModel.lean`.
Sizes are natural numbers.  When numpy is missing the code hands out the same buffer as a plain buffer
object.
-/

namespace TAT

variable {ν σ α : Type}

/-- `py::buffer_info` as filled in PyTAT.cpp 215-216 and 252-258: which block, the dimensions, and the
distances in bytes. -/
structure BlockView (σ : Type) where
  key : List σ
  shape : List ℕ
  strides : List ℕ
deriving DecidableEq, Repr

/-- get_item.hpp 107-121 `block(position)`: the block it refers to.  Without symmetry it is the first
block whatever the position says, and undefined if there is none. -/
def blockKey [LinearOrder ν] [TatSym σ] (t : Tensor ν σ α) (position : List (ν × σ)) :
    Outcome (List σ) :=
  if TatSym.isNoSym σ then
    match t.core.blocks with
    | [] => .ub
    | b :: _ => .ok b.1
  else
    (getBlock position t.names).bind fun key =>
    match OMap.find? t.core.blocks key with
    | none => .error "map::at"
    | some _ => .ok key

/-- PyTAT.cpp 204-207, 234-237: `dimensions[i] = edges[i].map.at(position[names[i]])`; `operator[]` of the
position gives the default symmetry for an unknown name. -/
def viewDims [LinearOrder ν] [TatSym σ] (position : List (ν × σ)) :
    List ν → List (Edge σ) → Outcome (List ℕ)
  | [], _ => .ok []
  | _ :: _, [] => .ub
  | n :: ns, e :: es =>
    match OMap.find? e.map ((OMap.find? position n).getD 0) with
    | none => .error "map::at"
    | some d => (viewDims position ns es).bind fun r => .ok (d :: r)

/-- PyTAT.cpp 208-214, 238-244: the distances in bytes, from the back. -/
def byteLeadings (size : ℕ) : List ℕ → List ℕ
  | [] => []
  | [_] => [size]
  | _ :: d' :: ds => (byteLeadings size (d' :: ds)).headD size * d' :: byteLeadings size (d' :: ds)

/-- PyTAT.cpp 197-217: the view for a position given as a map from names to symmetries. -/
def unorderedView [LinearOrder ν] [TatSym σ] (size : ℕ) (t : Tensor ν σ α) (position : List (ν × σ)) :
    Outcome (BlockView σ) :=
  (blockKey t position).bind fun key =>
  (viewDims position t.names t.core.edges).bind fun dims =>
  .ok ⟨key, dims, byteLeadings size dims⟩

/-- PyTAT.cpp 248: the axis of entry `i` of the position, `name_to_index.at(get<0>(position[i]))`.
There is no entry `i` when the position is too short: undefined. -/
def axisOf [LinearOrder ν] (names : List ν) (position : List (ν × σ)) (i : ℕ) : Outcome ℕ :=
  match position[i]? with
  | none => .ub
  | some x =>
    match OMap.find? (nameToIndex names) x.1 with
    | none => .error "map::at"
    | some j => .ok j

/-- PyTAT.cpp 245-251: the loop over the axes of the view. -/
def viewAxes [LinearOrder ν] (names : List ν) (position : List (ν × σ)) : List ℕ → Outcome (List ℕ)
  | [] => .ok []
  | i :: is =>
    (axisOf names position i).bind fun j =>
    (viewAxes names position is).bind fun r => .ok (j :: r)

/-- PyTAT.cpp 223-259: the view for a position given as a list of names and symmetries; the axes of the
view come in the order of the list. -/
def orderedView [LinearOrder ν] [TatSym σ] (size : ℕ) (t : Tensor ν σ α) (position : List (ν × σ)) :
    Outcome (BlockView σ) :=
  let positionMap := OMap.ofList position
  (blockKey t positionMap).bind fun key =>
  (viewDims positionMap t.names t.core.edges).bind fun dims =>
  (viewAxes t.names position (List.range t.names.length)).bind fun axes =>
  .ok ⟨key, axes.map (fun j => dims.getD j 0), axes.map (fun j => (byteLeadings size dims).getD j 0)⟩

/-- PyTAT.cpp 115-122, 183-190 `generate_vector_of_name_and_symmetry`: a list of names only. -/
def namesView [LinearOrder ν] [TatSym σ] (size : ℕ) (t : Tensor ν σ α) (names : List ν) :
    Outcome (BlockView σ) := orderedView size t (names.map fun n => (n, (0 : σ)))

/-- The address numpy computes for an index of the view, in bytes from the start of the block. -/
def byteOffset (v : BlockView σ) (idx : List ℕ) : ℕ := (List.zipWith (· * ·) idx v.strides).sum

/-- numpy refuses an index which is not inside the shape. -/
def insideShape (v : BlockView σ) (idx : List ℕ) : Bool :=
  v.shape.length == idx.length && (List.zipWith (fun d i => decide (i < d)) v.shape idx).all id

/-- numpy reads the element with the given index of the view.  An address that is not that of an element
of the block is undefined. -/
def viewRead [TatSym σ] (size : ℕ) (t : Tensor ν σ α) (v : BlockView σ) (idx : List ℕ) : Outcome α :=
  if insideShape v idx then
    match OMap.find? t.core.blocks v.key with
    | none => .ub
    | some data =>
      if byteOffset v idx % size = 0 then
        match data[byteOffset v idx / size]? with
        | none => .ub
        | some x => .ok x
      else .ub
  else .error "IndexError"

/-- numpy writes the element with the given index of the view. -/
def viewWrite [TatSym σ] (size : ℕ) (t : Tensor ν σ α) (v : BlockView σ) (idx : List ℕ) (value : α) :
    Outcome (Tensor ν σ α) :=
  if insideShape v idx then
    match OMap.find? t.core.blocks v.key with
    | none => .ub
    | some data =>
      if byteOffset v idx % size = 0 then
        if byteOffset v idx / size < data.length then
          .ok { t with core := { t.core with
            blocks := OMap.set t.core.blocks v.key (data.set (byteOffset v idx / size) value) } }
        else .ub
      else .ub
  else .error "IndexError"

end TAT
