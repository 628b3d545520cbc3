import Verif.Cow.Model

/-!
# Model of block views which are kept by a Python program

`PyTAT/PyTAT.cpp` 98-143, 158-259, 366: `tensor.block[position]` makes a numpy array on the buffer of
the block.  The array refers to the block object, the block object has the Python tensor as a member
(`py::object tensor`), and the buffer is the address `block.data()` inside the core the tensor has at
that moment.  So a view keeps the Python tensor alive, and remembers an address; it does not own the
core.

The heap of `Verif/Cow/Model.lean` is used: an address is that of a core, a view is the number of the
tensor it keeps and the address of the core.  Which block of the core is seen, and where its elements
are, is the subject of `Verif/Py/BlockModel.lean`; here the content of a core is opaque and a write
through a view is an arbitrary change of it.  Freed addresses are not given out again: a read or write of
a freed core is undefined behaviour in any case.

`assign` is an event of the C++ library only; it is kept in the histories because Python code can be
mixed with C++ extensions.
-/

namespace TAT.PyView

open TAT.Cow

variable {N C : Type}

/-- The heap, the views which are alive (tensor and address), and the tensors that the program has no
name for any more but which are still kept by a view. -/
structure PyState (N C : Type) where
  heap : State N C
  views : List (Option (ℕ × ℕ))
  dropped : List ℕ
deriving DecidableEq, Repr

/-- What a Python program does. -/
inductive PyEvent (N C : Type) where
  /-- a function of the library, Verif/Cow/Model.lean; `destroy h` is `del` of the name of the tensor -/
  | lib (ev : Event N C)
  /-- PyTAT.cpp 162-186 `view = tensor.block[position]` -/
  | take (h : ℕ)
  /-- a change of elements through the array -/
  | write (v : ℕ) (f : C → C)
  /-- `del view` -/
  | release (v : ℕ)
  /-- PyTAT.cpp 134-143 `tensor.block[position] = …` -/
  | setitem (h : ℕ) (f : C → C)

/-- Some view keeps tensor `h`: the reference to the Python object in PyTAT.cpp 105, 111. -/
def kept (views : List (Option (ℕ × ℕ))) (h : ℕ) : Bool :=
  views.any fun o => (o.map fun x => decide (x.1 = h)).getD false

/-- The tensors an event of the library is called with. -/
def arguments : Event N C → List ℕ
  | .create _ _ => []
  | .copy h => [h]
  | .rename h _ => [h]
  | .deepCopy h => [h]
  | .destroy h => [h]
  | .assign h h' => [h, h']
  | .update h _ => [h]
  | .combine h h' _ => [h, h']
  | .load h _ _ => [h]

/-- The view number `v`. -/
def viewAt (st : PyState N C) (v : ℕ) : Option (ℕ × ℕ) := (st.views[v]?).join

/-- The elements read through view number `v`: those of the core at its address, whoever has that core
now; if there is none, memory is read which has been freed. -/
def readView (st : PyState N C) (v : ℕ) : Outcome C :=
  match viewAt st v with
  | none => .error "NameError"
  | some (_, a) =>
    match content st.heap.cells a with
    | none => .ub
    | some (_, c) => .ok c

/-- The name of a tensor is deleted; the tensor itself goes when no view keeps it. -/
def dropTensor (st : PyState N C) (h : ℕ) : PyState N C :=
  if kept st.views h then { st with dropped := h :: st.dropped }
  else { st with heap := step st.heap (.destroy h) }

/-- PyTAT.cpp 196-217, 226-259: `tensor.block(position)` is the non-constant version, so that the tensor
gets a core of its own first (get_item.hpp 111-115). -/
def takeView (st : PyState N C) (h : ℕ) : PyState N C :=
  match takeReference st.heap h with
  | (heap, some a) => { st with heap := heap, views := st.views ++ [some (h, a)] }
  | (_, none) => st

/-- A view goes, and with it a tensor without name which was kept by this view only. -/
def releaseView (st : PyState N C) (v : ℕ) : PyState N C :=
  match viewAt st v with
  | none => st
  | some (h, _) =>
    let views := st.views.set v none
    if st.dropped.contains h && !kept views h then
      ⟨step st.heap (.destroy h), views, st.dropped.filter (· ≠ h)⟩
    else { st with views := views }

/-- A write through the array: to the core at its address. -/
def writeView (st : PyState N C) (v : ℕ) (f : C → C) : Outcome (PyState N C) :=
  match viewAt st v with
  | none => .ok st
  | some (_, a) =>
    match content st.heap.cells a with
    | none => .ub
    | some _ => .ok { st with heap := writeReference st.heap a f }

/-- PyTAT.cpp 134-143: make a view, write through it, and let it go. -/
def setItem (st : PyState N C) (h : ℕ) (f : C → C) : Outcome (PyState N C) :=
  (writeView (takeView st h) st.views.length f).bind fun st =>
  .ok { st with views := st.views.dropLast }

/-- One event.  A tensor without name cannot be an argument. -/
def pyStep (st : PyState N C) : PyEvent N C → Outcome (PyState N C)
  | .lib ev =>
    if (arguments ev).any st.dropped.contains then .ok st else
    match ev with
    | .destroy h => .ok (dropTensor st h)
    | ev => .ok { st with heap := step st.heap ev }
  | .take h => if st.dropped.contains h then .ok st else .ok (takeView st h)
  | .write v f => writeView st v f
  | .release v => .ok (releaseView st v)
  | .setitem h f =>
    if st.dropped.contains h || (handle st.heap h).isNone then .ok st else setItem st h f

/-- A history. -/
def pyRun : PyState N C → List (PyEvent N C) → Outcome (PyState N C)
  | st, [] => .ok st
  | st, ev :: evs => (pyStep st ev).bind fun st => pyRun st evs

/-- No tensors and no views. -/
def PyState.init : PyState N C := ⟨State.init, [], []⟩

end TAT.PyView
