import Verif.Basic.Outcome

/-!
# Model of the sharing of tensor cores

`include/TAT/tensor.hpp` 145-148 (`core` is a shared pointer), 168-182 (`copy`), 190-195 (default copy
and move), 285-296 (`transform`, and through it `set`, `zero`, `test`),
`include/TAT/edge_miscellaneous.hpp` 29-48 and `include/TAT/edge_operator.hpp` 129-138 (results that
share the core), `include/TAT/get_item.hpp` 107-151 (`block`, `at`),
`include/TAT/scalar.hpp` 139-193 (in-place arithmetic), `include/TAT/io.hpp` 482, 615 (`load`).

The heap is a list of cells; a cell holds the reference count of `std::shared_ptr` and a core, and
becomes `none` when it is freed.  Names and cores are arbitrary types, in-place modifications are
arbitrary functions.  Events on handles that are not alive do nothing.
-/

namespace TAT.Cow

variable {N C : Type}

/-- Heap cells and tensor handles (names and the address of the core). -/
structure State (N C : Type) where
  cells : List (Option (ℕ × C))
  handles : List (Option (N × ℕ))
deriving DecidableEq, Repr

/-- Increment of the reference count when a `shared_ptr` is copied. -/
def acquire (cells : List (Option (ℕ × C))) (a : ℕ) : List (Option (ℕ × C)) :=
  match cells[a]? with
  | some (some (n, c)) => cells.set a (some (n + 1, c))
  | _ => cells

/-- Decrement when a `shared_ptr` is destroyed or overwritten; the last owner frees the core. -/
def release (cells : List (Option (ℕ × C))) (a : ℕ) : List (Option (ℕ × C)) :=
  match cells[a]? with
  | some (some (n, c)) => cells.set a (if n = 1 then none else some (n - 1, c))
  | _ => cells

/-- `std::make_shared<Core>`: a new cell with one owner; its address is the old length. -/
def alloc (cells : List (Option (ℕ × C))) (c : C) : List (Option (ℕ × C)) :=
  cells ++ [some (1, c)]

/-- The events of a history. -/
inductive Event (N C : Type) where
  /-- tensor.hpp 161-167, a new tensor -/
  | create (names : N) (core : C)
  /-- tensor.hpp 190, copy construction shares the core -/
  | copy (h : ℕ)
  /-- edge_miscellaneous.hpp 29-48, edge_operator.hpp 129-138: new names, shared core -/
  | rename (h : ℕ) (f : N → N)
  /-- tensor.hpp 174-180 `copy()` -/
  | deepCopy (h : ℕ)
  /-- tensor.hpp 194 destructor -/
  | destroy (h : ℕ)
  /-- tensor.hpp 192 copy assignment `h := h'` -/
  | assign (h h' : ℕ)
  /-- tensor.hpp 285-296, get_item.hpp 107-151, scalar.hpp 163-176: modification in place -/
  | update (h : ℕ) (f : C → C)
  /-- scalar.hpp 137-160: in-place operation with a second tensor -/
  | combine (h h' : ℕ) (f : C → C → C)
  /-- io.hpp 482, 615: loading into a tensor replaces names and core -/
  | load (h : ℕ) (names : N) (core : C)

/-- The live handle number `h`. -/
def handle (st : State N C) (h : ℕ) : Option (N × ℕ) := (st.handles[h]?).join

/-- The contents of a cell. -/
def content (cells : List (Option (ℕ × C))) (a : ℕ) : Option (ℕ × C) := (cells[a]?).join

/-- `if (core.use_count() != 1) core = make_shared(*core)`, tensor.hpp 286-289, get_item.hpp
111-115, 140-144, scalar.hpp 139-142, 164-167. -/
def ensureUnique (st : State N C) (h : ℕ) : State N C :=
  match handle st h with
  | none => st
  | some (names, a) =>
    match content st.cells a with
    | none => st
    | some (n, c) =>
      if n ≠ 1 then
        ⟨release (alloc st.cells c) a, st.handles.set h (some (names, st.cells.length))⟩
      else st

/-- Write to the core of a handle, without any check. -/
def modify (st : State N C) (h : ℕ) (f : C → C) : State N C :=
  match handle st h with
  | none => st
  | some (_, a) =>
    match content st.cells a with
    | none => st
    | some (n, c) => { st with cells := st.cells.set a (some (n, f c)) }

/-- The core a handle refers to. -/
def coreOf (st : State N C) (h : ℕ) : Option C :=
  (handle st h).bind fun x => (content st.cells x.2).map Prod.snd

/-- Effect of one event. -/
def step (st : State N C) : Event N C → State N C
  | .create names core => ⟨alloc st.cells core, st.handles ++ [some (names, st.cells.length)]⟩
  | .copy h =>
    match handle st h with
    | none => st
    | some (names, a) => ⟨acquire st.cells a, st.handles ++ [some (names, a)]⟩
  | .rename h f =>
    match handle st h with
    | none => st
    | some (names, a) => ⟨acquire st.cells a, st.handles ++ [some (f names, a)]⟩
  | .deepCopy h =>
    match handle st h, coreOf st h with
    | some (names, _), some c =>
      ⟨alloc st.cells c, st.handles ++ [some (names, st.cells.length)]⟩
    | _, _ => st
  | .destroy h =>
    match handle st h with
    | none => st
    | some (_, a) => ⟨release st.cells a, st.handles.set h none⟩
  | .assign h h' =>
    match handle st h, handle st h' with
    | some (_, a), some (names, a') =>
      ⟨release (acquire st.cells a') a, st.handles.set h (some (names, a'))⟩
    | _, _ => st
  | .update h f => modify (ensureUnique st h) h f
  | .combine h h' f =>
    let st1 := ensureUnique st h
    match coreOf st1 h' with
    | none => st
    | some c' => modify st1 h (fun c => f c c')
  | .load h names core =>
    match handle st h with
    | none => st
    | some (_, a) =>
      ⟨release (alloc st.cells core) a, st.handles.set h (some (names, st.cells.length))⟩

/-- No tensors. -/
def State.init : State N C := ⟨[], []⟩

/-! ## References that outlive the call

`at` and `block` return a reference into the core.  The events below model a program that keeps
such a reference. -/

/-- get_item.hpp 107-121, 136-151: take a reference through handle `h`; it is the address of the
core. -/
def takeReference (st : State N C) (h : ℕ) : State N C × Option ℕ :=
  let st1 := ensureUnique st h
  (st1, (handle st1 h).map Prod.snd)

/-- Write through a reference taken earlier. -/
def writeReference (st : State N C) (a : ℕ) (f : C → C) : State N C :=
  match content st.cells a with
  | none => st
  | some (n, c) => { st with cells := st.cells.set a (some (n, f c)) }

end TAT.Cow
