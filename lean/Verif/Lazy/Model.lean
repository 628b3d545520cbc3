import Mathlib.Logic.Function.Basic
import Verif.Basic.Outcome

/-!
# Lazy evaluation graphs

include/lazy.hpp.  Objects are numbered in the order of their creation; all values have one type `V`
(the code keeps them in `std::any` or in typed nodes).  A value sits in a cell with an identity, so that a
reference that outlives its cell is noticed (outcome `ub`).  One graph only (238-245 `use_graph` is not
modelled).  The arguments of a function are evaluated from left to right.  Expired weak pointers are
skipped, not removed (64-69, 211-216, 223-228).
-/

namespace TAT

variable {V : Type}

/-- lazy.hpp 95-197: what an object is.  249-252 `function_wrapper`: the function and its arguments. -/
inductive LazyItem (V : Type) where
  | root
  | node (f : List V → V) (args : List ℕ)
  | path (f : List V → V) (args : List ℕ)

/-- The objects whose values are read by the function of the object. -/
def LazyItem.args : LazyItem V → List ℕ
  | root => []
  | node _ args => args
  | path _ args => args

/-- lazy.hpp 82 `data_lazy_base` -/
def LazyItem.isData : LazyItem V → Bool
  | path _ _ => false
  | _ => true

/-- All objects ever made, their values (118, 160), their `downstream` (77), which of them exist, the
identity of the next cell, the nodes of the graph (206) and the snapshots the user has (200). -/
structure LazyState (V : Type) where
  items : List (LazyItem V)
  cells : ℕ → Option (ℕ × V)
  down : ℕ → List ℕ
  alive : ℕ → Bool
  next : ℕ
  graph : List ℕ
  snaps : List (List (ℕ × Option (ℕ × V)))

/-- Nothing made yet. -/
def lazyStart : LazyState V := ⟨[], fun _ => none, fun _ => [], fun _ => false, 0, [], []⟩

/-- lazy.hpp 100, 120-122, 162-164 `release` -/
def lazyRelease (s : LazyState V) (cells : ℕ → Option (ℕ × V)) (i : ℕ) : ℕ → Option (ℕ × V) :=
  match s.items[i]? with
  | some (.path _ _) => cells
  | _ => Function.update cells i none

/-- lazy.hpp 61-71 `unset`; the first argument bounds the depth. -/
def lazyUnset (s : LazyState V) : ℕ → (ℕ → Option (ℕ × V)) → ℕ → (ℕ → Option (ℕ × V))
  | 0, cells, _ => cells
  | fuel + 1, cells, i =>
    (s.down i).foldl (fun c j => if s.alive j then lazyUnset s fuel c j else c) (lazyRelease s cells i)

/-- lazy.hpp 139-146, 166-173 `set` -/
def lazySet (s : LazyState V) (i : ℕ) (v : V) : LazyState V :=
  { s with
    cells := Function.update (lazyUnset s s.items.length s.cells i) i (some (s.next, v))
    next := s.next + 1 }

/-- The values of arguments, with the cells they refer to. -/
def lazyEval (get : LazyState V → ℕ → Outcome (V × LazyState V)) :
    List ℕ → LazyState V → Outcome (List (V × ℕ × Option ℕ) × LazyState V)
  | [], s => .ok ([], s)
  | a :: as, s => (get s a).bind fun r => (lazyEval get as r.2).bind fun q =>
      .ok ((r.1, a, (r.2.cells a).map Prod.fst) :: q.1, q.2)

/-- lazy.hpp 251: the arguments of the function, references that must still be valid. -/
def lazyArgs (get : LazyState V → ℕ → Outcome (V × LazyState V)) (args : List ℕ) (s : LazyState V) :
    Outcome (List V × LazyState V) :=
  (lazyEval get args s).bind fun r =>
    if r.1.all fun x => decide ((r.2.cells x.2.1).map Prod.fst = x.2.2) then .ok (r.1.map Prod.fst, r.2)
    else .ub

/-- lazy.hpp 103-105, 125-127, 176-181 `get`; the first argument bounds the depth. -/
def lazyGetAux : ℕ → LazyState V → ℕ → Outcome (V × LazyState V)
  | 0, _, _ => .ub
  | fuel + 1, s, i =>
    match s.items[i]? with
    | none => .ub
    | some .root =>
      match s.cells i with
      | none => .ub
      | some c => .ok (c.2, s)
    | some (.path f args) => (lazyArgs (lazyGetAux fuel) args s).bind fun r => .ok (f r.1, r.2)
    | some (.node f args) =>
      match s.cells i with
      | some c => .ok (c.2, s)
      | none => (lazyArgs (lazyGetAux fuel) args s).bind fun r => .ok (f r.1, lazySet r.2 i (f r.1))

/-- `get` of an object. -/
def lazyGet (s : LazyState V) (i : ℕ) : Outcome (V × LazyState V) := lazyGetAux s.items.length s i

/-- What a user can do.  `destroy` is the end of the last reference to an object. -/
inductive LazyOp (V : Type) where
  | newRoot (v : Option V)
  | newNode (f : List V → V) (args : List ℕ)
  | newPath (f : List V → V) (args : List ℕ)
  | set (i : ℕ) (v : V)
  | unset (i : ℕ)
  | get (i : ℕ)
  | destroy (i : ℕ)
  | dump
  | load (k : ℕ)

/-- lazy.hpp 277, 288: the new object is entered at all its arguments. -/
def lazyLink (s : LazyState V) (args : List ℕ) : ℕ → List ℕ :=
  fun a => s.down a ++ (args.filter (· = a)).map fun _ => s.items.length

/-- lazy.hpp 208-219 `Graph::dump` -/
def lazyDump (s : LazyState V) : List (ℕ × Option (ℕ × V)) :=
  (s.graph.filter fun i => s.alive i).map fun i => (i, s.cells i)

/-- lazy.hpp 220-230 `Graph::load` with 129-131, 190-192 -/
def lazyLoad (s : LazyState V) (snap : List (ℕ × Option (ℕ × V))) : LazyState V :=
  { s with cells := snap.foldl (fun c e => if s.alive e.1 then Function.update c e.1 e.2 else c) s.cells }

/-- One operation.  `error`: the user does not have the object or snapshot, or it still is referred to. -/
def lazyStep (s : LazyState V) : LazyOp V → Outcome (LazyState V)
  | .newRoot v => .ok { s with
      items := s.items ++ [.root]
      cells := Function.update s.cells s.items.length (v.map fun v => (s.next, v))
      next := s.next + 1
      alive := Function.update s.alive s.items.length true
      graph := s.graph ++ [s.items.length] }
  | .newNode f args =>
    if args.all s.alive then .ok { s with
      items := s.items ++ [.node f args]
      down := lazyLink s args
      alive := Function.update s.alive s.items.length true
      graph := s.graph ++ [s.items.length] }
    else .error "not an object"
  | .newPath f args =>
    if args.all s.alive then .ok { s with
      items := s.items ++ [.path f args]
      down := lazyLink s args
      alive := Function.update s.alive s.items.length true }
    else .error "not an object"
  | .set i v =>
    match s.items[i]? with
    | some .root => if s.alive i then .ok (lazySet s i v) else .error "not an object"
    | _ => .error "not a root"
  | .unset i =>
    match s.items[i]? with
    | some .root =>
      if s.alive i then .ok { s with cells := lazyUnset s s.items.length s.cells i }
      else .error "not an object"
    | _ => .error "not a root"
  | .get i => if s.alive i then (lazyGet s i).bind fun r => .ok r.2 else .error "not an object"
  | .destroy i =>
    if s.alive i ∧ (List.range s.items.length).all fun j =>
        !s.alive j || !((s.items[j]?.map LazyItem.args).getD []).contains i then
      .ok { s with alive := Function.update s.alive i false }
    else .error "in use"
  | .dump => .ok { s with snaps := s.snaps ++ [lazyDump s] }
  | .load k =>
    match s.snaps[k]? with
    | some snap => .ok (lazyLoad s snap)
    | none => .error "no such snapshot"

/-- A history. -/
def lazyRun : List (LazyOp V) → LazyState V → Outcome (LazyState V)
  | [], s => .ok s
  | op :: ops, s => (lazyStep s op).bind (lazyRun ops)

end TAT
