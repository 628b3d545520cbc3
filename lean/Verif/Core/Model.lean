import Verif.Symmetry.Class
import Verif.Basic.OMap
import Verif.Basic.Outcome
import Mathlib.Data.List.Lex

/-!
# Model of `include/TAT/edge.hpp` and `include/TAT/core.hpp`

Edges, `loop_edge`, `initialize_block_symmetries_with_check` and the constructor of `Core`.
`std::map` is an ascending association list (`OMap`), an iterator into an edge map is the position
of the entry it points to.
-/

namespace TAT

variable {σ α : Type}

/-- edge.hpp 116-258 `Edge<Symmetry>`: a map from symmetry values to dimensions and, for fermionic
symmetries, an arrow.  Bosonic edges have no arrow; there the field is never read. -/
structure Edge (σ : Type) where
  /-- edge.hpp 177 `Arrow arrow = false` -/
  arrow : Bool := false
  /-- edge.hpp 126, 178 `map_type map` -/
  map : List (σ × ℕ) := []
deriving DecidableEq, Repr

/-- edge.hpp 219-226 `possible_reverse`: the arrow is flipped once if some fermion number in the
map is negative. -/
def possibleReverse [TatSym σ] (e : Edge σ) : Edge σ :=
  if e.map.any (fun p => TatSym.fermi p.1 < 0) then { e with arrow := e.arrow ^^ true } else e

/-- edge.hpp 231-238 `arrow_valid`. -/
def arrowValid [TatSym σ] (e : Edge σ) : Bool := e.map.any (fun p => TatSym.fermi p.1 != 0)

/-! ## `loop_edge` -/

/-- edge.hpp 300-308: `++symmetry_iterator_list[edge_position]` followed by the `while` loop that
carries to the left.  `sizes` are the map sizes.  `none` is the `return` of line 303; otherwise the
new iterators and the final `edge_position`. -/
def carry (sizes : List ℕ) : ℕ → List ℕ → Option (List ℕ × ℕ)
  | pos, it =>
    let it := it.set pos (it.getD pos 0 + 1)
    if it.getD pos 0 = sizes.getD pos 0 then
      match pos with
      | 0 => none
      | p + 1 => carry sizes p (it.set (p + 1) 0)
    else some (it, pos)

/-- edge.hpp 296-310: the `while (true)` loop, run for at most `fuel` visits. -/
def loopFrom {S : Type} (sizes : List ℕ) (operate : List ℕ → ℕ → S → ℕ × S) :
    ℕ → List ℕ → ℕ → S → S
  | 0, _, _, s => s
  | fuel + 1, it, minimumChanged, s =>
    let (mc, s') := operate it minimumChanged s
    match carry sizes (sizes.length - 1) it with
    | none => s'
    | some (it', pos) => loopFrom sizes operate fuel it' (if mc < pos then mc else pos) s'

/-- edge.hpp 278-311 `loop_edge`.  `S` is the state the callbacks work on.  The loop never needs
more visits than there are combinations (theorem `C06_loop_edge` and `C06_fuel_irrelevant`). -/
def loopEdge {S : Type} (maps : List (List (σ × ℕ))) (rank0 dims0 : S → S)
    (operate : List ℕ → ℕ → S → ℕ × S) (s : S) : S :=
  if maps.length = 0 then rank0 s
  else if maps.any (fun m => m.isEmpty) then dims0 s
  else
    let sizes := maps.map List.length
    loopFrom sizes operate sizes.prod (List.replicate maps.length 0) 0 s

/-- Dereference of `symmetry_iterator_list[i]`. -/
def deref [Zero σ] (maps : List (List (σ × ℕ))) (it : List ℕ) (i : ℕ) : σ × ℕ :=
  (maps.getD i []).getD (it.getD i 0) (0, 0)

/-! ## `initialize_block_symmetries_with_check` -/

/-- Local variables of edge.hpp 314-344. -/
structure InitState (σ : Type) where
  result : List (List σ × ℕ)
  symmetries : List σ
  sizes : List ℕ

/-- edge.hpp 334-337: the inner `for` loop refreshing the caches from `minimum_changed` on. -/
def refreshCaches [Zero σ] (maps : List (List (σ × ℕ))) (it : List ℕ) (rank minimumChanged : ℕ)
    (symmetries : List σ) (sizes : List ℕ) : List σ × List ℕ :=
  (List.range' minimumChanged (rank - minimumChanged)).foldl
    (fun (c : List σ × List ℕ) i =>
      (c.1.set i (deref maps it i).1,
       c.2.set i ((deref maps it i).2 * (if i = 0 then 1 else c.2.getD (i - 1) 0))))
    (symmetries, sizes)

/-- edge.hpp 328-342: the callback. -/
def initOperate [TatSym σ] (maps : List (List (σ × ℕ))) (it : List ℕ) (minimumChanged : ℕ)
    (s : InitState σ) : ℕ × InitState σ :=
  let rank := maps.length
  let summary := (List.range rank).foldl (fun acc i => acc + (deref maps it i).1) (0 : σ)
  if summary = 0 then
    let c := refreshCaches maps it rank minimumChanged s.symmetries s.sizes
    (rank, ⟨s.result ++ [(c.1, c.2.getLastD 0)], c.1, c.2⟩)
  else (minimumChanged, s)

/-- edge.hpp 314-344 `initialize_block_symmetries_with_check`: the list of block symmetries and
block sizes. -/
def initBlocks [TatSym σ] (edges : List (Edge σ)) : List (List σ × ℕ) :=
  let maps := edges.map Edge.map
  let rank := edges.length
  (loopEdge maps
    (fun s => { s with result := s.result ++ [([], 1)] })
    (fun s => s)
    (initOperate maps)
    (⟨[], List.replicate rank 0, List.replicate rank 0⟩ : InitState σ)).result

/-! ## `Core` -/

/-- core.hpp 110-183 `Core<ScalarType, Symmetry>`. -/
structure Core (σ α : Type) where
  /-- core.hpp 115 -/
  edges : List (Edge σ)
  /-- core.hpp 128 -/
  blocks : List (List σ × List α)
deriving DecidableEq, Repr

/-- core.hpp 157-162: one mark per symmetry of an edge, all `true`. -/
def initialMark [TatSym σ] (e : Edge σ) : List (σ × Bool) :=
  e.map.foldl (fun m p => OMap.set m p.1 true) []

/-- core.hpp 165: `edge_mark[i].at(symmetries[i]) = false`; `.at` throws when the symmetry is
missing. -/
def clearMark [TatSym σ] (symmetries : List σ) (marks : List (List (σ × Bool))) (i : ℕ) :
    Outcome (List (List (σ × Bool))) :=
  match OMap.find? (marks.getD i []) (symmetries.getD i 0) with
  | none => .error "map::at"
  | some _ => .ok (marks.set i (OMap.set (marks.getD i []) (symmetries.getD i 0) false))

/-- core.hpp 163-167: clear the marks of the symmetries used by one block. -/
def clearMarks [TatSym σ] (marks : List (List (σ × Bool))) (symmetries : List σ) :
    Outcome (List (List (σ × Bool))) :=
  (List.range marks.length).foldlM (clearMark symmetries) marks

/-- core.hpp 169-173: erase the symmetries whose mark is still set. -/
def pruneEdge [TatSym σ] (e : Edge σ) (mark : List (σ × Bool)) : Edge σ :=
  { e with map := mark.foldl (fun m p => if p.2 then OMap.erase m p.1 else m) e.map }

/-- core.hpp 137-175 `Core::Core(initial_edge, auto_reverse)`.  The fresh data vectors are not
initialised (`allocator_without_initialize`): their content is the arbitrary `junk`. -/
def newCore [TatSym σ] (junk : List σ → ℕ → α) (initialEdge : List (Edge σ))
    (autoReverse : Bool := false) : Outcome (Core σ α) :=
  let edges :=
    if TatSym.isFermi σ && autoReverse then initialEdge.map possibleReverse else initialEdge
  let blocks := (initBlocks edges).foldl
    (fun m p => OMap.set m p.1 ((List.range p.2).map (junk p.1))) []
  (blocks.foldlM (fun marks p => clearMarks marks p.1) (edges.map initialMark)).bind fun marks =>
  .ok ⟨(List.range edges.length).map (fun i => pruneEdge (edges.getD i {}) (marks.getD i [])),
       blocks⟩

end TAT
