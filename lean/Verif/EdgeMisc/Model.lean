import Verif.EdgeOp.Model

/-!
# Model of `include/TAT/edge_miscellaneous.hpp`

`edge_rename`, `transpose`, `reverse_edge`, `merge_edge` and `split_edge`; all but the first are
calls of `edge_operator`.
-/

namespace TAT

variable {ν σ α : Type}

/-- edge_miscellaneous.hpp 29-48 `edge_rename`, when the type of names stays the same: names missing
in the dictionary are kept.  The core is shared. -/
def edgeRename [LinearOrder ν] (t : Tensor ν σ α) (dictionary : List (ν × ν)) : Tensor ν σ α :=
  ⟨t.names.map fun n =>
    match OMap.find? dictionary n with
    | some n' => n'
    | none => n, t.core⟩

/-- edge_miscellaneous.hpp 36-45: the names after a renaming that changes the type of names. -/
def renameNames {ν' : Type} [LinearOrder ν] (dictionary : List (ν × ν')) :
    List ν → Outcome (List ν')
  | [] => .ok []
  | n :: ns =>
    match OMap.find? dictionary n with
    | some n' => (renameNames dictionary ns).bind fun r => .ok (n' :: r)
    | none => .error "New names not found in edge_rename which change type of name"

/-- edge_miscellaneous.hpp 29-48 `edge_rename`, when the type of names changes. -/
def edgeRenameType {ν' : Type} [LinearOrder ν] (t : Tensor ν σ α) (dictionary : List (ν × ν')) :
    Outcome (Tensor ν' σ α) :=
  (renameNames dictionary t.names).bind fun names => .ok ⟨names, t.core⟩

variable [LinearOrder ν] [TatSym σ] [Neg α] [Zero α]

/-- edge_miscellaneous.hpp 50-54 `transpose`. -/
def transpose (env : Env σ α) (t : Tensor ν σ α) (targetNames : List ν) : Outcome (Tensor ν σ α) :=
  edgeOperator env t { newNames := targetNames }

/-- edge_miscellaneous.hpp 56-62 `reverse_edge`. -/
def reverseEdge (env : Env σ α) (t : Tensor ν σ α) (reversedName : List ν)
    (applyParity : Bool := false) (exclude : List ν := []) : Outcome (Tensor ν σ α) :=
  edgeOperator env t {
    reversed := reversedName
    newNames := t.names
    applyParity := applyParity
    excludeReverse := exclude }

/-- edge_miscellaneous.hpp 73-86: drop the names which do not exist from the merge lists. -/
def mergeExisting (names : List ν) (merge : List (ν × List ν)) : List (ν × List ν) :=
  merge.map fun m => (m.1, m.2.filter fun n => decide (n ∈ names))

/-- edge_miscellaneous.hpp 89-108: what one name contributes to the (reversed) target names. -/
def mergeTargetStep (merge : List (ν × List ν)) (n : ν) : List ν :=
  match merge.find? fun m => decide (n ∈ m.2) with
  | some m => if m.2.getLast? = some n then [m.1] else []
  | none => [n]

/-- edge_miscellaneous.hpp 87-115: the target names. -/
def mergeTarget (names : List ν) (merge : List (ν × List ν)) : List ν :=
  (names.reverse.flatMap (mergeTargetStep merge) ++
    (merge.filter fun m => m.2.isEmpty).map Prod.fst).reverse

/-- edge_miscellaneous.hpp 64-122 `merge_edge`. -/
def mergeEdge (env : Env σ α) (t : Tensor ν σ α) (merge : List (ν × List ν))
    (applyParity : Bool := false) (excludeMerge : List ν := []) (excludeReverse : List ν := []) :
    Outcome (Tensor ν σ α) :=
  let merge := mergeExisting t.names merge
  edgeOperator env t {
    merge := merge
    newNames := mergeTarget t.names merge
    applyParity := applyParity
    excludeReverseMerge := excludeReverse
    excludeMerge := excludeMerge }

/-- edge_miscellaneous.hpp 131-139: drop the edges which do not exist. -/
def splitExisting (names : List ν) (split : List (ν × List (ν × List (σ × ℕ)))) :
    List (ν × List (ν × List (σ × ℕ))) :=
  split.filter fun x => decide (x.1 ∈ names)

/-- edge_miscellaneous.hpp 141-151: the target names. -/
def splitTarget (names : List ν) (split : List (ν × List (ν × List (σ × ℕ)))) : List ν :=
  names.flatMap fun n =>
    match OMap.find? split n with
    | some parts => parts.map Prod.fst
    | none => [n]

/-- edge_miscellaneous.hpp 124-154 `split_edge`. -/
def splitEdge (env : Env σ α) (t : Tensor ν σ α) (split : List (ν × List (ν × List (σ × ℕ))))
    (applyParity : Bool := false) (excludeSplit : List ν := []) : Outcome (Tensor ν σ α) :=
  let split := splitExisting t.names split
  edgeOperator env t {
    split := split
    newNames := splitTarget t.names split
    applyParity := applyParity
    excludeSplit := excludeSplit }

end TAT
